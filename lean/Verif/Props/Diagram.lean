import Verif.Lemmas.Diagram
import Verif.Props.Circuit

/-!
# Text diagrams: C57, C58

`onePassOfBlocks`, `seenAt`, `Blank`, `Trimmed` and `Room` are defined in `Verif/Spec/Diagram.lean`.
-/

namespace Honeycomb

/-! ## C57 -/

/-- C57: without `only_repeat_block` (and with any level below 1) the iteration yields the unrolled instruction sequence, repeated as
requested. -/
theorem c57_unrolled (c : Circuit) (reps : Nat) (nested : Int) (h : nested ≤ 0) :
    iterCircuit c reps nested = (List.replicate reps c.flatten).flatten := by
  rw [iterCircuit, flatMap_const, length_pyRange, iterOnce_flatten c nested h]
  rfl

/-- C57: with `only_repeat_block` it yields the coordinates outside of blocks and one pass through every top-level block. -/
theorem c57_only_blocks (c : Circuit) : iterCircuit c 1 1 = onePassOfBlocks c := by
  rw [iterCircuit, flatMap_const, iterOnce_one]
  simp [length_pyRange]

/-- A circuit with nested blocks. -/
def nestedDemo : Circuit :=
  .op { gate := .QUBIT_COORDS, targets := [.q 0] } (.op (.on .R [0])
    (.rep 3 (.op (.on .H [0]) (.rep 2 (.op .tick .nil) .nil)) (.op (.on .M [0]) .nil)))

example : iterCircuit nestedDemo 1 0 =
    [{ gate := .QUBIT_COORDS, targets := [.q 0] }, .on .R [0], .on .H [0], .tick, .tick, .on .H [0], .tick, .tick, .on .H [0],
      .tick, .tick, .on .M [0]] := by decide

example : iterCircuit nestedDemo 1 1 = [{ gate := .QUBIT_COORDS, targets := [.q 0] }, .on .H [0], .tick, .tick] := by decide

/-! ## C58 -/

/-- The dictionary passed to `diagram_2d`. -/
def cellValues (cells : List ((Nat × Nat) × Text)) : PyDict Pt Text := cells.map fun e => (Pt.ofInt e.1.1 e.1.2, e.2)

/-- The text at a column of a line. -/
def cellRow (cells : List ((Nat × Nat) × Text)) (y x : Nat) : Option Text := PyDict.get? (cellValues cells) (Pt.ofInt x y)

theorem ofInt_inj {a b c d : Nat} : Pt.ofInt a b = Pt.ofInt c d ↔ a = c ∧ b = d := by
  constructor
  · intro h
    have h1 := congrArg Pt.x h
    have h2 := congrArg Pt.y h
    simp only [Pt.ofInt_x, Pt.ofInt_y] at h1 h2
    omega
  · rintro ⟨rfl, rfl⟩; rfl

theorem cellRow_iff {cells : List ((Nat × Nat) × Text)} (hn : (cells.map Prod.fst).Nodup) {x y : Nat} {t : Text} :
    cellRow cells y x = some t ↔ ((x, y), t) ∈ cells := by
  rw [cellRow, PyDict.get?_eq_some_of_nodup]
  · simp only [cellValues, List.mem_map, Prod.mk.injEq, ofInt_inj]
    constructor
    · rintro ⟨⟨⟨a, b⟩, t'⟩, h, ⟨h1, h2⟩, h3⟩
      simp only at h1 h2 h3
      subst h1 h2 h3
      exact h
    · intro h
      exact ⟨_, h, ⟨rfl, rfl⟩, rfl⟩
  · have : (cellValues cells).map Prod.fst = (cells.map Prod.fst).map fun p => Pt.ofInt p.1 p.2 := by
      simp [cellValues, List.map_map, Function.comp_def]
    rw [this]
    exact hn.map fun p q h => Prod.ext (ofInt_inj.1 h).1 (ofInt_inj.1 h).2

/-- The lines of the diagram of `cells`, before trimming, when there are `w` columns. -/
theorem diagramLine_eq (cells : List ((Nat × Nat) × Text)) (w y : Nat) :
    diagramLine (cellValues cells) w y = rowFold (cellRow cells y) w := by
  rw [diagramLine, rowFold, pyRange, List.foldlM_map]
  rfl

theorem le_max? {l : List Int} {a : Int} (h : a ∈ l) : a ≤ l.max?.getD 0 := by
  cases hm : l.max? with
  | none => rw [List.max?_eq_none_iff] at hm; simp [hm] at h
  | some m => exact (List.max?_eq_some_iff.1 hm).2 a h

theorem max?_mem_or {l : List Int} : l.max?.getD 0 = 0 ∨ l.max?.getD 0 ∈ l := by
  cases hm : l.max? with
  | none => exact Or.inl rfl
  | some m => exact Or.inr (List.max?_eq_some_iff.1 hm).1

theorem lines_ok (values : PyDict Pt Text) (w : Int) (rows : Nat → Text) : ∀ h : Nat,
    (∀ y, y < h → diagramLine values w y = .ok (rows y)) →
    diagramLines values w h = .ok (((List.range h).map fun y => rstrip (rows y)).flatMap fun l => l ++ ['\n']) := by
  intro h
  rw [diagramLines, pyRange, List.foldlM_map, Int.toNat_natCast]
  induction h with
  | zero => intro _; rfl
  | succ h ih =>
    intro hy
    rw [List.range_succ, List.foldlM_append, ih fun y hy' => hy y (by omega)]
    simp [bind, Except.bind, pure, Except.pure, hy h (by omega), List.flatMap_append, Int.ofNat_eq_natCast]

theorem lines_error (values : PyDict Pt Text) (w : Int) : ∀ h : Nat,
    (∀ y, y < h → (∃ row, diagramLine values w y = .ok row) ∨ diagramLine values w y = .error .assertion) →
    (∃ y, y < h ∧ diagramLine values w y = .error .assertion) →
    diagramLines values w h = .error .assertion := by
  intro h
  rw [diagramLines, pyRange, List.foldlM_map, Int.toNat_natCast]
  induction h with
  | zero => rintro _ ⟨y, hy, _⟩; omega
  | succ h ih =>
    intro hall ⟨y, hy, he⟩
    rw [List.range_succ, List.foldlM_append]
    by_cases hex : ∃ y, y < h ∧ diagramLine values w y = .error .assertion
    · rw [ih (fun y hy' => hall y (by omega)) hex]
      rfl
    · have hyh : y = h := by
        by_contra hne
        exact hex ⟨y, by omega, he⟩
      subst hyh
      have hok : ∀ y', y' < y → ∃ row, diagramLine values w y' = .ok row := fun y' hy' =>
        (hall y' (by omega)).resolve_right fun hh => hex ⟨y', hy', hh⟩
      choose! rows hrows using hok
      have := lines_ok values w rows y hrows
      rw [diagramLines, pyRange, List.foldlM_map, Int.toNat_natCast] at this
      rw [this]
      simp [bind, Except.bind, he, Int.ofNat_eq_natCast]

theorem diagram2d_cells (cells : List ((Nat × Nat) × Text)) :
    ∃ w h : Nat, (∀ x y t, ((x, y), t) ∈ cells → x < w ∧ y < h) ∧
      diagram2d (cellValues cells) = (diagramLines (cellValues cells) w h).map rstrip := by
  have hx : ∀ l : List ((Nat × Nat) × Text), ∃ n : Nat, extent ((PyDict.keys (cellValues l)).map Pt.x) = n ∧ ∀ e ∈ l, e.1.1 < n := by
    intro l
    refine ⟨(extent ((PyDict.keys (cellValues l)).map Pt.x)).toNat, ?_, ?_⟩
    · rw [Int.toNat_of_nonneg]
      rw [extent]
      rcases max?_mem_or (l := (PyDict.keys (cellValues l)).map Pt.x) with h | h
      · rw [h]; decide
      · simp only [PyDict.keys, cellValues, List.map_map, List.mem_map, Function.comp] at h
        obtain ⟨e, _, he⟩ := h
        simp only [PyDict.keys, cellValues, List.map_map, Function.comp_def] at he ⊢
        rw [← he]
        simp only [Pt.ofInt_x]
        omega
    · intro e he
      have := le_max? (l := (PyDict.keys (cellValues l)).map Pt.x) (a := 2 * e.1.1) (by
        simp only [PyDict.keys, cellValues, List.map_map, List.mem_map, Function.comp]
        exact ⟨e, he, rfl⟩)
      rw [extent]
      omega
  have hy : ∀ l : List ((Nat × Nat) × Text), ∃ n : Nat, extent ((PyDict.keys (cellValues l)).map Pt.y) = n ∧ ∀ e ∈ l, e.1.2 < n := by
    intro l
    refine ⟨(extent ((PyDict.keys (cellValues l)).map Pt.y)).toNat, ?_, ?_⟩
    · rw [Int.toNat_of_nonneg]
      rw [extent]
      rcases max?_mem_or (l := (PyDict.keys (cellValues l)).map Pt.y) with h | h
      · rw [h]; decide
      · simp only [PyDict.keys, cellValues, List.map_map, List.mem_map, Function.comp] at h
        obtain ⟨e, _, he⟩ := h
        simp only [PyDict.keys, cellValues, List.map_map, Function.comp_def] at he ⊢
        rw [← he]
        simp only [Pt.ofInt_y]
        omega
    · intro e he
      have := le_max? (l := (PyDict.keys (cellValues l)).map Pt.y) (a := 2 * e.1.2) (by
        simp only [PyDict.keys, cellValues, List.map_map, List.mem_map, Function.comp]
        exact ⟨e, he, rfl⟩)
      rw [extent]
      omega
  obtain ⟨w, hw, hw'⟩ := hx cells
  obtain ⟨h, hh, hh'⟩ := hy cells
  refine ⟨w, h, fun x y t ht => ⟨hw' _ ht, hh' _ ht⟩, ?_⟩
  have h1 : (PyDict.keys (cellValues cells)).all (fun v => v.x % 2 = 0) = true := by
    simp [PyDict.keys, cellValues, List.all_eq_true]
  have h2 : (PyDict.keys (cellValues cells)).all (fun v => v.y % 2 = 0) = true := by
    simp [PyDict.keys, cellValues, List.all_eq_true]
  have h3 : (PyDict.keys (cellValues cells)).all (fun v => v.x ≥ 0 ∧ v.y ≥ 0) = true := by
    simp [PyDict.keys, cellValues, List.all_eq_true]
  rw [diagram2d, if_neg (by rw [h1]; simp), if_neg (by rw [h2]; simp), if_neg (by rw [h3]; simp), hw, hh]
  cases diagramLines (cellValues cells) w h <;> rfl

/-- The texts contain at least one character and no white space. -/
def Solid (cells : List ((Nat × Nat) × Text)) : Prop := ∀ e ∈ cells, e.2 ≠ [] ∧ ∀ c ∈ e.2, ¬ Blank c

theorem rowGood_of {cells : List ((Nat × Nat) × Text)} (hn : (cells.map Prod.fst).Nodup) (ht : Solid cells) (y : Nat) :
    RowGood (cellRow cells y) := by
  intro x t h
  obtain ⟨h1, h2⟩ := ht _ ((cellRow_iff hn).1 h)
  refine ⟨h1, fun c hc => ?_⟩
  rw [← Bool.not_eq_true, isBlank_iff]
  exact h2 c hc

/-- C58: every text is seen on its line, ending at its column; everything else is blank; no line ends with white space, nor does the
text (with `c58_determined`: this describes the result completely). -/
theorem c58_places (cells : List ((Nat × Nat) × Text)) (hn : (cells.map Prod.fst).Nodup) (ht : Solid cells) (hr : Room cells) :
    ∃ s, diagram2d (cellValues cells) = .ok s ∧ Trimmed s ∧
      (∀ x y t, ((x, y), t) ∈ cells → ∀ j (hj : j < t.length), seenAt s (x + 1 - t.length + j) y = t[j]) ∧
      (∀ x y, (∀ x' t, ((x', y), t) ∈ cells → x ≤ x' → x + t.length ≤ x') → seenAt s x y = ' ') := by
  obtain ⟨w, h, hwh, hd⟩ := diagram2d_cells cells
  have hfit : ∀ y, RowFits (cellRow cells y) w := by
    intro y x _ t hx
    rw [cellRow_iff hn] at hx
    obtain ⟨h1, h2⟩ := hr x y t hx
    refine ⟨h1, fun x' hx' hne => ?_⟩
    obtain ⟨t', ht'⟩ := Option.ne_none_iff_exists'.1 hne
    exact h2 x' t' ((cellRow_iff hn).1 ht') hx'
  choose rows hrows hshow using fun y => row_ok (rowGood_of hn ht y) w (hfit y)
  have hl := lines_ok (cellValues cells) w rows h fun y _ => by rw [diagramLine_eq, hrows]
  set ls := (List.range h).map fun y => rstrip (rows y) with hls
  have hrowchar : ∀ y, ∀ c ∈ rows y, c = ' ' ∨ ¬ isBlank c = true := by
    intro y c hc
    rcases (hshow y).from_ c hc with h1 | ⟨x, t, h1, h2⟩
    · exact Or.inl h1
    · right
      simp [(rowGood_of hn ht y x t h1).2 c h2]
  have hstripmem : ∀ y, ∀ c ∈ rstrip (rows y), c ∈ rows y := by
    intro y c hc
    obtain ⟨b, hb, _⟩ := rstrip_spec (rows y)
    rw [hb]
    exact List.mem_append_left _ hc
  have hnonl : ∀ l ∈ ls, '\n' ∉ l := by
    intro l hl' hc
    simp only [hls, List.mem_map] at hl'
    obtain ⟨y, _, rfl⟩ := hl'
    rcases hrowchar y _ (hstripmem y _ hc) with h1 | h1
    · revert h1; decide
    · exact h1 (by decide)
  have hgetD : ∀ x y, (rstrip (rows y)).getD x ' ' = (rows y).getD x ' ' := by
    intro x y
    obtain ⟨b, hb, hbl, _⟩ := rstrip_spec (rows y)
    conv_rhs => rw [hb]
    rw [getD_append_blank]
    intro c hc
    refine (hrowchar y c (by rw [hb]; exact List.mem_append_right _ hc)).resolve_right fun hh => hh (hbl c hc)
  obtain ⟨b, hb, hbl, hend⟩ := rstrip_spec (ls.flatMap fun l => l ++ ['\n'])
  have hschar : ∀ c ∈ ls.flatMap fun l => l ++ ['\n'], isBlank c = true → c = ' ' ∨ c = '\n' := by
    intro c hc hcb
    simp only [List.mem_flatMap, List.mem_append, List.mem_singleton, hls, List.mem_map] at hc
    obtain ⟨l, ⟨y, _, rfl⟩, hc | hc⟩ := hc
    · exact Or.inl ((hrowchar y c (hstripmem y c hc)).resolve_right fun hh => hh hcb)
    · exact Or.inr hc
  have hseen : ∀ x y, seenAt (rstrip (ls.flatMap fun l => l ++ ['\n'])) x y = if y < h then (rows y).getD x ' ' else ' ' := by
    intro x y
    rw [← seenAt_append_blank _ b (fun c hc => hschar c (by rw [hb]; exact List.mem_append_right _ hc) (hbl c hc)), ← hb,
      seenAt_lines ls hnonl]
    by_cases hy : y < h
    · have e : ls.getD y [] = rstrip (rows y) := by
        rw [hls, List.getD_eq_getElem?_getD, List.getElem?_map, List.getElem?_range hy]; rfl
      rw [if_pos hy, e]
      exact hgetD x y
    · have e : ls.getD y [] = [] := by
        rw [hls, List.getD_eq_getElem?_getD, List.getElem?_eq_none (by simp; omega)]; rfl
      rw [if_neg hy, e]
      rfl
  refine ⟨rstrip (ls.flatMap fun l => l ++ ['\n']), by rw [hd, hl]; rfl, ⟨?_, ?_⟩, ?_, ?_⟩
  · intro a c b' he hc
    rw [← isBlank_iff, Bool.not_eq_true]
    rw [he] at hb
    obtain ⟨l, hl', a', ha'⟩ := end_of_line ls hnonl a (b' ++ b) c hc (by rw [hb]; simp)
    simp only [hls, List.mem_map] at hl'
    obtain ⟨y, _, rfl⟩ := hl'
    obtain ⟨_, _, _, h3⟩ := rstrip_spec (rows y)
    exact h3 a' c ha'
  · intro a c he
    rw [← isBlank_iff, Bool.not_eq_true]
    exact hend a c he
  · intro x y t hx j hj
    obtain ⟨hxw, hyh⟩ := hwh x y t hx
    rw [hseen, if_pos hyh, List.getD_eq_getElem?_getD, (hshow y).text x hxw t ((cellRow_iff hn).2 hx) j hj,
      List.getElem?_eq_getElem hj]
    rfl
  · intro x y hfree
    rw [hseen]
    split_ifs with hyh
    · rw [List.getD_eq_getElem?_getD]
      by_cases hxw : x < w
      · rw [(hshow y).blank x hxw]
        · rfl
        · rintro ⟨x', _, t, hx', h2, h3⟩
          have := hfree x' t ((cellRow_iff hn).1 hx') h3
          omega
      · rw [List.getElem?_eq_none (by rw [(hshow y).length]; omega)]
        rfl
    · rfl

/-- C58, for characters: the character of coordinate `x + iy` is at column `x` of line `y`, blanks are elsewhere. -/
theorem c58_characters (cells : List ((Nat × Nat) × Char)) (hn : (cells.map Prod.fst).Nodup) (hc : ∀ e ∈ cells, ¬ Blank e.2) :
    ∃ s, diagram2d (cells.map fun e => (Pt.ofInt e.1.1 e.1.2, [e.2])) = .ok s ∧ Trimmed s ∧
      (∀ x y c, ((x, y), c) ∈ cells → seenAt s x y = c) ∧ (∀ x y, (∀ c, ((x, y), c) ∉ cells) → seenAt s x y = ' ') := by
  have hmem : ∀ {x y t}, ((x, y), t) ∈ (cells.map fun e => (e.1, [e.2])) ↔ ∃ c, ((x, y), c) ∈ cells ∧ t = [c] := by
    intro x y t
    simp only [List.mem_map, Prod.mk.injEq]
    constructor
    · rintro ⟨⟨⟨a, b⟩, c⟩, h, h1, rfl⟩
      simp only [Prod.mk.injEq] at h1
      obtain ⟨rfl, rfl⟩ := h1
      exact ⟨c, h, rfl⟩
    · rintro ⟨c, h, rfl⟩
      exact ⟨_, h, rfl, rfl⟩
  obtain ⟨s, h1, h2, h3, h4⟩ := c58_places (cells.map fun e => (e.1, [e.2])) (by simpa [List.map_map, Function.comp_def] using hn)
    (by
      intro e he
      obtain ⟨e', he', rfl⟩ := List.mem_map.1 he
      exact ⟨by simp, fun c hc' => by rw [List.mem_singleton.1 hc']; exact hc e' he'⟩)
    (by
      intro x y t hx
      obtain ⟨c, hx, rfl⟩ := hmem.1 hx
      exact ⟨by simp, fun x' t' _ hlt => by simpa using hlt⟩)
  refine ⟨s, ?_, h2, ?_, ?_⟩
  · rw [← h1, cellValues, List.map_map]; rfl
  · intro x y c hx
    simpa using h3 x y [c] (hmem.2 ⟨c, hx, rfl⟩) 0 (by simp)
  · intro x y hx
    refine h4 x y fun x' t hx' hle => ?_
    obtain ⟨c, hxc, rfl⟩ := hmem.1 hx'
    have : x ≠ x' := by rintro rfl; exact hx c hxc
    simp
    omega

/-- A text is determined by what is seen, if there is no trailing white space. -/
theorem c58_determined (s s' : Text) (hs : Trimmed s) (hs' : Trimmed s') (h : ∀ x y, seenAt s x y = seenAt s' x y) : s = s' := by
  have tail : ∀ {c : Char} {r : Text}, Trimmed (c :: r) → Trimmed r := fun {c r} ht =>
    ⟨fun a d b e => ht.1 (c :: a) d b (by rw [e]; rfl), fun a d e => ht.2 (c :: a) d (by rw [e]; rfl)⟩
  have first : ∀ (r : Text) (c : Char), Trimmed (c :: r) → c ≠ '\n' → ∃ x, seenAt (c :: r) x 0 ≠ ' ' := by
    intro r
    induction r with
    | nil =>
      intro c ht hc
      refine ⟨0, fun h => ht.2 [] c rfl (Or.inl ?_)⟩
      simpa [seenAt, hc] using h
    | cons d r ih =>
      intro c ht hc
      by_cases hd : d = '\n'
      · subst hd
        refine ⟨0, fun h => ht.1 [] c r rfl hc (Or.inl ?_)⟩
        simpa [seenAt, hc] using h
      · obtain ⟨x, hx⟩ := ih d (tail ht) hd
        exact ⟨x + 1, by simpa [seenAt, hc] using hx⟩
  have some_ : ∀ r : Text, Trimmed r → r ≠ [] → ∃ x y, seenAt r x y ≠ ' ' := by
    intro r
    induction r with
    | nil => intro _ h; exact absurd rfl h
    | cons c r ih =>
      intro ht _
      by_cases hc : c = '\n'
      · subst hc
        have hr : r ≠ [] := by
          rintro rfl
          exact ht.2 [] '\n' rfl (Or.inr (Or.inl (by decide)))
        obtain ⟨x, y, hxy⟩ := ih (tail ht) hr
        exact ⟨x, y + 1, by simpa [seenAt] using hxy⟩
      · obtain ⟨x, hx⟩ := first r c ht hc
        exact ⟨x, 0, hx⟩
  induction s generalizing s' with
  | nil =>
    by_contra hne
    obtain ⟨x, y, hxy⟩ := some_ s' hs' (Ne.symm hne)
    exact hxy (by rw [← h]; rfl)
  | cons c r ih =>
    cases s' with
    | nil =>
      obtain ⟨x, y, hxy⟩ := some_ (c :: r) hs (by simp)
      exact absurd (by rw [h]; rfl) hxy
    | cons c' r' =>
      by_cases hc : c = '\n'
      · by_cases hc' : c' = '\n'
        · subst hc hc'
          rw [ih r' (tail hs) (tail hs') fun x y => by simpa [seenAt] using h x (y + 1)]
        · obtain ⟨x, hx⟩ := first r' c' hs' hc'
          refine absurd ?_ hx
          rw [← h]
          cases x <;> simp [seenAt, hc]
      · by_cases hc' : c' = '\n'
        · obtain ⟨x, hx⟩ := first r c hs hc
          refine absurd ?_ hx
          rw [h]
          cases x <;> simp [seenAt, hc']
        · have h0 : c = c' := by simpa [seenAt, hc, hc'] using h 0 0
          subst h0
          rw [ih r' (tail hs) (tail hs') fun x y => by
            cases y with
            | zero => simpa [seenAt, hc] using h (x + 1) 0
            | succ y => simpa [seenAt, hc] using h x (y + 1)]

/-- C58: if some text has no room, `diagram_2d` raises an AssertionError. -/
theorem c58_no_room (cells : List ((Nat × Nat) × Text)) (hn : (cells.map Prod.fst).Nodup) (ht : Solid cells) (hr : ¬ Room cells) :
    diagram2d (cellValues cells) = .error .assertion := by
  obtain ⟨w, h, hwh, hd⟩ := diagram2d_cells cells
  have hbad : ∃ y, y < h ∧ ¬ RowFits (cellRow cells y) w := by
    by_contra hcon
    simp only [not_exists, not_and, not_not] at hcon
    refine hr fun x y t hx => ?_
    obtain ⟨hxw, hyh⟩ := hwh x y t hx
    obtain ⟨h1, h2⟩ := hcon y hyh x hxw t ((cellRow_iff hn).2 hx)
    exact ⟨h1, fun x' t' hx' hlt => h2 x' hlt (by rw [(cellRow_iff hn).2 hx']; simp)⟩
  rw [hd, lines_error]
  · rfl
  · intro y _
    rw [diagramLine_eq]
    by_cases hf : RowFits (cellRow cells y) w
    · obtain ⟨row, h1, _⟩ := row_ok (rowGood_of hn ht y) w hf
      exact Or.inl ⟨row, h1⟩
    · exact Or.inr (row_error (rowGood_of hn ht y) w hf)
  · obtain ⟨y, hy, hf⟩ := hbad
    exact ⟨y, hy, by rw [diagramLine_eq]; exact row_error (rowGood_of hn ht y) w hf⟩

/-- C58: a coordinate that is negative or not integral raises an AssertionError. -/
theorem c58_bad_coordinate (values : PyDict Pt Text) (k : Pt) (hk : k ∈ values.keys) (hb : k.x % 2 ≠ 0 ∨ k.y % 2 ≠ 0 ∨ k.x < 0 ∨ k.y < 0) :
    diagram2d values = .error .assertion := by
  have hall : ¬ (values.keys.all (fun v => v.x % 2 = 0) = true ∧ values.keys.all (fun v => v.y % 2 = 0) = true ∧
      values.keys.all (fun v => v.x ≥ 0 ∧ v.y ≥ 0) = true) := by
    rintro ⟨h1, h2, h3⟩
    simp only [List.all_eq_true, decide_eq_true_eq] at h1 h2 h3
    have := h1 k hk
    have := h2 k hk
    have := h3 k hk
    omega
  rw [diagram2d]
  by_cases h1 : values.keys.all (fun v => v.x % 2 = 0) = true
  · by_cases h2 : values.keys.all (fun v => v.y % 2 = 0) = true
    · have h3 : ¬ values.keys.all (fun v => v.x ≥ 0 ∧ v.y ≥ 0) = true := fun h3 => hall ⟨h1, h2, h3⟩
      rw [if_neg (not_not.2 h1), if_neg (not_not.2 h2), if_pos h3]; rfl
    · rw [if_neg (not_not.2 h1), if_pos h2]; rfl
  · rw [if_pos h1]; rfl

example : diagram2d (cellValues [((1, 0), ['a']), ((4, 2), ['x', 'y'])]) = .ok " a\n\n   xy".toList := by decide
example : Room [((1, 0), ['a']), ((4, 2), ['x', 'y'])] := by
  intro x y t h
  simp only [List.mem_cons, Prod.mk.injEq, List.not_mem_nil, or_false] at h
  rcases h with ⟨⟨rfl, rfl⟩, rfl⟩ | ⟨⟨rfl, rfl⟩, rfl⟩ <;> simp
example : Solid [((1, 0), ['a']), ((4, 2), ['x', 'y'])] := by simp [Solid, Blank]
/-- No room: the second text would have to cover the first. -/
example : diagram2d (cellValues [((1, 0), ['a']), ((2, 0), ['x', 'y'])]) = .error .assertion := by decide

end Honeycomb
