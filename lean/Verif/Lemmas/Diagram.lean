import Mathlib.Data.List.TakeWhile
import Verif.Lemmas.Py
import Verif.Model.Diagram
import Verif.Spec.Diagram

/-!
# Lemmas about text diagrams
-/

namespace Honeycomb

theorem isBlank_iff (c : Char) : isBlank c = true ↔ Blank c := by
  have h1 : c = ' ' ↔ c.toNat = 32 := by
    constructor
    · rintro rfl; rfl
    · intro h
      exact Char.ext (UInt32.toNat_inj.1 h)
  have h2 : '\t'.toNat = 9 := rfl
  have h3 : '\r'.toNat = 13 := rfl
  simp only [isBlank, Blank, decide_eq_true_eq, List.mem_cons, List.not_mem_nil, or_false, h1, h2, h3]
  omega

/-! ### Iteration -/

theorem iterOnce_flatten (c : Circuit) : ∀ n : Int, n ≤ 0 → iterOnce c n = c.flatten := by
  induction c with
  | nil => intro n _; rfl
  | op i c ih =>
    intro n hn
    rw [iterOnce, Circuit.flatten, if_pos (Or.inl hn), ih n hn]
    rfl
  | rep m b c ihb ihc =>
    intro n hn
    rw [iterOnce, Circuit.flatten, if_pos hn, ihb (n - 1) (by omega), ihc n hn]

theorem iterOnce_one (c : Circuit) : iterOnce c 1 = onePassOfBlocks c := by
  induction c with
  | nil => rfl
  | op i c ih =>
    rw [iterOnce, onePassOfBlocks, ih]
    by_cases h : i.gate = .QUBIT_COORDS
    · rw [if_pos (Or.inr h), if_pos h]; rfl
    · rw [if_neg (by simp [h]), if_neg h]; rfl
  | rep m b c _ ihc =>
    rw [iterOnce, onePassOfBlocks, if_neg (by decide), ihc, iterOnce_flatten b (1 - 1) (by decide)]
    simp

theorem flatMap_const {α β : Type} (l : List α) (b : List β) : (l.flatMap fun _ => b) = (List.replicate l.length b).flatten := by
  induction l with
  | nil => rfl
  | cons a l ih => simp [ih, List.replicate_succ]

/-! ### One line -/

theorem popBlanks_eq (k : Nat) (row : Text) :
    popBlanks k row = if k ≤ row.length ∧ ∀ c ∈ row.drop (row.length - k), c = ' ' then .ok (row.take (row.length - k))
      else .error .assertion := by
  induction k generalizing row with
  | zero => simp [popBlanks]
  | succ k ih =>
    rw [popBlanks]
    rcases List.eq_nil_or_concat row with rfl | ⟨l, a, rfl⟩
    · simp
    · rw [List.concat_eq_append, List.getLast?_append, List.dropLast_concat]
      simp only [List.getLast?_singleton, Option.some_or, Option.some.injEq, List.length_append, List.length_singleton]
      by_cases ha : a = ' '
      · rw [if_pos ha, ih]
        have e : l.length + 1 - (k + 1) = l.length - k := by omega
        rw [e, List.drop_append_of_le_length (by omega), List.take_append_of_le_length (by omega)]
        subst ha
        congr 1
        simp only [List.mem_append, List.mem_singleton, eq_iff_iff]
        constructor
        · rintro ⟨h1, h2⟩
          exact ⟨by omega, fun c hc => hc.elim (h2 c) id⟩
        · rintro ⟨h1, h2⟩
          exact ⟨by omega, fun c hc => h2 c (Or.inl hc)⟩
      · rw [if_neg ha, if_neg]
        rintro ⟨h1, h2⟩
        refine ha (h2 a ?_)
        rw [List.drop_append_of_le_length (by omega)]
        simp

/-- Column `i` is covered by a text of the first `n` columns. -/
def Covered (g : Nat → Option Text) (n i : Nat) : Prop := ∃ x, x < n ∧ ∃ t, g x = some t ∧ x < i + t.length ∧ i ≤ x

/-- Every text of the first `n` columns has enough room to its left. -/
def RowFits (g : Nat → Option Text) (n : Nat) : Prop :=
  ∀ x, x < n → ∀ t, g x = some t → t.length ≤ x + 1 ∧ ∀ x', x' < x → g x' ≠ none → x' + t.length ≤ x

/-- What a row shows after `n` columns. -/
structure RowShows (g : Nat → Option Text) (n : Nat) (row : Text) : Prop where
  length : row.length = n
  blank : ∀ i, i < n → ¬ Covered g n i → row[i]? = some ' '
  text : ∀ x, x < n → ∀ t, g x = some t → ∀ j, j < t.length → row[x + 1 - t.length + j]? = t[j]?
  from_ : ∀ c ∈ row, c = ' ' ∨ ∃ x t, g x = some t ∧ c ∈ t

/-- The texts consist of at least one character, none of them blank. -/
def RowGood (g : Nat → Option Text) : Prop := ∀ x t, g x = some t → t ≠ [] ∧ ∀ c ∈ t, isBlank c = false

def rowFold (g : Nat → Option Text) (n : Nat) : Except PyErr Text :=
  (List.range n).foldlM (fun row x => placeText row ((g x).getD [' '])) []

theorem rowFold_succ (g : Nat → Option Text) (n : Nat) :
    rowFold g (n + 1) = (do let row ← rowFold g n; placeText row ((g n).getD [' '])) := by
  rw [rowFold, List.range_succ, List.foldlM_append]
  simp [rowFold]

theorem row_ok {g : Nat → Option Text} (hg : RowGood g) : ∀ n, RowFits g n → ∃ row, rowFold g n = .ok row ∧ RowShows g n row := by
  intro n
  induction n with
  | zero =>
    intro _
    exact ⟨[], rfl, rfl, fun i h => absurd h (by omega), fun x h => absurd h (by omega), by simp⟩
  | succ n ih =>
    intro hf
    obtain ⟨row, h1, h2⟩ := ih fun x hx => hf x (by omega)
    rw [rowFold_succ, h1]
    simp only [bind, Except.bind, placeText, popBlanks_eq]
    cases hn : g n with
    | none =>
      refine ⟨row ++ [' '], by simp [pure, Except.pure], by simp [h2.length], ?_, ?_, ?_⟩
      · intro i hi hc
        by_cases h : i = n
        · subst h
          rw [← h2.length]
          simp
        · rw [List.getElem?_append_left (by have := h2.length; omega)]
          exact h2.blank i (by omega) fun ⟨x, hx, t, ht⟩ => hc ⟨x, by omega, t, ht⟩
      · intro x hx t ht j hj
        by_cases h : x = n
        · rw [h, hn] at ht; simp at ht
        · have hb : t.length ≤ x + 1 := (hf x hx t ht).1
          rw [List.getElem?_append_left (by have := h2.length; omega)]
          exact h2.text x (by omega) t ht j hj
      · intro c hc
        rcases List.mem_append.1 hc with hc | hc
        · exact h2.from_ c hc
        · exact Or.inl (List.mem_singleton.1 hc)
    | some t =>
      obtain ⟨hL, hfree⟩ := hf n (by omega) t hn
      obtain ⟨hne, hblank⟩ := hg n t hn
      have hpos : 0 < t.length := List.length_pos_iff.2 hne
      have hlen := h2.length
      simp only [Option.getD_some]
      have hcond : t.length - 1 ≤ row.length ∧ ∀ c ∈ row.drop (row.length - (t.length - 1)), c = ' ' := by
        refine ⟨by omega, fun c hc => ?_⟩
        rw [List.mem_iff_getElem?] at hc
        obtain ⟨i, hi⟩ := hc
        rw [List.getElem?_drop] at hi
        have hil : row.length - (t.length - 1) + i < row.length := by
          by_contra hcon
          rw [List.getElem?_eq_none (by omega)] at hi
          simp at hi
        rw [h2.blank _ (by omega)] at hi
        · simpa using hi.symm
        · rintro ⟨x, hx, t', ht', _, h4⟩
          have := hfree x hx (by simp [ht'])
          omega
      rw [if_pos hcond]
      refine ⟨row.take (row.length - (t.length - 1)) ++ t, rfl, ?_, ?_, ?_, ?_⟩
      · rw [List.length_append, List.length_take]; omega
      · intro i hi hc
        have hi' : i < row.length - (t.length - 1) := by
          by_contra hcon
          exact hc ⟨n, by omega, t, hn, by omega, by omega⟩
        rw [List.getElem?_append_left (by rw [List.length_take]; omega), List.getElem?_take, if_pos hi']
        exact h2.blank i (by omega) fun ⟨x, hx, t', ht'⟩ => hc ⟨x, by omega, t', ht'⟩
      · intro x hx t' ht' j hj
        by_cases h : x = n
        · subst h
          rw [hn] at ht'
          cases ht'
          rw [List.getElem?_append_right (by rw [List.length_take]; omega), List.length_take]
          congr 1
          omega
        · have := hfree x (by omega) (by simp [ht'])
          have hb := (hf x hx t' ht').1
          rw [List.getElem?_append_left (by rw [List.length_take]; omega), List.getElem?_take, if_pos (by omega)]
          exact h2.text x (by omega) t' ht' j hj
      · intro c hc
        rcases List.mem_append.1 hc with hc | hc
        · exact h2.from_ c (List.mem_of_mem_take hc)
        · exact Or.inr ⟨n, t, hn, hc⟩

theorem row_error {g : Nat → Option Text} (hg : RowGood g) : ∀ n, ¬ RowFits g n → rowFold g n = .error .assertion := by
  intro n
  induction n with
  | zero => intro h; exact absurd (fun x hx => absurd hx (by omega)) h
  | succ n ih =>
    intro hf
    rw [rowFold_succ]
    by_cases h : RowFits g n
    · obtain ⟨row, h1, h2⟩ := row_ok hg n h
      have hlen := h2.length
      rw [h1]
      simp only [bind, Except.bind, placeText, popBlanks_eq]
      cases hn : g n with
      | none =>
        refine absurd (fun x hx t ht => ?_) hf
        by_cases hxn : x = n
        · rw [hxn, hn] at ht; simp at ht
        · exact h x (by omega) t ht
      | some t =>
        obtain ⟨hne, hblank⟩ := hg n t hn
        have hpos : 0 < t.length := List.length_pos_iff.2 hne
        rw [if_neg]
        rintro ⟨h3, h4⟩
        refine hf fun x hx t' ht' => ?_
        by_cases hxn : x = n
        · subst hxn
          rw [hn] at ht'
          cases ht'
          simp only [Option.getD_some] at h3 h4
          refine ⟨by omega, fun x' hx' hgx => ?_⟩
          by_contra hcon
          obtain ⟨t', ht'⟩ := Option.ne_none_iff_exists'.1 hgx
          obtain ⟨hne', hbl'⟩ := hg x' t' ht'
          have hpos' : 0 < t'.length := List.length_pos_iff.2 hne'
          have hL := (h x' hx' t' ht').1
          have hc := h2.text x' hx' t' ht' (t'.length - 1) (by omega)
          rw [show x' + 1 - t'.length + (t'.length - 1) = x' by omega, List.getElem?_eq_getElem (by omega),
            List.getElem?_eq_getElem (by omega)] at hc
          have hm : row[x'] ∈ row.drop (row.length - (t.length - 1)) := by
            rw [List.mem_iff_getElem?]
            refine ⟨x' - (row.length - (t.length - 1)), ?_⟩
            rw [List.getElem?_drop, show row.length - (t.length - 1) + (x' - (row.length - (t.length - 1))) = x' by omega]
            exact List.getElem?_eq_getElem _
          have h5 := h4 _ hm
          have h6 := hbl' t'[t'.length - 1] (List.getElem_mem _)
          simp only [Option.some.injEq] at hc
          rw [← hc, h5] at h6
          revert h6
          decide
        · exact h x (by omega) t' ht'
    · rw [ih h]; rfl

/-! ### Trailing blanks -/

theorem rstrip_spec (t : Text) : ∃ b, t = rstrip t ++ b ∧ (∀ c ∈ b, isBlank c = true) ∧ ∀ a c, rstrip t = a ++ [c] → isBlank c = false := by
  refine ⟨(t.reverse.takeWhile isBlank).reverse, ?_, ?_, ?_⟩
  · rw [rstrip, ← List.reverse_append, List.takeWhile_append_dropWhile, List.reverse_reverse]
  · intro c hc
    rw [List.mem_reverse] at hc
    exact List.mem_takeWhile_imp hc
  · intro a c h
    rw [rstrip, List.reverse_eq_iff] at h
    have := List.head?_dropWhile_not isBlank t.reverse
    rw [h] at this
    simpa using this

theorem seenAt_nonl {l : Text} (h : '\n' ∉ l) (x : Nat) : seenAt l x 0 = l.getD x ' ' := by
  induction l generalizing x with
  | nil => simp [seenAt]
  | cons c l ih =>
    simp only [List.mem_cons, not_or] at h
    cases x with
    | zero => simp [seenAt, Ne.symm h.1]
    | succ x => simpa [seenAt, Ne.symm h.1] using ih h.2 x

theorem seenAt_nonl_succ {l : Text} (h : '\n' ∉ l) (x y : Nat) : seenAt l x (y + 1) = ' ' := by
  induction l with
  | nil => simp [seenAt]
  | cons c l ih =>
    simp only [List.mem_cons, not_or] at h
    rw [seenAt, if_neg (Ne.symm h.1), ih h.2]

theorem seenAt_line {l : Text} (h : '\n' ∉ l) (s : Text) (x : Nat) : seenAt (l ++ '\n' :: s) x 0 = l.getD x ' ' := by
  induction l generalizing x with
  | nil => simp [seenAt]
  | cons c l ih =>
    simp only [List.mem_cons, not_or] at h
    cases x with
    | zero => simp [seenAt, Ne.symm h.1]
    | succ x => simpa [seenAt, Ne.symm h.1] using ih h.2 x

theorem seenAt_line_succ {l : Text} (h : '\n' ∉ l) (s : Text) (x y : Nat) : seenAt (l ++ '\n' :: s) x (y + 1) = seenAt s x y := by
  induction l with
  | nil => simp [seenAt]
  | cons c l ih =>
    simp only [List.mem_cons, not_or] at h
    rw [List.cons_append, seenAt, if_neg (Ne.symm h.1), ih h.2]

/-- Lines one below the other. -/
theorem seenAt_lines (ls : List Text) (h : ∀ l ∈ ls, '\n' ∉ l) (x y : Nat) :
    seenAt (ls.flatMap fun l => l ++ ['\n']) x y = (ls.getD y []).getD x ' ' := by
  induction ls generalizing y with
  | nil => simp [seenAt]
  | cons l ls ih =>
    rw [List.flatMap_cons, List.append_assoc]
    cases y with
    | zero => simpa using seenAt_line (h l (by simp)) _ x
    | succ y =>
      rw [List.singleton_append, seenAt_line_succ (h l (by simp)), ih fun l hl => h l (List.mem_cons_of_mem _ hl)]
      simp

/-- Blanks and row feeds at the end are not seen. -/
theorem seenAt_append_blank (s b : Text) (hb : ∀ c ∈ b, c = ' ' ∨ c = '\n') (x y : Nat) : seenAt (s ++ b) x y = seenAt s x y := by
  induction s generalizing x y with
  | cons c s ih =>
    rw [List.cons_append]
    cases y with
    | zero =>
      cases x with
      | zero => simp only [seenAt]
      | succ x => simp only [seenAt, ih]
    | succ y => rw [seenAt, seenAt, ih, ih]
  | nil =>
    rw [List.nil_append]
    induction b generalizing x y with
    | nil => rfl
    | cons c b ih =>
      have ih' := fun x y => ih (fun c hc => hb c (List.mem_cons_of_mem _ hc)) x y
      simp only [seenAt] at ih' ⊢
      cases y with
      | zero =>
        cases x with
        | zero => rcases hb c (by simp) with rfl | rfl <;> simp [seenAt]
        | succ x => simp only [seenAt, ih', ite_self]
      | succ y => rw [seenAt, ih', ih', ite_self]

theorem getD_append_blank (l b : Text) (hb : ∀ c ∈ b, c = ' ') (x : Nat) : (l ++ b).getD x ' ' = l.getD x ' ' := by
  rw [List.getD_eq_getElem?_getD, List.getD_eq_getElem?_getD]
  by_cases h : x < l.length
  · rw [List.getElem?_append_left h]
  · rw [List.getElem?_append_right (by omega), List.getElem?_eq_none (l := l) (by omega)]
    cases hx : b[x - l.length]? with
    | none => rfl
    | some c => exact hb c (List.mem_of_getElem? hx)

/-- The end of a row inside a text made of lines. -/
theorem end_of_line (ls : List Text) (h : ∀ l ∈ ls, '\n' ∉ l) (a b : Text) (c : Char) (hc : c ≠ '\n')
    (he : (ls.flatMap fun l => l ++ ['\n']) = a ++ c :: '\n' :: b) : ∃ l ∈ ls, ∃ a', l = a' ++ [c] := by
  induction ls generalizing a with
  | nil => simp at he
  | cons l ls ih =>
    have hl : '\n' ∉ l := h l (by simp)
    rw [List.flatMap_cons, List.append_assoc, List.singleton_append] at he
    have key : (∃ a', l = a' ++ [c]) ∨ ∃ a', (ls.flatMap fun l => l ++ ['\n']) = a' ++ c :: '\n' :: b := by
      clear ih h
      induction l generalizing a with
      | nil =>
        cases a with
        | nil => simp only [List.nil_append, List.cons.injEq] at he; exact absurd he.1.symm hc
        | cons d a => simp only [List.nil_append, List.cons_append, List.cons.injEq] at he; exact Or.inr ⟨a, he.2⟩
      | cons d l ihl =>
        simp only [List.mem_cons, not_or] at hl
        cases a with
        | nil =>
          simp only [List.cons_append, List.nil_append, List.cons.injEq] at he
          obtain ⟨rfl, he⟩ := he
          cases l with
          | nil => exact Or.inl ⟨[], rfl⟩
          | cons e l =>
            simp only [List.cons_append, List.cons.injEq] at he
            exact absurd he.1.symm (fun hh => hl.2 (by rw [hh]; simp))
        | cons d' a =>
          simp only [List.cons_append, List.cons.injEq] at he
          rcases ihl a he.2 hl.2 with ⟨a', ha'⟩ | h'
          · exact Or.inl ⟨d :: a', by rw [ha']; rfl⟩
          · exact Or.inr h'
    rcases key with ⟨a', ha'⟩ | ⟨a', ha'⟩
    · exact ⟨l, by simp, a', ha'⟩
    · obtain ⟨l', hl', h2⟩ := ih (fun l hl => h l (List.mem_cons_of_mem _ hl)) a' ha'
      exact ⟨l', List.mem_cons_of_mem _ hl', h2⟩

end Honeycomb
