import Verif.Spec.Plot
import Verif.Lemmas.Dict
import Verif.Props.Probability
import Verif.Props.ShotData

/-!
# Lemmas about `plot_data`
-/

namespace Honeycomb

theorem oddFlips_inj {q q' : ℝ} {k : Nat} (hk : 1 ≤ k) (h0 : q ≤ 1 / 2) (h1 : q' ≤ 1 / 2)
    (h : oddFlips q k = oddFlips q' k) : q = q' := by
  rw [flipParity_eq, flipParity_eq] at h
  have h2 : (1 - 2 * q) ^ k = (1 - 2 * q') ^ k := by linarith
  have := (pow_left_inj₀ (show 0 ≤ 1 - 2 * q by linarith) (show 0 ≤ 1 - 2 * q' by linarith) (by omega)).1 h2
  linarith

theorem oddFlips_mono {q q' : ℝ} {k : Nat} (hk : 1 ≤ k) (h0 : q ≤ 1 / 2) (h1 : q' ≤ 1 / 2)
    (h : oddFlips q k ≤ oddFlips q' k) : q ≤ q' := by
  by_contra hcon
  rw [flipParity_eq, flipParity_eq] at h
  have := pow_lt_pow_left₀ (show 1 - 2 * q < 1 - 2 * q' by linarith) (show 0 ≤ 1 - 2 * q by linarith) (by omega : k ≠ 0)
  linarith

theorem perCell_iff {e : ℝ} {k : Nat} (h0 : 0 ≤ e) (h1 : e ≤ 1) (hk : 1 ≤ k) (q : ℝ) :
    totalErrorToPerPieceError e k = .ok q ↔ IsPerCell e k q := by
  rw [IsPerCell]
  split_ifs with h
  · obtain ⟨q', hq, a1, a2, a3⟩ := c45_composes e k h0 h hk
    rw [hq]
    constructor
    · intro hh; cases hh; exact ⟨a1, a2, a3⟩
    · rintro ⟨b1, b2, b3⟩
      rw [oddFlips_inj hk a2 b2 (a3.trans b3.symm)]
  · push Not at h
    obtain ⟨q1, hq1, hq, a1, a2⟩ := c45_reflection e k h h1 hk
    obtain ⟨q', hq', b1, b2, b3⟩ := c45_composes (1 - e) k (by linarith) (by linarith) hk
    rw [hq1] at hq'; cases hq'
    rw [hq]
    constructor
    · intro hh
      cases hh
      exact ⟨a1, a2, by rw [show 1 - (1 - q1) = q1 by ring]; exact b3⟩
    · rintro ⟨c1, c2, c3⟩
      have := oddFlips_inj hk b2 (show 1 - q ≤ 1 / 2 by linarith) (b3.trans c3.symm)
      rw [this]; congr 1; ring

theorem perCell_exists {e : ℝ} {k : Nat} (h0 : 0 ≤ e) (h1 : e ≤ 1) (hk : 1 ≤ k) :
    ∃ q, totalErrorToPerPieceError e k = .ok q := by
  rcases le_or_gt e (1 / 2) with h | h
  · obtain ⟨q, hq, -⟩ := c45_composes e k h0 h hk
    exact ⟨q, hq⟩
  · obtain ⟨q, -, hq, -⟩ := c45_reflection e k h h1 hk
    exact ⟨_, hq⟩

theorem perCell_mono {e e' : ℝ} {k : Nat} (hk : 1 ≤ k) {q q' : ℝ} (hle : e ≤ e')
    (h : IsPerCell e k q) (h' : IsPerCell e' k q') : q ≤ q' := by
  rw [IsPerCell] at h h'
  split_ifs at h h' with g g'
  · exact oddFlips_mono hk h.2.1 h'.2.1 (by rw [h.2.2, h'.2.2]; exact hle)
  · linarith [h.2.1, h'.1]
  · linarith
  · have := oddFlips_mono hk (show 1 - q' ≤ 1 / 2 by linarith [h'.1]) (show 1 - q ≤ 1 / 2 by linarith [h.1])
      (by rw [h.2.2, h'.2.2]; linarith)
    linarith

/-- A shot record that can be plotted. -/
def GoodShots (v : ShotData) : Prop := 0 < v.num_shots ∧ 0 ≤ v.num_correct ∧ v.num_correct ≤ v.num_shots

theorem rate_cast (v : ShotData) (h : GoodShots v) :
    (v.logical_error_rate : ℝ) = ((v.num_shots - v.num_correct : Int) : ℝ) / (v.num_shots : ℝ) := by
  rw [ShotData.logical_error_rate, if_neg (by have := h.1; omega)]
  push_cast
  rfl

theorem rate_range (v : ShotData) (h : GoodShots v) : (0 : ℝ) ≤ v.logical_error_rate ∧ (v.logical_error_rate : ℝ) ≤ 1 := by
  obtain ⟨l, hi, -, a, b, c, d⟩ := c44_bracket v (1 / 1000) h.1 h.2.1 h.2.2 (by norm_num)
  constructor <;> linarith

theorem plotLoop_ok {cells : Nat} (hc : 1 ≤ cells) (v2 : PyDict Rat ShotData) : ∀ noises : List Rat,
    (∀ x ∈ noises, ∃ v, v2.get? x = some v ∧ GoodShots v) →
    ∃ line band, plotLoop cells v2 noises = .ok (line, band) ∧
      (line.map Prod.fst).Sublist noises ∧ band.map Prod.fst = noises ∧
      (∀ x y, (x, y) ∈ line ↔ x ∈ noises ∧ ∃ v, v2.get? x = some v ∧ v.num_correct < v.num_shots ∧
        IsPerCell (v.logical_error_rate : ℝ) cells y) ∧
      (∀ x lo hi, (x, lo, hi) ∈ band ↔ x ∈ noises ∧ ∃ v low high, v2.get? x = some v ∧
        v.likelyErrorRateBounds (1 / 1000) = .ok (low, high) ∧ IsPerCell low cells lo ∧ IsPerCell high cells hi) := by
  intro noises
  induction noises with
  | nil => intro _; exact ⟨[], [], rfl, by simp, rfl, by simp, by simp⟩
  | cons x noises ih =>
    intro hg
    obtain ⟨line, band, hl, h1, h2, h3, h4⟩ := ih fun y hy => hg y (by simp [hy])
    obtain ⟨v, hv, good⟩ := hg x (by simp)
    obtain ⟨low, high, hb, b0, b1, b2, b3⟩ := c44_bracket v (1 / 1000) good.1 good.2.1 good.2.2 (by norm_num)
    obtain ⟨lo, hlo⟩ := perCell_exists (e := low) (k := cells) b0 (by linarith) hc
    obtain ⟨hi, hhi⟩ := perCell_exists (e := high) (k := cells) (by linarith) b3 hc
    obtain ⟨r0, r1⟩ := rate_range v good
    obtain ⟨y, hy⟩ := perCell_exists (e := v.logical_error_rate) (k := cells) r0 r1 hc
    have ilo := fun q => perCell_iff (e := low) (k := cells) b0 (by linarith) hc q
    have ihi := fun q => perCell_iff (e := high) (k := cells) (by linarith) b3 hc q
    have iy := fun q => perCell_iff r0 r1 hc q
    have band' : ∀ x' lo' hi', (x', lo', hi') ∈ (x, lo, hi) :: band ↔ x' ∈ x :: noises ∧ ∃ v low high, v2.get? x' = some v ∧
        v.likelyErrorRateBounds (1 / 1000) = .ok (low, high) ∧ IsPerCell low cells lo' ∧ IsPerCell high cells hi' := by
      intro x' lo' hi'
      rw [List.mem_cons, List.mem_cons, h4]
      constructor
      · rintro (h | ⟨h, h'⟩)
        · cases h
          exact ⟨Or.inl rfl, v, low, high, hv, hb, (ilo lo).1 hlo, (ihi hi).1 hhi⟩
        · exact ⟨Or.inr h, h'⟩
      · rintro ⟨h | h, h'⟩
        · subst h
          left
          obtain ⟨v', low', high', g1, g2, g3, g4⟩ := h'
          rw [hv] at g1; cases g1
          rw [hb] at g2; cases g2
          rw [← ilo, hlo] at g3
          rw [← ihi, hhi] at g4
          cases g3; cases g4; rfl
        · exact Or.inr ⟨h, h'⟩
    by_cases hlt : v.num_correct < v.num_shots
    · refine ⟨(x, y) :: line, (x, lo, hi) :: band, ?_, ?_, ?_, ?_, band'⟩
      · simp only [plotLoop, hv, hlt, if_true, hy, hb, hlo, hhi, hl, bind, Except.bind, pure, Except.pure, List.cons_append,
          List.nil_append]
      · simpa using h1
      · simp [h2]
      · intro x' y'
        rw [List.mem_cons, List.mem_cons, h3]
        constructor
        · rintro (h | ⟨h, h'⟩)
          · cases h
            exact ⟨Or.inl rfl, v, hv, hlt, (iy y).1 hy⟩
          · exact ⟨Or.inr h, h'⟩
        · rintro ⟨h | h, h'⟩
          · subst h
            left
            obtain ⟨v', g1, g2, g3⟩ := h'
            rw [hv] at g1; cases g1
            rw [← iy, hy] at g3; cases g3; rfl
          · exact Or.inr ⟨h, h'⟩
    · refine ⟨line, (x, lo, hi) :: band, ?_, h1.cons x, ?_, ?_, band'⟩
      · simp only [plotLoop, hv, hlt, if_false, hb, hlo, hhi, hl, bind, Except.bind, pure, Except.pure, List.nil_append]
      · simp [h2]
      · intro x' y'
        rw [List.mem_cons, h3]
        constructor
        · rintro ⟨h, h'⟩
          exact ⟨Or.inr h, h'⟩
        · rintro ⟨h | h, h'⟩
          · subst h
            obtain ⟨v', g1, g2, g3⟩ := h'
            rw [hv] at g1; cases g1
            exact absurd g2 hlt
          · exact ⟨h, h'⟩

/-- A problem without shots makes the loop raise. -/
theorem plotLoop_empty {cells : Nat} (hc : 1 ≤ cells) (v2 : PyDict Rat ShotData) : ∀ noises : List Rat,
    (∀ x ∈ noises, ∃ v, v2.get? x = some v ∧ (GoodShots v ∨ v.num_shots = 0 ∧ v.num_correct = 0)) →
    (∃ x ∈ noises, ∃ v, v2.get? x = some v ∧ v.num_shots = 0) →
    plotLoop cells v2 noises = .error .zeroDivision := by
  intro noises
  induction noises with
  | nil => rintro _ ⟨x, hx, _⟩; simp at hx
  | cons x noises ih =>
    intro hg hex
    obtain ⟨v, hv, good⟩ := hg x (by simp)
    rcases good with good | ⟨e1, e2⟩
    · have hex' : ∃ x ∈ noises, ∃ v, v2.get? x = some v ∧ v.num_shots = 0 := by
        obtain ⟨x', hx', v', hv', h0⟩ := hex
        rcases List.mem_cons.1 hx' with h | h
        · subst h
          rw [hv] at hv'; cases hv'
          have := good.1
          omega
        · exact ⟨x', h, v', hv', h0⟩
      have hl := ih (fun y hy => hg y (by simp [hy])) hex'
      obtain ⟨low, high, hb, b0, b1, b2, b3⟩ := c44_bracket v (1 / 1000) good.1 good.2.1 good.2.2 (by norm_num)
      obtain ⟨lo, hlo⟩ := perCell_exists (e := low) (k := cells) b0 (by linarith) hc
      obtain ⟨hi, hhi⟩ := perCell_exists (e := high) (k := cells) (by linarith) b3 hc
      obtain ⟨r0, r1⟩ := rate_range v good
      obtain ⟨y, hy⟩ := perCell_exists (e := v.logical_error_rate) (k := cells) r0 r1 hc
      by_cases hlt : v.num_correct < v.num_shots
      · simp only [plotLoop, hv, hlt, if_true, hy, hb, hlo, hhi, hl, bind, Except.bind, pure, Except.pure]
      · simp only [plotLoop, hv, hlt, if_false, hb, hlo, hhi, hl, bind, Except.bind, pure, Except.pure]
    · have hb := c44_no_shots v (1 / 1000) e1
      simp only [plotLoop, hv, e1, e2, lt_irrefl, if_false, hb, bind, Except.bind, pure, Except.pure]

/-- The noise values of a group and their records. -/
theorem group_get {data : ProblemShotData} (hn : (data.map Prod.fst).Nodup) {key : DecodingProblemDesc} (hk : key.noise = 0) :
    ((entriesOf atZeroNoise data key).map fun e => (e.1.noise, e.2)).map Prod.fst |>.Nodup := by
  rw [List.map_map]
  have hs : ((entriesOf atZeroNoise data key).map Prod.fst).Nodup :=
    hn.sublist (List.Sublist.map _ List.filter_sublist)
  have : (entriesOf atZeroNoise data key).map (Prod.fst ∘ fun e : DecodingProblemDesc × ShotData => (e.1.noise, e.2)) =
      ((entriesOf atZeroNoise data key).map Prod.fst).map fun d => d.noise := by
    rw [List.map_map]; rfl
  rw [this]
  refine List.Nodup.map_on ?_ hs
  intro d hd d' hd' h
  simp only [List.mem_map, entriesOf, List.mem_filter, decide_eq_true_eq] at hd hd'
  obtain ⟨e, ⟨-, he⟩, rfl⟩ := hd
  obtain ⟨e', ⟨-, he'⟩, rfl⟩ := hd'
  have hh := he.trans he'.symm
  simp only [atZeroNoise, DecodingProblemDesc.withChanges, DecodingProblemDesc.mk.injEq] at hh
  obtain ⟨⟨_, _⟩, _⟩ := e
  obtain ⟨⟨_, _⟩, _⟩ := e'
  simp_all

theorem atZeroNoise_eq_iff {d key : DecodingProblemDesc} : atZeroNoise d = key ↔ key.noise = 0 ∧ d = { key with noise := d.noise } := by
  cases d
  cases key
  simp only [atZeroNoise, DecodingProblemDesc.withChanges, DecodingProblemDesc.mk.injEq]
  tauto

theorem group_mem {data : ProblemShotData} (hn : (data.map Prod.fst).Nodup) {key : DecodingProblemDesc} (hk : key.noise = 0)
    (x : Rat) (v : ShotData) :
    PyDict.get? ((entriesOf atZeroNoise data key).map fun e => (e.1.noise, e.2)) x = some v ↔ ({ key with noise := x }, v) ∈ data := by
  have hnd := group_get hn hk
  constructor
  · intro h
    have := PyDict.mem_of_get? h
    simp only [List.mem_map, entriesOf, List.mem_filter, decide_eq_true_eq, atZeroNoise_eq_iff] at this
    obtain ⟨⟨d, v'⟩, ⟨h1, -, h3⟩, h4⟩ := this
    simp only [Prod.mk.injEq] at h3 h4
    obtain ⟨rfl, rfl⟩ := h4
    rwa [h3] at h1
  · intro h
    refine PyDict.get?_of_mem hnd ?_
    simp only [List.mem_map, entriesOf, List.mem_filter, decide_eq_true_eq, atZeroNoise_eq_iff]
    exact ⟨_, ⟨h, hk, rfl⟩, rfl⟩

theorem sortedRat_perm (l : List Rat) : (sortedRat l).Perm l := List.mergeSort_perm _ _

theorem sortedRat_strict {l : List Rat} (h : l.Nodup) : (sortedRat l).Pairwise (· < ·) := by
  have h1 : (sortedRat l).Pairwise fun a b => a ≤ b := by
    have := List.pairwise_mergeSort (le := fun a b : Rat => decide (a ≤ b)) (fun a b c h1 h2 => by
      simp only [decide_eq_true_eq] at *; exact le_trans h1 h2) (fun a b => by simpa using le_total a b) l
    simpa [sortedRat] using this
  have h2 : (sortedRat l).Nodup := (sortedRat_perm l).nodup_iff.2 h
  exact (h1.and h2).imp fun h => lt_of_le_of_ne h.1 h.2

theorem colorAt_ok {i : Nat} (h : i < 30) : colorAt i = .ok (i % 10) := if_pos h
theorem colorAt_error {i : Nat} (h : 30 ≤ i) : colorAt i = .error .indexError := if_neg (by simp [numTableauColors]; omega)
theorem markerAt_ok {i : Nat} (h : i < 1800) : markerAt i = .ok (plotMarkers[i % 18]?.getD ' ') := if_pos h

/-- The marker and the colour of the curve with the given index. -/
def plotStyle (i : Nat) : Char × Nat := (plotMarkers[i % 18]?.getD ' ', i % 10)

theorem plotCells_ok {key : DecodingProblemDesc} (hr : 0 < key.rounds) (hd : 0 < key.code_distance) :
    plotCells key = .ok (⌈(key.rounds : ℝ) / (key.code_distance : ℝ)⌉₊ : Int) ∧ 1 ≤ ⌈(key.rounds : ℝ) / (key.code_distance : ℝ)⌉₊ := by
  have hr' : (0 : ℝ) < key.rounds := by exact_mod_cast hr
  have hd' : (0 : ℝ) < key.code_distance := by exact_mod_cast hd
  have hpos : (0 : ℝ) < (key.rounds : ℝ) / (key.code_distance : ℝ) := div_pos hr' hd'
  refine ⟨?_, Nat.ceil_pos.2 hpos⟩
  rw [plotCells, if_neg (by omega), Int.natCast_ceil_eq_ceil hpos.le]
  congr 1
  rw [← Rat.ceil_cast (α := ℝ)]
  push_cast
  rfl

theorem plotGroup_eq {data : ProblemShotData} (hn : (data.map Prod.fst).Nodup) {key : DecodingProblemDesc} (hk : key.noise = 0)
    (hr : 0 < key.rounds) (hd : 0 < key.code_distance) (off order : Nat) :
    plotGroup off order key (entriesOf atZeroNoise data key) = (do
      let (line, band) ← plotLoop (⌈(key.rounds : ℝ) / (key.code_distance : ℝ)⌉₊ : Nat)
        ((entriesOf atZeroNoise data key).map fun e => (e.1.noise, e.2))
        (sortedRat ((entriesOf atZeroNoise data key).map fun e => e.1.noise))
      let marker ← markerAt (order + off)
      let color ← colorAt (order + off)
      pure { line := line, band := band,
             label := toString key.rounds ++ " rounds, " ++ toString key.data_width ++ "x" ++ toString key.data_height ++ " data",
             marker := marker, color := color, zorder := 100 - order }) := by
  simp only [plotGroup, (plotCells_ok hr hd).1, PyDict.ofItems_of_nodup (group_get hn hk), bind, Except.bind, PyDict.keys,
    List.map_map, Function.comp_def]

theorem mem_noises {data : ProblemShotData} (hn : (data.map Prod.fst).Nodup) {key : DecodingProblemDesc} (hk : key.noise = 0) (x : Rat) :
    x ∈ sortedRat ((entriesOf atZeroNoise data key).map fun e => e.1.noise) ↔ ∃ v, ({ key with noise := x }, v) ∈ data := by
  rw [(sortedRat_perm _).mem_iff]
  simp only [← group_mem hn hk]
  rw [← Option.isSome_iff_exists, PyDict.get?_isSome_iff, List.map_map]
  rfl

end Honeycomb
