import Verif.Props.Correct
import Verif.Lemmas.ColumnSampled

/-!
# How few errors defeat the horizontal observable in the styles with ancillas (C96)

Vocabulary in `Spec/Damage.lean` and `Spec/Correct.lean`. C85 bounds the number of errors from below, `2 n ≥ data_height`. Here the bound is attained:
after the controlled gates that couple the right ends of the edges of the third sub-round to their ancillas, one two-qubit error on every other
data qubit of a column, together with its ancilla, flips the observable and no detector.
-/

namespace Honeycomb
open HoneycombLayout

/-- C96: with noise, ancillas and at least six sub-rounds, exactly half of `data_height` errors of the noise channels are needed to flip the
observable "H" with no detector firing. -/
theorem c96_horizontal_exact (lay : HoneycombLayout) (hv : lay.Valid) (hs : lay.Supported) (hst : lay.style ∈ ["SD6", "PC3", "SI1000"])
    (hp : 0 < lay.noise) (hO : lay.obs = "H") (h6 : 6 ≤ lay.sub_rounds) :
    ∃ d, lay.makeCircuit = .ok d ∧ ∃ n : Nat, 2 * (n : Int) = lay.data_height ∧
      IsLeast {n : Nat | ∃ rec, CanSample n d.flatten rec ∧ (∀ v ∈ detectorValues d.flatten rec, v = some 0) ∧
        observableValue 1 d.flatten rec ≠ some 0} n := by
  obtain ⟨N, hN⟩ := Int.eq_ofNat_of_zero_le (show 0 ≤ lay.sub_rounds by omega)
  have hV : ¬ lay.obs = "V" := by rw [hO]; decide
  obtain ⟨d, hd, h⟩ := c85_observable_distance lay hv hs hst
  obtain ⟨rec, h1, h2, h3⟩ := column_drawn hv hs hN (by omega) hO hst hp hd
  rw [show lay.obsI = 1 from if_neg hV] at h3
  refine ⟨d, hd, lay.colEdges.length, colEdges_length hv, ⟨rec, h1, h2, by rw [h3]; decide⟩, ?_⟩
  rintro m ⟨rec', hr, hdet, hobs⟩
  have := h m rec' hr hdet (by rw [if_neg hV]; exact hobs)
  rw [if_neg hV] at this
  have := colEdges_length hv
  omega

/-- C96: the bound of C85, three quarters of `code_distance`, is attained: for "H" on a layout that is not taller than its distance requires,
the least number of errors that flip the observable undetected is three quarters of the number that `as_decoder_problem_desc` reports. -/
theorem c96_three_quarters (lay : HoneycombLayout) (hv : lay.Valid) (hs : lay.Supported) (hst : lay.style ∈ ["SD6", "PC3", "SI1000"])
    (hp : 0 < lay.noise) (hO : lay.obs = "H") (h6 : 6 ≤ lay.sub_rounds) (hh : 2 * lay.data_height ≤ 3 * lay.data_width) :
    ∃ d, lay.makeCircuit = .ok d ∧ ∃ n : Nat, 4 * (n : Int) = 3 * lay.code_distance_1qdep ∧
      IsLeast {n : Nat | ∃ rec, CanSample n d.flatten rec ∧ (∀ v ∈ detectorValues d.flatten rec, v = some 0) ∧
        observableValue 1 d.flatten rec ≠ some 0} n := by
  obtain ⟨d, hd, n, hn, hl⟩ := c96_horizontal_exact lay hv hs hst hp hO h6
  refine ⟨d, hd, n, ?_, hl⟩
  have := Valid.dh hv
  rw [code_distance_1qdep]
  omega

/-- C96: what a decoder can do. The least number of errors that a minimum error decoder gets wrong for "H", in the styles with ancillas, is a
quarter of `data_height`, rounded up. -/
theorem c96_least_horizontal (lay : HoneycombLayout) (hv : lay.Valid) (hs : lay.Supported) (hst : lay.style ∈ ["SD6", "PC3", "SI1000"])
    (hp : 0 < lay.noise) (hO : lay.obs = "H") (h6 : 6 ≤ lay.sub_rounds) :
    ∃ d, lay.makeCircuit = .ok d ∧ ∀ guess, MinimumErrors d guess → ∃ n : Nat, (n : Int) = (lay.data_height + 3) / 4 ∧
      IsLeast {n : Nat | ∃ rec, CanSample n d.flatten rec ∧ guess (detectionBits d rec) ≠ observableBits d rec} n := by
  have hV : ¬ lay.obs = "V" := by rw [hO]; decide
  obtain ⟨d, hd, D, hD, ⟨r, h1, h2, h3⟩, -⟩ := c96_horizontal_exact lay hv hs hst hp hO h6
  obtain ⟨d', hd', hc⟩ := c89_corrects_ancillas lay hv hs hst
  obtain rfl := Except.ok.inj (hd.symm.trans hd')
  simp only [if_neg hV] at hc
  have e : lay.obsI = 1 := if_neg hV
  rw [← e] at h3
  refine ⟨d, hd, fun guess hg => ⟨(D + 1) / 2, by omega, ?_, ?_⟩⟩
  · rw [show D = (D + 1) / 2 + D / 2 by omega] at h1
    rcases uncorrected hv hs hd guess h1 h2 h3 with h | ⟨s, h4, h5⟩
    · exact h
    · by_cases ho : D / 2 = (D + 1) / 2
      · rw [ho] at h4
        exact ⟨s, h4, h5⟩
      · exact absurd (hc guess hg _ s h4 (by omega)) h5
  · rintro m ⟨rec, h4, h5⟩
    by_contra hm
    exact h5 (hc guess hg m rec h4 (by omega))

/-- C96: no decoder whatsoever is correct for all samples of such a circuit with at most a quarter of `data_height` errors, rounded up. -/
theorem c96_no_decoder (lay : HoneycombLayout) (hv : lay.Valid) (hs : lay.Supported) (hst : lay.style ∈ ["SD6", "PC3", "SI1000"])
    (hp : 0 < lay.noise) (hO : lay.obs = "H") (h6 : 6 ≤ lay.sub_rounds) :
    ∃ d, lay.makeCircuit = .ok d ∧ ∀ guess : List Bool → List Bool, ∃ (n : Nat) (rec : List (ZMod 2)),
      (n : Int) ≤ (lay.data_height + 3) / 4 ∧ CanSample n d.flatten rec ∧ guess (detectionBits d rec) ≠ observableBits d rec := by
  have hV : ¬ lay.obs = "V" := by rw [hO]; decide
  obtain ⟨d, hd, D, hD, ⟨r, h1, h2, h3⟩, -⟩ := c96_horizontal_exact lay hv hs hst hp hO h6
  refine ⟨d, hd, fun guess => ?_⟩
  rw [show D = (D + 1) / 2 + D / 2 by omega] at h1
  rw [← show lay.obsI = 1 from if_neg hV] at h3
  rcases uncorrected hv hs hd guess h1 h2 h3 with ⟨s, h4, h5⟩ | ⟨s, h4, h5⟩
  · exact ⟨_, s, by omega, h4, h5⟩
  · exact ⟨_, s, by omega, h4, h5⟩

/-! ## Examples -/

/-- The hypotheses of C96: the reported distance is 4, three errors flip the observable undetected. -/
example : ∃ d rec, HoneycombLayout.makeCircuit ⟨4, 6, 39, "SI1000", "H", 1/1000⟩ = .ok d ∧
    HoneycombLayout.code_distance_1qdep ⟨4, 6, 39, "SI1000", "H", 1/1000⟩ = 4 ∧ CanSample 3 d.flatten rec ∧
    (∀ v ∈ detectorValues d.flatten rec, v = some 0) ∧ observableValue 1 d.flatten rec ≠ some 0 ∧
    ∀ n < 3, ∀ rec, CanSample n d.flatten rec → (∀ v ∈ detectorValues d.flatten rec, v = some 0) → observableValue 1 d.flatten rec = some 0 := by
  obtain ⟨d, hd, n, hn, ⟨rec, h1, h2, h3⟩, h4⟩ := c96_three_quarters ⟨4, 6, 39, "SI1000", "H", 1/1000⟩ (by constructor <;> decide)
    (by refine ⟨?_, ?_, ?_, ?_⟩ <;> simp) (by simp) (by norm_num) rfl (by norm_num) (by norm_num)
  have e : HoneycombLayout.code_distance_1qdep ⟨4, 6, 39, "SI1000", "H", 1/1000⟩ = 4 := by decide +kernel
  rw [e] at hn
  obtain rfl : n = 3 := by omega
  refine ⟨d, rec, hd, e, h1, h2, h3, fun m hm rec' hr hdet => ?_⟩
  by_contra hobs
  exact absurd (h4 ⟨rec', hr, hdet, hobs⟩) (by omega)

/-- The hypotheses of C96 for decoders: height 12, two errors are always corrected, three are not. -/
example : ∃ d guess, HoneycombLayout.makeCircuit ⟨8, 12, 40, "PC3", "H", 1/1000⟩ = .ok d ∧ MinimumErrors d guess ∧
    (∀ rec, CanSample 2 d.flatten rec → guess (detectionBits d rec) = observableBits d rec) ∧
    ∃ rec, CanSample 3 d.flatten rec ∧ guess (detectionBits d rec) ≠ observableBits d rec := by
  have hv : HoneycombLayout.Valid ⟨8, 12, 40, "PC3", "H", 1/1000⟩ := by constructor <;> decide
  have hs : HoneycombLayout.Supported ⟨8, 12, 40, "PC3", "H", 1/1000⟩ := by refine ⟨?_, ?_, ?_, ?_⟩ <;> simp
  obtain ⟨d, hd, h⟩ := c89_corrects_ancillas _ hv hs (by simp)
  obtain ⟨d', hd', h'⟩ := c96_least_horizontal _ hv hs (by simp) (by norm_num) rfl (by norm_num)
  obtain rfl := Except.ok.inj (hd.symm.trans hd')
  obtain ⟨guess, hg⟩ := c89_exists d
  obtain ⟨n, hn, h1, -⟩ := h' guess hg
  obtain rfl : n = 3 := by simp at hn; omega
  exact ⟨d, guess, hd, hg, fun rec hr => h guess hg 2 rec hr (by simp), h1⟩

/-- The hypotheses of C96 are met in the style "SD6" as well. -/
example : HoneycombLayout.Valid ⟨4, 6, 6, "SD6", "H", 1/1000⟩ ∧ HoneycombLayout.Supported ⟨4, 6, 6, "SD6", "H", 1/1000⟩ :=
  ⟨by constructor <;> decide, by refine ⟨?_, ?_, ?_, ?_⟩ <;> simp⟩

end Honeycomb
