import Verif.Props.Attained
import Verif.Lemmas.ChargedBound

/-!
# How few errors defeat the code in the styles with ancillas (C85)

Vocabulary in `Spec/Damage.lean`. In the styles "SD6", "PC3" and "SI1000" every parity is measured with an ancilla, coupled to the left end of its
edge, then to the right end. Every error of a noise channel, including the two-qubit errors after the gates, is worth one data qubit.
-/

namespace Honeycomb
open HoneycombLayout

/-- C85, one bound per observable: in the styles with ancillas, if `n` errors are drawn from the noise channels of the generated circuit, no
detector fires and the layout's observable is flipped, then `n ≥ data_width` ("V"), `2 n ≥ data_height` ("H"). -/
theorem c85_observable_distance (lay : HoneycombLayout) (hv : lay.Valid) (hs : lay.Supported) (hst : lay.style ∈ ["SD6", "PC3", "SI1000"]) :
    ∃ d, lay.makeCircuit = .ok d ∧ ∀ (n : Nat) rec, CanSample n d.flatten rec → (∀ v ∈ detectorValues d.flatten rec, v = some 0) →
      observableValue (if lay.obs = "V" then 0 else 1) d.flatten rec ≠ some 0 →
      (if lay.obs = "V" then lay.data_width ≤ n else lay.data_height ≤ 2 * n) := by
  obtain ⟨N, hN⟩ := Int.eq_ofNat_of_zero_le (show 0 ≤ lay.sub_rounds by have := hs.2.2.1; omega)
  obtain ⟨_, _, d, _, _, _, _, _, _, _, _, _, _, _, _, hd⟩ := makeCircuit_ok hv hs hN
  have hE : lay.isEM3 = false := by
    simp only [List.mem_cons, List.not_mem_nil, or_false] at hst
    rcases hst with h | h | h <;> simp [isEM3, h]
  refine ⟨d, hd, ?_⟩
  rintro n rec ⟨F, F', -, hr⟩ hdet hobs
  obtain ⟨ht, -⟩ := noisy_run hv hs hN hd
  obtain ⟨qs, rec0, G, m, hle, hrun, hdiff⟩ := charged_sampled hv hs hE hN hd hr.loose
  obtain ⟨h1, h2⟩ := closed_charged hv hs hE hN (by have := hs.2.2.1; omega) hrun hdiff (fun x hx hg => hdet _ (by
    rw [detectorValues, ht]
    exact List.mem_map.2 ⟨x, by simp [hx, hg], rfl⟩)) (by
    rw [observableValue, ← ht]
    exact hobs)
  split_ifs with hV
  · have := h1 hV; omega
  · have := h2 hV; omega

/-- C85: in the styles with ancillas, as long as fewer than three quarters of `code_distance` (the number that `as_decoder_problem_desc` reports)
errors are drawn from the noise channels and no detector fires, the observable is not flipped. -/
theorem c85_circuit_distance (lay : HoneycombLayout) (hv : lay.Valid) (hs : lay.Supported) (hst : lay.style ∈ ["SD6", "PC3", "SI1000"]) :
    ∃ d, lay.makeCircuit = .ok d ∧ ∀ (n : Nat) rec, 4 * (n : Int) < 3 * lay.code_distance_1qdep → CanSample n d.flatten rec →
      (∀ v ∈ detectorValues d.flatten rec, v = some 0) → observableValue (if lay.obs = "V" then 0 else 1) d.flatten rec = some 0 := by
  obtain ⟨d, hd, h⟩ := c85_observable_distance lay hv hs hst
  refine ⟨d, hd, fun n rec hn hr hdet => ?_⟩
  by_contra hobs
  have h1 := h n rec hr hdet hobs
  rw [code_distance_1qdep] at hn
  split_ifs at h1 <;> omega

/-- C85: with noise and ancillas, exactly `data_width` errors of the noise channels are needed to flip the observable "V" with no detector firing. -/
theorem c85_vertical_exact (lay : HoneycombLayout) (hv : lay.Valid) (hs : lay.Supported) (hst : lay.style ∈ ["SD6", "PC3", "SI1000"])
    (hp : 0 < lay.noise) (hV : lay.obs = "V") :
    ∃ d, lay.makeCircuit = .ok d ∧ ∃ n : Nat, (n : Int) = lay.data_width ∧
      IsLeast {n : Nat | ∃ rec, CanSample n d.flatten rec ∧ (∀ v ∈ detectorValues d.flatten rec, v = some 0) ∧
        observableValue 0 d.flatten rec ≠ some 0} n := by
  obtain ⟨d, hd, h⟩ := c85_observable_distance lay hv hs hst
  obtain ⟨d', hd', n, rec, hn, h1, h2, h3⟩ := c77_undetected_flip lay hv hs hp
  obtain rfl := Except.ok.inj (hd.symm.trans hd')
  rw [if_pos hV] at hn h3
  refine ⟨d, hd, n, hn, ⟨rec, h1, h2, by rw [h3]; decide⟩, ?_⟩
  rintro m ⟨rec', hr, hdet, hobs⟩
  have := h m rec' hr hdet (by rw [if_pos hV]; exact hobs)
  rw [if_pos hV] at this
  omega

/-! ## Examples -/

/-- The hypotheses of C85: four errors flip the observable of width 4 undetected, three do not. -/
example : ∃ d rec, HoneycombLayout.makeCircuit ⟨4, 6, 39, "SI1000", "V", 1/1000⟩ = .ok d ∧ CanSample 4 d.flatten rec ∧
    (∀ v ∈ detectorValues d.flatten rec, v = some 0) ∧ observableValue 0 d.flatten rec ≠ some 0 ∧
    ∀ n < 4, ∀ rec, CanSample n d.flatten rec → (∀ v ∈ detectorValues d.flatten rec, v = some 0) → observableValue 0 d.flatten rec = some 0 := by
  obtain ⟨d, hd, n, hn, ⟨rec, h1, h2, h3⟩, h4⟩ := c85_vertical_exact ⟨4, 6, 39, "SI1000", "V", 1/1000⟩ (by constructor <;> decide)
    (by refine ⟨?_, ?_, ?_, ?_⟩ <;> simp) (by simp) (by norm_num) rfl
  simp only at hn
  obtain rfl : n = 4 := by omega
  refine ⟨d, rec, hd, h1, h2, h3, fun m hm rec' hr hdet => ?_⟩
  by_contra hobs
  exact absurd (h4 ⟨rec', hr, hdet, hobs⟩) (by omega)

end Honeycomb
