import Verif.Lemmas.LogicalRun
import Verif.Props.Frame

/-!
# Code distance (C68)

`CanRecordWith S n l rec` (`Spec/Faults.lean`): executing `l` from the all-zero state while `n` single-qubit Pauli faults hit
qubits of `S`, at any places between the instructions, can give the record of measurement flips `rec`.
-/

namespace Honeycomb
open HoneycombLayout

/-- C68, one bound per observable: undetected faults on data qubits that flip the layout's observable number at least
`data_width` for "V" and two thirds of `data_height` for "H". -/
theorem c68_observable_distance (lay : HoneycombLayout) (hv : lay.Valid) (hs : lay.Supported) :
    ∃ d, lay.makeCircuit = .ok d ∧ ∀ n rec, CanRecordWith (· ∈ lay.data_qubit_indices) n d.flatten rec →
      (∀ v ∈ detectorValues d.flatten rec, v = some 0) →
      observableValue (if lay.obs = "V" then 0 else 1) d.flatten rec ≠ some 0 →
      (if lay.obs = "V" then lay.data_width else lay.data_height / 3 * 2) ≤ n := by
  obtain ⟨N, hN⟩ := Int.eq_ofNat_of_zero_le (show 0 ≤ lay.sub_rounds by have := hs.2.2.1; omega)
  obtain ⟨_, _, d, _, _, _, _, _, _, _, _, _, _, _, _, hd⟩ := makeCircuit_ok hv hs hN
  refine ⟨d, hd, ?_⟩
  rintro n rec ⟨F, F', -, hr⟩ hdet hobs
  obtain ⟨ht, -⟩ := noisy_run hv hs hN hd
  obtain ⟨G, hG⟩ := noisy_frun (B := fun _ => True) hv hs hN hd (hr.mono fun q hq => by
    obtain ⟨p, hp, e⟩ := List.mem_map.1 hq
    exact ⟨p, hp, trivial, e⟩)
  have := closed_distance hv hs hN (by have := hs.2.2.1; omega) hG (fun x hx hg => hdet _ (by
    rw [detectorValues, ht]
    exact List.mem_map.2 ⟨x, by simp [hx, hg], rfl⟩)) (by
    rw [observableValue, ← ht]
    exact hobs)
  split_ifs with hV
  · exact this.1 hV
  · exact this.2 hV

/-- C68: fewer than `code_distance` (the number that `as_decoder_problem_desc` reports) Pauli faults on data qubits that
fire no detector do not flip the layout's observable. -/
theorem c68_code_distance (lay : HoneycombLayout) (hv : lay.Valid) (hs : lay.Supported) :
    ∃ d, lay.makeCircuit = .ok d ∧ ∀ (n : Nat) rec, n < lay.code_distance_1qdep → CanRecordWith (· ∈ lay.data_qubit_indices) n d.flatten rec →
      (∀ v ∈ detectorValues d.flatten rec, v = some 0) →
      observableValue (if lay.obs = "V" then 0 else 1) d.flatten rec = some 0 := by
  obtain ⟨d, hd, h⟩ := c68_observable_distance lay hv hs
  refine ⟨d, hd, fun n rec hn hr hdet => ?_⟩
  by_contra hobs
  have h1 := h n rec hr hdet hobs
  rw [code_distance_1qdep] at hn
  split_ifs at h1 <;> omega

/-- C69: the bounds of C68 are attained. Flipping one row of data qubits ("V": X on the `data_width` data qubits at imaginary
position 1; "H": Z on two thirds of the column at real position 1) fires no detector and flips the observable. -/
theorem c69_observable_distance_attained (lay : HoneycombLayout) (hv : lay.Valid) (hs : lay.Supported) :
    ∃ d, lay.makeCircuit = .ok d ∧ ∃ (n : Nat) (rec : List (ZMod 2)), (n : Int) = (if lay.obs = "V" then lay.data_width else lay.data_height / 3 * 2) ∧
      CanRecordWith (· ∈ lay.data_qubit_indices) n d.flatten rec ∧ (∀ v ∈ detectorValues d.flatten rec, v = some 0) ∧
      observableValue (if lay.obs = "V" then 0 else 1) d.flatten rec = some 1 := by
  obtain ⟨N, hN⟩ := Int.eq_ofNat_of_zero_le (show 0 ≤ lay.sub_rounds by have := hs.2.2.1; omega)
  obtain ⟨_, _, d, _, _, _, _, _, _, _, _, _, _, _, _, hd⟩ := makeCircuit_ok hv hs hN
  obtain ⟨rec, h1, h2, h3⟩ := line_recorded hv hs hN hd
  exact ⟨d, hd, _, rec, lineQubits_length hv, h1, h2, h3⟩

/-- C69: the reported `code_distance` is exact: for a given size, style, noise and number of sub-rounds it is the least number of
faults on data qubits that, with no detector firing, flip the observable of the circuit for "V" or of the circuit for "H". -/
theorem c69_code_distance_exact (lay : HoneycombLayout) (hv : lay.Valid) (hs : lay.Supported) :
    ∃ n : Nat, (n : Int) = lay.code_distance_1qdep ∧
      IsLeast {n : Nat | ∃ obs ∈ ["V", "H"], ∃ d rec, ({ lay with obs := obs } : HoneycombLayout).makeCircuit = .ok d ∧
        CanRecordWith (· ∈ lay.data_qubit_indices) n d.flatten rec ∧ (∀ v ∈ detectorValues d.flatten rec, v = some 0) ∧
        observableValue (if obs = "V" then 0 else 1) d.flatten rec ≠ some 0} n := by
  have hvo : ∀ o, ({ lay with obs := o } : HoneycombLayout).Valid := fun o => ⟨hv.1, hv.2, hv.3, hv.4⟩
  have hso : ∀ o ∈ ["V", "H"], ({ lay with obs := o } : HoneycombLayout).Supported := fun o ho => ⟨hs.1, by simpa using ho, hs.2.2⟩
  obtain ⟨d1, e1, n1, r1, l1, a1, b1, c1⟩ := c69_observable_distance_attained _ (hvo "V") (hso "V" (by simp))
  obtain ⟨d2, e2, n2, r2, l2, a2, b2, c2⟩ := c69_observable_distance_attained _ (hvo "H") (hso "H" (by simp))
  simp only [if_true, show ¬ ("H" = "V") by decide, if_false] at l1 l2 c1 c2
  refine ⟨min n1 n2, by rw [code_distance_1qdep, ← l1, ← l2]; omega, ?_, ?_⟩
  · rcases Nat.le_total n1 n2 with h | h
    · rw [Nat.min_eq_left h]
      exact ⟨"V", by simp, d1, r1, e1, a1, b1, by rw [if_pos rfl, c1]; decide⟩
    · rw [Nat.min_eq_right h]
      exact ⟨"H", by simp, d2, r2, e2, a2, b2, by rw [if_neg (by decide), c2]; decide⟩
  · rintro m ⟨o, ho, d, rec, hd, hr, hdet, hobs⟩
    obtain ⟨d', hd', h⟩ := c68_observable_distance _ (hvo o) (hso o ho)
    rw [hd] at hd'
    obtain rfl := Except.ok.inj hd'
    have := h m rec hr hdet hobs
    simp only at this
    split_ifs at this <;> omega

/-- The hypotheses of C68 are met by a run with a bit flip on a data qubit, with noise, distance 4. -/
example : ∃ d, HoneycombLayout.makeCircuit ⟨4, 6, 40, "EM3_v2", "V", 1/1000⟩ = .ok d ∧
    HoneycombLayout.code_distance_1qdep ⟨4, 6, 40, "EM3_v2", "V", 1/1000⟩ = 4 ∧
    ∃ rec, CanRecordWith (· ∈ HoneycombLayout.data_qubit_indices ⟨4, 6, 40, "EM3_v2", "V", 1/1000⟩) 1 d.flatten rec ∧
      (∀ v ∈ detectorValues d.flatten rec, v = some 0) := by
  have hv : HoneycombLayout.Valid ⟨4, 6, 40, "EM3_v2", "V", 1/1000⟩ := by constructor <;> decide
  have hs : HoneycombLayout.Supported ⟨4, 6, 40, "EM3_v2", "V", 1/1000⟩ := by refine ⟨?_, ?_, ?_, ?_⟩ <;> simp
  obtain ⟨N, hN⟩ : ∃ N : Nat, HoneycombLayout.sub_rounds ⟨4, 6, 40, "EM3_v2", "V", 1/1000⟩ = N := ⟨40, rfl⟩
  obtain ⟨_, _, d, _, _, _, _, _, _, _, _, _, _, _, _, hd⟩ := makeCircuit_ok hv hs hN
  obtain ⟨q, hq⟩ : ∃ q, q ∈ HoneycombLayout.data_qubit_indices ⟨4, 6, 40, "EM3_v2", "V", 1/1000⟩ :=
    List.exists_mem_of_ne_nil _ (by
      have := length_data_qubit_coords hv
      intro e
      rw [data_qubit_indices, List.map_eq_nil_iff] at e
      rw [e] at this
      simp at this)
  obtain ⟨rec, F', h⟩ := runs_exists (Frame.mul (fun _ => 0) q (1, 0)) (actions d.flatten)
  obtain ⟨ht, hsim⟩ := noisy_run hv hs hN hd
  obtain ⟨G, hG⟩ := hsim _ rec F' h
  refine ⟨d, hd, rfl, rec, ⟨fun _ => 0, F', fun _ => rfl, .fault q (1, 0) hq (runs_to_faulty h)⟩, ?_⟩
  intro v hvm
  obtain ⟨x, hx, rfl⟩ := List.mem_map.1 hvm
  rw [ht, List.mem_filter] at hx
  exact (closed_zero hv hs hN hG).1 x hx.1 (by simpa using hx.2)

end Honeycomb
