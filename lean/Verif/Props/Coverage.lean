import Verif.Lemmas.Felt
import Verif.Lemmas.DetectorCount
import Verif.Props.Decompose

/-!
# Every detector of a generated circuit watches something (C101)

`CanSample n l rec` (`Spec/Damage.lean`): executing `l` from the all-zero state while its noise channels make `n` errors can give the record of measurement flips
`rec`. `CanRecordWith S n l rec` (`Spec/Faults.lean`): the same with `n` single-qubit Pauli faults on qubits of `S`. `detectorValues`: the parities of this record
that the detectors of the circuit are, in the order of the circuit.
-/

namespace Honeycomb
open HoneycombLayout
variable {lay : HoneycombLayout} {N : Nat}

theorem num_detectors_allDets (hv : lay.Valid) (hs : lay.Supported) (hN : lay.sub_rounds = N) {d : Circuit} (hd : lay.makeCircuit = .ok d) :
    d.num_detectors = (allDets lay N).length := by
  obtain ⟨ht, -⟩ := noisy_run hv hs hN hd
  rw [← detectorValues_length d (List.replicate (lay.total N) 0), detectorValues, ht, ← detectorValues,
    values_eq hv hs hN (List.length_replicate (n := lay.total N)), List.length_map]

/-- The detectors that fire when an elementary fault happens. -/
theorem elem_fires (hv : lay.Valid) (hs : lay.Supported) (hN : lay.sub_rounds = N) {d : Circuit} (hd : lay.makeCircuit = .ok d) {C : List (ZMod 2) → Prop}
    (hC : ∀ x, lay.Elem N x → (∀ ψ, lay.Meter N ψ → ψ (oneFault x.1 x.2.1 x.2.2) = 0) ∨
      ∃ rec Fs, C rec ∧ rec.length = lay.total N ∧ lay.Recorded N Fs (recAt rec) ∧ ∀ ψ, lay.Meter N ψ → ψ Fs = ψ (oneFault x.1 x.2.1 x.2.2))
    {i : Nat} (hi : i < d.num_detectors) :
    ∃ rec, C rec ∧ (detectorValues d.flatten rec)[i]? = some (some 1) ∧ (detectorValues d.flatten rec).count (some 1) ≤ 2 := by
  have h1 : 1 ≤ N := by have := hs.2.2.1; omega
  have two : ∀ z : ZMod 2, z ≠ 0 → z = 1 := by decide
  obtain ⟨ht, -⟩ := noisy_run hv hs hN hd
  have hval : ∀ r, detectorValues d.flatten r = detectorValues (lay.closedCircuit N) r := fun r => by rw [detectorValues, ht, detectorValues]
  rw [num_detectors_allDets hv hs hN hd] at hi
  obtain ⟨φ, hφ, x, hx, hne⟩ := allDets_elem hv hs.2.1 h1 (List.getElem_mem hi)
  rcases hC x hx with h | ⟨rec, Fs, hc, hl, hrec, heq⟩
  · exact absurd (h φ (hφ.meter hv)) hne
  refine ⟨rec, hc, ?_, ?_⟩
  · rw [hval, values_eq hv hs hN hl, List.getElem?_map, List.getElem?_eq_getElem hi, Option.map_some, hφ.val _ _ hrec, heq φ (hφ.meter hv), two _ hne]
  · choose! ψ hψ using fun x (hx : x ∈ allDets lay N) => allDets_reads hv hs.2.1 h1 hx
    obtain ⟨hits, hh, hk⟩ := elem_hits hv hx hs.2.1
    rw [hval, values_eq hv hs hN hl]
    refine (count_le (keys_nodup hv N) (hits := hits) fun y hy hf => ?_).trans hh
    refine hk _ _ _ (hψ y hy) ?_
    rw [← heq _ ((hψ y hy).meter hv), ← (hψ y hy).val _ _ hrec, Option.some.inj hf]
    decide

/-- C101: for every detector of a noisy generated circuit a single error of the noise channels exists that fires this detector and at most one other. -/
theorem c101_watches (lay : HoneycombLayout) (hv : lay.Valid) (hs : lay.Supported) (hp : 0 < lay.noise) :
    ∃ d, lay.makeCircuit = .ok d ∧ ∀ i < d.num_detectors, ∃ rec, CanSample 1 d.flatten rec ∧
      (detectorValues d.flatten rec)[i]? = some (some 1) ∧ (detectorValues d.flatten rec).count (some 1) ≤ 2 := by
  obtain ⟨N, hN⟩ := Int.eq_ofNat_of_zero_le (show 0 ≤ lay.sub_rounds by have := hs.2.2.1; omega)
  obtain ⟨_, _, d, _, _, _, _, _, _, _, _, _, _, _, _, hd⟩ := makeCircuit_ok hv hs hN
  exact ⟨d, hd, fun i hi => elem_fires hv hs hN hd (fun x hx => HoneycombLayout.drawn hv hs hN hp hd hx) hi⟩

/-- C101: with or without noise channels, for every detector a single Pauli fault on a data qubit exists that fires this detector and at most one other. -/
theorem c101_watches_data (lay : HoneycombLayout) (hv : lay.Valid) (hs : lay.Supported) :
    ∃ d, lay.makeCircuit = .ok d ∧ ∀ i < d.num_detectors, ∃ rec, CanRecordWith (fun q => q ∈ lay.data_qubit_indices) 1 d.flatten rec ∧
      (detectorValues d.flatten rec)[i]? = some (some 1) ∧ (detectorValues d.flatten rec).count (some 1) ≤ 2 := by
  obtain ⟨N, hN⟩ := Int.eq_ofNat_of_zero_le (show 0 ≤ lay.sub_rounds by have := hs.2.2.1; omega)
  obtain ⟨_, _, d, _, _, _, _, _, _, _, _, _, _, _, _, hd⟩ := makeCircuit_ok hv hs hN
  exact ⟨d, hd, fun i hi => elem_fires hv hs hN hd (fun x hx => .inr (caused hv hs hN hd hx (List.mem_map_of_mem hx.1))) hi⟩

/-- C22: the number of detectors. There are `data_width * data_height / 6` faces of each colour, and of these each sub-round checks one colour, except in the first
sub-rounds; the edges at the start ("H") and the edges or faces at the end, according to the basis the data qubits are measured in, give the other summands. -/
theorem c22_detectors (lay : HoneycombLayout) (hv : lay.Valid) (hs : lay.Supported) :
    ∃ d, lay.makeCircuit = .ok d ∧ (d.num_detectors : Int) = lay.data_width * lay.data_height / 6 * (if lay.obs = "V" then
        lay.sub_rounds + (if lay.sub_rounds % 2 = 0 then 2 else 0) + (if lay.sub_rounds < 3 then 1 else 0) else
        lay.sub_rounds + (if lay.sub_rounds % 2 = 0 then 2 else 4) + (if lay.sub_rounds < 4 then 1 else 0) + (if lay.sub_rounds < 2 then 1 else 0)) := by
  obtain ⟨N, hN⟩ := Int.eq_ofNat_of_zero_le (show 0 ≤ lay.sub_rounds by have := hs.2.2.1; omega)
  obtain ⟨_, _, d, _, _, _, _, _, _, _, _, _, _, _, _, hd⟩ := makeCircuit_ok hv hs hN
  refine ⟨d, hd, ?_⟩
  have h1 : 1 ≤ N := by have := hs.2.2.1; omega
  have hf : (lay.faces : Int) = lay.data_width * lay.data_height / 6 := by
    rw [faces, length_round_hex_centers hv (by omega) (by omega), Valid.dw hv, Valid.dh hv]
    rw [show 2 * lay.tile_width * (6 * lay.tile_height) = 6 * (2 * lay.tile_width * lay.tile_height) by ring]
    omega
  rw [num_detectors_allDets hv hs hN hd, allDets_length hv hs.2.1 h1, Nat.cast_mul, hf, hN]
  congr 1
  split_ifs <;> omega

/-- The hypotheses of C22, C101 are met: a noisy circuit with four sub-rounds has `24` detectors, the last of which a single error fires. -/
example : ∃ d, HoneycombLayout.makeCircuit ⟨4, 6, 4, "EM3", "V", 1/1000⟩ = .ok d ∧ d.num_detectors = 24 ∧ ∃ rec, CanSample 1 d.flatten rec ∧
    (detectorValues d.flatten rec)[23]? = some (some 1) := by
  have hv : HoneycombLayout.Valid ⟨4, 6, 4, "EM3", "V", 1/1000⟩ := by constructor <;> decide
  have hs : HoneycombLayout.Supported ⟨4, 6, 4, "EM3", "V", 1/1000⟩ := by refine ⟨?_, ?_, ?_, ?_⟩ <;> simp
  obtain ⟨d, hd, h⟩ := c101_watches _ hv hs (by norm_num)
  obtain ⟨d', hd', h'⟩ := c22_detectors _ hv hs
  rw [hd] at hd'
  obtain rfl := Except.ok.inj hd'
  have h24 : d.num_detectors = 24 := by simp at h'; omega
  obtain ⟨rec, a, b, -⟩ := h 23 (by omega)
  exact ⟨d, hd, h24, rec, a, b⟩

end Honeycomb
