import Verif.Lemmas.Damage
import Verif.Lemmas.Connectivity
import Verif.Props.Distance

/-!
# Damaged regions and circuit-level distance (C73-C76)

Vocabulary in `Spec/Damage.lean`. Coordinates are doubled: the data qubits of column `i` have `q.x = 4 * i + 2`, those of row `r`
have `q.y = 2 * r`.
-/

namespace Honeycomb
open HoneycombLayout

/-- C73: every two-qubit gate of the generated circuit couples a data qubit to the ancilla of one of its edges, every parity measurement
measures the two ends of an edge, and every error that a noise channel can make stays on the ends and the ancilla of one edge. -/
theorem c73_local (lay : HoneycombLayout) (hv : lay.Valid) (hs : lay.Supported) :
    ∃ d, lay.makeCircuit = .ok d ∧ ∀ i ∈ d.flatten,
      (kind i.gate = .clifford2 → ∀ x ∈ pairs i.qubits, ∃ e ∈ lay.all_edges, (x.1 = lay.idx e.left ∨ x.1 = lay.idx e.right) ∧ x.2 = lay.ancilla e) ∧
      (i.gate = .MPP → ∀ P ∈ i.measures, ∃ e ∈ lay.all_edges, P.map (·.2) = [lay.idx e.left, lay.idx e.right]) ∧
      ∀ c ∈ i.channels, ∃ e ∈ lay.all_edges, ∀ q ∈ c, q ∈ [lay.idx e.left, lay.idx e.right, lay.ancilla e] := by
  obtain ⟨N, hN⟩ := Int.eq_ofNat_of_zero_le (show 0 ≤ lay.sub_rounds by have := hs.2.2.1; omega)
  obtain ⟨_, _, d, _, _, _, _, _, _, _, _, _, _, _, _, hd⟩ := makeCircuit_ok hv hs hN
  exact ⟨d, hd, local_all hv hs hN hd⟩

/-- C74: if everything inside the region `B` goes wrong (`DamagedRecord`) and no detector fires, then the layout's observable is
flipped only if `B` crosses the torus: it has a data qubit in every column ("V"), in one of any two adjacent rows ("H"). -/
theorem c74_damage_crosses (lay : HoneycombLayout) (hv : lay.Valid) (hs : lay.Supported) :
    ∃ d, lay.makeCircuit = .ok d ∧ ∀ (B : Pt → Prop) rec, lay.DamagedRecord B d.flatten rec → (∀ v ∈ detectorValues d.flatten rec, v = some 0) →
      observableValue (if lay.obs = "V" then 0 else 1) d.flatten rec ≠ some 0 →
      (lay.obs = "V" → ∀ i : Nat, (i : Int) < lay.data_width → ∃ q ∈ lay.data_qubit_coords, B q ∧ q.x = 4 * i + 2) ∧
      (lay.obs = "H" → ∀ r : Nat, ∃ q ∈ lay.data_qubit_coords, B q ∧
        ((q.y / 2 - r) % lay.data_height = 0 ∨ (q.y / 2 - (r + 1)) % lay.data_height = 0)) := by
  obtain ⟨N, hN⟩ := Int.eq_ofNat_of_zero_le (show 0 ≤ lay.sub_rounds by have := hs.2.2.1; omega)
  obtain ⟨_, _, d, _, _, _, _, _, _, _, _, _, _, _, _, hd⟩ := makeCircuit_ok hv hs hN
  refine ⟨d, hd, ?_⟩
  rintro B rec ⟨m, rec0, ⟨F, F', -, hr⟩, hlen, hfl⟩ hdet hobs
  obtain ⟨ht, -⟩ := noisy_run hv hs hN hd
  obtain ⟨G, hG⟩ := noisy_frun_of hv hs hN hd (fun hst q hq => by
    rcases hq with ⟨p, hp, _, rfl⟩ | ⟨ha, _⟩
    · exact List.mem_map_of_mem hp
    · exact absurd hst ha.2) hr
  have := closed_damage hv hs hN (by have := hs.2.2.1; omega) hG hlen hfl (fun x hx hg => hdet _ (by
    rw [detectorValues, ht]
    exact List.mem_map.2 ⟨x, by simp [hx, hg], rfl⟩)) (by
    rw [observableValue, ← ht]
    exact hobs)
  exact ⟨this.1, fun hH => this.2 (by rw [hH]; decide)⟩

/-- C74, counted: undetected damage that flips the observable touches at least `data_width` data qubits ("V"), half of `data_height` ("H"). -/
theorem c74_damage_size (lay : HoneycombLayout) (hv : lay.Valid) (hs : lay.Supported) :
    ∃ d, lay.makeCircuit = .ok d ∧ ∀ (L : List Pt) rec, lay.DamagedRecord (· ∈ L) d.flatten rec → (∀ v ∈ detectorValues d.flatten rec, v = some 0) →
      observableValue (if lay.obs = "V" then 0 else 1) d.flatten rec ≠ some 0 →
      (if lay.obs = "V" then lay.data_width else lay.data_height / 2) ≤ L.length := by
  obtain ⟨d, hd, h⟩ := c74_damage_crosses lay hv hs
  refine ⟨d, hd, fun L rec hr hdet hobs => ?_⟩
  obtain ⟨h1, h2⟩ := h _ rec hr hdet hobs
  obtain ⟨k1, k2⟩ := cross_points hv (L := L)
  split_ifs with hV
  · exact k1 (h1 hV)
  · have := k2 (h2 (hs.2.1.resolve_left hV))
    omega

/-- C75: damage confined to `n` edges (their ends, their ancillas, the results about them), undetected and flipping the observable, needs
`2 n ≥ data_width` ("V"), `3 n ≥ data_height` ("H"). -/
theorem c75_edge_damage (lay : HoneycombLayout) (hv : lay.Valid) (hs : lay.Supported) :
    ∃ d, lay.makeCircuit = .ok d ∧ ∀ (es : List Edge) rec, (∀ e ∈ es, e ∈ lay.all_edges) →
      lay.DamagedRecord (fun q => ∃ e ∈ es, q = e.left ∨ q = e.right) d.flatten rec → (∀ v ∈ detectorValues d.flatten rec, v = some 0) →
      observableValue (if lay.obs = "V" then 0 else 1) d.flatten rec ≠ some 0 →
      (if lay.obs = "V" then lay.data_width ≤ 2 * es.length else lay.data_height ≤ 3 * es.length) := by
  obtain ⟨d, hd, h⟩ := c74_damage_crosses lay hv hs
  refine ⟨d, hd, fun es rec hes hr hdet hobs => ?_⟩
  obtain ⟨h1, h2⟩ := h _ rec hr hdet hobs
  obtain ⟨k1, k2⟩ := cross_edges hv hes
  split_ifs with hV
  · exact k1 (h1 hV)
  · exact k2 (h2 (hs.2.1.resolve_left hV))

/-- C76, one bound per observable: if `n` errors are drawn from the noise channels of the generated circuit, no detector fires and the
layout's observable is flipped, then `2 n ≥ data_width` ("V"), `3 n ≥ data_height` ("H"). -/
theorem c76_observable_distance (lay : HoneycombLayout) (hv : lay.Valid) (hs : lay.Supported) :
    ∃ d, lay.makeCircuit = .ok d ∧ ∀ (n : Nat) rec, CanSample n d.flatten rec → (∀ v ∈ detectorValues d.flatten rec, v = some 0) →
      observableValue (if lay.obs = "V" then 0 else 1) d.flatten rec ≠ some 0 →
      (if lay.obs = "V" then lay.data_width ≤ 2 * n else lay.data_height ≤ 3 * n) := by
  obtain ⟨N, hN⟩ := Int.eq_ofNat_of_zero_le (show 0 ≤ lay.sub_rounds by have := hs.2.2.1; omega)
  obtain ⟨_, _, d, _, _, _, _, _, _, _, _, _, _, _, _, hd⟩ := makeCircuit_ok hv hs hN
  refine ⟨d, hd, ?_⟩
  rintro n rec ⟨F, F', -, hr⟩ hdet hobs
  obtain ⟨ht, -⟩ := noisy_run hv hs hN hd
  obtain ⟨es, rec0, G, m, hle, hes, hrun, hdiff⟩ := sampled hv hs hN hd hr.loose
  obtain ⟨h1, h2⟩ := closed_sampled hv hs hN (by have := hs.2.2.1; omega) hes hrun hdiff (fun x hx hg => hdet _ (by
    rw [detectorValues, ht]
    exact List.mem_map.2 ⟨x, by simp [hx, hg], rfl⟩)) (by
    rw [observableValue, ← ht]
    exact hobs)
  obtain ⟨k1, k2⟩ := cross_edges hv hes
  split_ifs with hV
  · have := k1 (h1 hV); omega
  · have := k2 (h2 hV); omega

/-- C76: as long as fewer than half of `code_distance` (the number that `as_decoder_problem_desc` reports) errors are drawn from the noise
channels and no detector fires, the observable is not flipped. -/
theorem c76_circuit_distance (lay : HoneycombLayout) (hv : lay.Valid) (hs : lay.Supported) :
    ∃ d, lay.makeCircuit = .ok d ∧ ∀ (n : Nat) rec, 2 * (n : Int) < lay.code_distance_1qdep → CanSample n d.flatten rec →
      (∀ v ∈ detectorValues d.flatten rec, v = some 0) → observableValue (if lay.obs = "V" then 0 else 1) d.flatten rec = some 0 := by
  obtain ⟨d, hd, h⟩ := c76_observable_distance lay hv hs
  refine ⟨d, hd, fun n rec hn hr hdet => ?_⟩
  by_contra hobs
  have h1 := h n rec hr hdet hobs
  rw [code_distance_1qdep] at hn
  split_ifs at h1 <;> omega

end Honeycomb
