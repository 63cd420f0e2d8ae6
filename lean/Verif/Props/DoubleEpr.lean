import Verif.Lemmas.DoubleEprEnd

/-!
# C98: two logical qubits survive the memory

`generate_double_epr_honeycomb_circuit` entangles two extra qubits with the logical qubits, runs the memory and compares.
-/

namespace Honeycomb
open HoneycombLayout

theorem measured_removeNoise (l : List Instr) : measured (removeNoise l) = measured l := by
  induction l with
  | nil => rfl
  | cons i l ih =>
    have e : measured (i :: l) = i.measures ++ measured l := by simp [measured]
    rw [e, ← ih, removeNoise, List.filter_cons]
    rcases h : isNoise i.gate with _ | _
    · simp only [Bool.not_false, if_true, List.map_cons, measured, List.flatMap_cons, removeNoise]
      congr 1
      split_ifs with hm
      · simp [Instr.measures, hm]
      · rfl
    · simp only [Bool.not_true, Bool.false_eq_true, if_false, measures_nil (measureCount_noise h), List.nil_append]
      rfl

theorem eprProduct_spec {lay : HoneycombLayout} (hs : lay.style = "EM3") (k : Int) :
    [0, 1, 2, 3].map (lay.eprProduct k) = lay.eprParities k := by
  have h : lay.num_qubits = lay.data_width * lay.data_height := by rw [num_qubits, if_pos (isEM3_epr hs)]
  simp [eprProduct, eprAncilla, eprLogical, eprParities, ancillaTimes, h]

theorem measured_parities {lay : HoneycombLayout} (hs : lay.style = "EM3") (k : Int) :
    measured (lay.measureObsAncParities k [0, 1, 2, 3]) = lay.eprParities k := by
  rw [← eprProduct_spec hs]
  simp only [measureObsAncParities, List.flatMap_cons, List.flatMap_nil, List.append_nil, measured_append, eprParity_measures]
  rfl

/-- C98: for every valid layout with direct parity measurements the experiment is generated. It measures the four parities of the two logical
qubits and the two ancillas, then only edges of the code (no ancilla), then the same four parities of the logical operators after the last sub-round.
The four products of one group commute, so they can be measured together. -/
theorem c98_experiment (lay : HoneycombLayout) (hv : lay.Valid) (hs : lay.style = "EM3") :
    (∃ d, lay.doubleEpr = .ok d ∧ measured d.flatten = lay.eprParities 0 ++
      ((List.range lay.sub_rounds.toNat).flatMap fun k : Nat =>
        (lay.round_edges k).map fun e => [(Basis.ofIdx k, lay.idx e.left), (Basis.ofIdx k, lay.idx e.right)]) ++ lay.eprParities lay.sub_rounds) ∧
    (∀ q ∈ lay.data_qubit_coords, (lay.idx q : Int) < lay.data_width * lay.data_height) ∧
    ∀ k, ∀ P ∈ lay.eprParities k, ∀ Q ∈ lay.eprParities k, crossing P Q = 0 := by
  have hnum : lay.num_qubits = lay.data_width * lay.data_height := by rw [num_qubits, if_pos (isEM3_epr hs)]
  refine ⟨?_, fun q hq => ?_, fun k P hP Q hQ => ?_⟩
  · obtain ⟨d, g, hd, hg, hf⟩ := doubleEpr_ok hv hs
    refine ⟨d, hd, ?_⟩
    rw [hf, measured_append, measured_append, measured_parities hs, measured_parities hs]
    congr 2
    rw [measured, List.flatMap_assoc]
    congr 1
    funext k
    have h : (g k).flatMap Instr.measures = measured (g k) := rfl
    rw [h, ← measured_removeNoise, hg.clean, eprEmit, measured_append, measured_append, measured_marks (eprAnn_marks k), List.append_nil,
      show measured [Instr.tick] = [] from rfl, List.append_nil, measured, List.flatMap_cons, List.flatMap_nil, List.append_nil]
    have h2 : (lay.eprMpp k).measures = mppGroups (lay.mppOf k).targets := rfl
    rw [h2, mpp_targets, mppGroups_pair, List.map_map]
    rfl
  · have := idx_lt_num hv hs hq
    rw [← hnum]
    omega
  · rw [← eprProduct_spec hs] at hP hQ
    obtain ⟨i, hi, rfl⟩ := List.mem_map.1 hP
    obtain ⟨j, hj, rfl⟩ := List.mem_map.1 hQ
    have h4 : ∀ i ∈ [0, 1, 2, 3], i < 4 := by decide
    exact crossing_eprProduct hv hs k (h4 i hi) (h4 j hj)

/-- C98: if no error is drawn, no detector ever fires and each of the four observables has the value it had at the start: the two logical qubits are
still entangled with the ancillas. -/
theorem c98_two_logical_qubits (lay : HoneycombLayout) (hv : lay.Valid) (hs : lay.style = "EM3") (hN : 0 ≤ lay.sub_rounds) (d : Circuit)
    (hd : lay.doubleEpr = .ok d) (rec : List (ZMod 2)) (hr : CanRecord d.flatten rec) :
    (∀ v ∈ detectorValues d.flatten rec, v = some 0) ∧ ∀ i < 4, observableValue i d.flatten rec = some 0 := by
  obtain ⟨d', g, hd', hg, hf⟩ := doubleEpr_ok hv hs
  rw [hd] at hd'
  cases hd'
  obtain ⟨F, F', -, h⟩ := hr
  obtain ⟨N, e⟩ : ∃ N : Nat, lay.sub_rounds = N := ⟨lay.sub_rounds.toNat, by omega⟩
  rw [hf, e, Int.toNat_natCast] at h ⊢
  exact epr_quiet hv hs hg h

theorem epr_detector_count (lay : HoneycombLayout) (hv : lay.Valid) (hs : lay.style = "EM3") (d : Circuit) (hd : lay.doubleEpr = .ok d) (rec : List (ZMod 2)) :
    (detectorValues d.flatten rec).length =
      ((List.range lay.sub_rounds.toNat).map fun k : Nat => if 6 ≤ k then (lay.round_hex_centers (((k : Int) - 2) % 3)).length else 0).sum := by
  obtain ⟨d', g, hd', hg, hf⟩ := doubleEpr_ok hv hs
  rw [hd] at hd'
  cases hd'
  have hann : ∀ k t : Nat, (((lay.eprAnn k).map fun i => (i, t)).filter fun x => decide (x.1.gate = .DETECTOR)).length =
      if 6 ≤ k then (lay.round_hex_centers (((k : Int) - 2) % 3)).length else 0 := by
    intro k t
    rw [eprAnn, List.map_append, List.filter_append]
    have h1 : (([0, 1, 2, 3].map fun i : Nat => Instr.observable (relTo ((k + 1) * lay.perRound) (lay.eprObs k i)) i).map fun i => (i, t)).filter
        (fun x => decide (x.1.gate = .DETECTOR)) = [] := by
      simp [Instr.observable]
    rw [h1, List.nil_append]
    split_ifs with h6
    · have hsome : ∀ (j : Nat) (h : Pt), 1 ≤ j → ∃ s, lay.vHex .X j h = some s := by
        intro j h hj
        rw [vHex, if_neg (by omega), vHalf, xorL_some, xorL_some]
        exact ⟨_, rfl⟩
      generalize lay.round_hex_centers (((k : Int) - 2) % 3) = hs
      induction hs with
      | nil => rfl
      | cons h hs ih =>
        obtain ⟨s1, e1⟩ := hsome k h (by omega)
        obtain ⟨s2, e2⟩ := hsome (k - 3) h (by omega)
        rw [List.flatMap_cons, List.map_append, List.filter_append, List.length_append, ih, e1, e2, List.length_cons]
        have : xorO (some s1) (some s2) = some (symmDiff s1 s2) := rfl
        rw [this]
        simp [detI, Instr.detector, Nat.add_comm]
    · rfl
  rw [detectorValues, List.length_map, hf, timeline_epr hv hg, List.filter_append, List.filter_append]
  have hobs : ∀ a b c e : Nat, ([(Instr.observable [-1] 0, a), (Instr.observable [-1] 1, b), (Instr.observable [-1] 2, c), (Instr.observable [-1] 3, e)] :
      List (Instr × Nat)).filter (fun x => decide (x.1.gate = .DETECTOR)) = [] := by
    intro a b c e
    simp [Instr.observable]
  rw [hobs, hobs, List.nil_append, List.append_nil]
  generalize lay.sub_rounds.toNat = N
  induction N with
  | zero => rfl
  | succ N ih =>
    rw [range_succ_flatMap, List.filter_append, List.length_append, ih, hann, List.range_succ, List.map_append, List.sum_append]
    simp

/-- C98: every sub-round from the seventh on has a detector for a third of the hexagons, one hexagon per six data qubits. -/
theorem c98_detectors (lay : HoneycombLayout) (hv : lay.Valid) (hs : lay.style = "EM3") (d : Circuit) (hd : lay.doubleEpr = .ok d) (rec : List (ZMod 2)) :
    6 * ((detectorValues d.flatten rec).length : Int) = ((lay.sub_rounds.toNat - 6 : Nat) : Int) * (lay.data_width * lay.data_height) := by
  rw [epr_detector_count lay hv hs d hd rec]
  have hlen : ∀ k : Nat, ((lay.round_hex_centers (((k : Int) - 2) % 3)).length : Int) = 2 * lay.tile_width * lay.tile_height :=
    fun k => length_round_hex_centers hv (by omega) (by omega)
  generalize lay.sub_rounds.toNat = N
  induction N with
  | zero => simp
  | succ N ih =>
    rw [List.range_succ, List.map_append, List.sum_append, Nat.cast_add, _root_.mul_add, ih]
    simp only [List.map_cons, List.map_nil, List.sum_cons, List.sum_nil, Nat.add_zero]
    split_ifs with h
    · rw [show N + 1 - 6 = N - 6 + 1 by omega, hlen, Nat.cast_add, Nat.cast_one, Valid.dw hv, Valid.dh hv]
      ring
    · rw [show N + 1 - 6 = 0 by omega, show N - 6 = 0 by omega]
      simp

/-- C98: the condition `3 <= sub_round <= sub_rounds` under which a sub-round is noisy holds up to the very end of the memory, and nothing checks the last
sub-round again. So a single error can flip an observable with no detector firing. -/
theorem c98_undetected (lay : HoneycombLayout) (hv : lay.Valid) (hs : lay.style = "EM3") (hp : 0 < lay.noise) (hN : 4 ≤ lay.sub_rounds) (d : Circuit)
    (hd : lay.doubleEpr = .ok d) :
    ∃ rec, CanSample 1 d.flatten rec ∧ (∀ v ∈ detectorValues d.flatten rec, v = some 0) ∧ ∃ i < 4, observableValue i d.flatten rec = some 1 := by
  obtain ⟨d', g, hd', hg, hf⟩ := doubleEpr_ok hv hs
  rw [hd] at hd'
  cases hd'
  obtain ⟨N, e⟩ : ∃ N : Nat, lay.sub_rounds = N := ⟨lay.sub_rounds.toNat, by omega⟩
  rw [hf, e, Int.toNat_natCast]
  exact epr_undetected hv hs hp hg e (by omega)

/-- The layout of the experiment meets the hypotheses. -/
example : doubleEprLayout.Valid ∧ doubleEprLayout.style = "EM3" ∧ 0 < doubleEprLayout.noise ∧ 4 ≤ doubleEprLayout.sub_rounds :=
  ⟨⟨by decide, by decide, by decide, by decide⟩, rfl, by norm_num [doubleEprLayout], by decide⟩

example : ∃ d rec, doubleEprLayout.doubleEpr = .ok d ∧ CanRecord d.flatten rec := by
  obtain ⟨d, hd, _⟩ := (c98_experiment doubleEprLayout ⟨by decide, by decide, by decide, by decide⟩ rfl).1
  obtain ⟨rec, F', h⟩ := runs_exists 0 (actions d.flatten)
  exact ⟨d, rec, hd, 0, F', fun _ => rfl, h⟩

end Honeycomb
