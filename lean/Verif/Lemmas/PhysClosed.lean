import Verif.Lemmas.PhysPc3

/-! Every run of the unrolled circuit. -/

namespace Honeycomb
namespace HoneycombLayout
variable {lay : HoneycombLayout} {F F' : Frame} {rec : List (ZMod 2)}

theorem eff_basisChange (hv : lay.Valid) {b : Basis} (h : Runs F (actions (lay.basisChange b)) rec F') :
    rec = [] ∧ (∀ q ∈ lay.data_qubit_coords, ∀ r : ZMod 2, F (lay.idx q) = r • Basis.Z.pauli → F' (lay.idx q) = r • b.pauli) ∧
    (∀ q ∈ lay.data_qubit_coords, (F' (lay.idx q)).1 = anti (F (lay.idx q)) b.pauli) ∧ ∀ j, lay.SameC F F' j := by
  rw [basisChange] at h
  cases b with
  | Z =>
    simp only [ne_eq, not_true_eq_false, if_false] at h
    obtain ⟨rfl, rfl⟩ := runs_nil h
    exact ⟨rfl, fun q _ r e => e, fun q _ => (anti_Z _).symm, fun j e _ => rfl⟩
  | X =>
    simp only [ne_eq, reduceCtorEq, not_false_eq_true, if_true] at h
    rw [← List.singleton_append] at h
    obtain ⟨r1, r2, S1, h1, h2, rfl⟩ := runs_append_actions h
    obtain ⟨rfl, rfl⟩ := runs_tick h2
    obtain ⟨rfl, e1, e2⟩ := eff_data hv (actions_H _) h1
    refine ⟨rfl, fun q hq r e => ?_, fun q hq => ?_, e2⟩
    · rw [e1 q hq, e]; clear e; revert r; decide
    · rw [e1 q hq, anti_X]
  | Y =>
    simp only [ne_eq, reduceCtorEq, not_false_eq_true, if_true] at h
    rw [← List.singleton_append] at h
    obtain ⟨r1, r2, S1, h1, h2, rfl⟩ := runs_append_actions h
    obtain ⟨rfl, rfl⟩ := runs_tick h2
    obtain ⟨rfl, e1, e2⟩ := eff_data hv (actions_H_YZ _) h1
    refine ⟨rfl, fun q hq r e => ?_, fun q hq => ?_, e2⟩
    · rw [e1 q hq, e]; clear e; revert r; decide
    · rw [e1 q hq]; generalize F (lay.idx q) = p; revert p; decide

theorem mem_used_data (hv : lay.Valid) {q : Pt} (hq : q ∈ lay.data_qubit_coords) : lay.idx q ∈ lay.used_qubit_indices := by
  rw [used_qubit_indices, used_eq hv]
  refine List.mem_map_of_mem ?_
  split_ifs
  · exact hq
  · exact (data_class hq).1

theorem mem_used_center (hv : lay.Valid) (he : lay.isEM3 = false) {j : Int} {e : Edge} (hm : e ∈ lay.round_edges j) :
    lay.idx e.center ∈ lay.used_qubit_indices := by
  rw [used_qubit_indices, used_eq hv]
  refine List.mem_map_of_mem ?_
  simp only [he, Bool.false_eq_true, if_false]
  exact (center_class hv hm).1

/-- The rounds of every style. -/
theorem rounds_run (hv : lay.Valid) (hs : lay.Supported) {N : Nat} (hN : lay.sub_rounds = N) {S S' : Frame}
    (hx : lay.isEM3 = false → ∀ j, ∀ e ∈ lay.round_edges j, (S (lay.idx e.center)).1 = 0) (h : Runs S (actions (lay.allRounds N)) rec S') :
    ∃ c G, lay.AbsRun (lay.pos S) N c rec G ∧ ∀ q ∈ lay.data_qubit_coords, S' (lay.idx q) = G q := by
  have h1 : 1 ≤ N := by have := hs.2.2.1; omega
  rcases supported_style hs with ⟨hst, he⟩ | ⟨hst, he⟩ | ⟨hn1, hn2, he⟩ | ⟨hst, he⟩
  · rw [allRounds, if_pos hst] at h
    exact sd6_run hv he (by simp [isPC3, hst]) hN h1 h
  · rw [allRounds, if_neg (by rw [hst]; decide), if_pos hst] at h
    exact pc3_run hv he (by simp [isPC3, hst]) h1 (hx he) h
  · rw [allRounds, if_neg hn1, if_neg hn2, if_pos he] at h
    obtain ⟨c, a⟩ := em3_run hv he (by simp [isPC3, hn2]) h
    exact ⟨c, _, a, fun q _ => rfl⟩
  · rw [allRounds, if_neg (by rw [hst]; decide), if_neg (by rw [hst]; decide), if_neg (by simp [he]), si1000All] at h
    obtain ⟨c, G, a, l⟩ := si_run hv he (by simp [isPC3, hst]) (hx he) h
    have := hs.2.2.2 hst
    rw [show 3 * (N / 3) = N by omega] at a
    exact ⟨c, G, a, l.eq⟩

theorem emitFinal_marks {n : Int} {k : Nat} : ∀ i ∈ lay.emitFinal n k, isMark i = true := fun i hi =>
  (isMark_iff i).2 ((emitFinal_gate hi).imp_right Or.inl)

/-- Every run of the unrolled circuit is a recorded trajectory. -/
theorem closed_run (hv : lay.Valid) (hs : lay.Supported) {N : Nat} (hN : lay.sub_rounds = N) (h : Runs F (actions (lay.closedCircuit N)) rec F') :
    ∃ Fs, lay.Trajectory N Fs ∧ lay.Recorded N Fs (recAt rec) ∧ rec.length = N * lay.perRound + lay.data_qubit_coords.length := by
  rw [closedCircuit] at h
  obtain ⟨r1, r2, S4, g1, g2, rfl⟩ := runs_append_actions h
  obtain ⟨r3, r4, S3, g3, g4, rfl⟩ := runs_append_actions g1
  obtain ⟨r5, r6, S0, g5, g6, rfl⟩ := runs_append_actions g3
  have hq : actions lay.qubitCoordOps = [] := by
    rw [actions, qubitCoordOps, List.flatMap_eq_nil_iff]
    intro i hi
    obtain ⟨q, _, rfl⟩ := List.mem_map.1 hi
    rfl
  rw [hq] at g5
  obtain ⟨rfl, rfl⟩ := runs_nil g5
  rw [show ([.on .R lay.used_qubit_indices, .tick] : List Instr) = [.on .R lay.used_qubit_indices] ++ [.tick] from rfl] at g6
  obtain ⟨r7, r8, S2, g7, g8, rfl⟩ := runs_append_actions g6
  obtain ⟨r9, r10, S1, g9, g10, rfl⟩ := runs_append_actions g7
  obtain ⟨rfl, rfl⟩ := runs_tick g10
  rw [actions_R] at g9
  obtain ⟨rfl, a1, _⟩ := runs_reset g9
  obtain ⟨rfl, b1, _, b3⟩ := eff_basisChange hv g8
  obtain ⟨c, G, ha, hG⟩ := rounds_run hv hs hN (fun he j e hm => by
    obtain ⟨r, hr⟩ := a1 _ (mem_used_center hv he hm)
    rw [b3 j e hm, hr, smul_Z_fst]) g4
  obtain ⟨r11, r12, S6, g11, g12, rfl⟩ := runs_append_actions g2
  rw [actions_nil_of_marks emitFinal_marks] at g12
  obtain ⟨rfl, rfl⟩ := runs_nil g12
  obtain ⟨r13, r14, S5, g13, g14, rfl⟩ := runs_append_actions g11
  obtain ⟨rfl, _, d2, _⟩ := eff_basisChange hv g13
  have hM : actions [Instr.on .M lay.data_qubit_indices] = lay.data_qubit_indices.map fun q => .measure [(.Z, q)] := by
    rw [actions, List.flatMap_cons, List.flatMap_nil, List.append_nil, Instr.actions]
    simp only [Instr.on, Instr.measures]
    rw [show (Instr.qubits ⟨.M, lay.data_qubit_indices.map .q, []⟩) = lay.data_qubit_indices from qubits_on .M _, List.map_map]
    rfl
  rw [hM] at g14
  obtain ⟨e1, _, _⟩ := runs_measure_Z g14
  have := ha.recorded hv (fun q hq => by
    obtain ⟨r, hr⟩ := a1 _ (mem_used_data hv hq)
    exact ⟨r, b1 q hq r hr⟩) (D := r14) (by
    rw [e1, data_qubit_indices, List.map_map]
    exact List.map_congr_left fun q hq => by rw [Function.comp, d2 q hq, hG q hq])
  simpa only [List.nil_append, List.append_nil] using this

theorem closed_zero (hv : lay.Valid) (hs : lay.Supported) {N : Nat} (hN : lay.sub_rounds = N) (h : Runs F (actions (lay.closedCircuit N)) rec F') :
    (∀ x ∈ timeline 0 (lay.closedCircuit N), x.1.gate = .DETECTOR → flipParity rec x = some 0) ∧
    observableValue lay.obsI (lay.closedCircuit N) rec = some 0 := by
  obtain ⟨Fs, ht, hr, hl⟩ := closed_run hv hs hN h
  exact ⟨closed_detectors hv hs hN (ht.calm hv) hr hl, closed_observable hv hs hN ht hr hl⟩

end HoneycombLayout
end Honeycomb
