import Verif.Lemmas.FaultyPc3

/-! Faulty runs of the unrolled circuit. -/

namespace Honeycomb
namespace HoneycombLayout
variable {lay : HoneycombLayout} {F F' : Frame} {rec : List (ZMod 2)} {n N : Nat}

theorem FRun.trans {F0 F1 : PauliOp} {k n m : Nat} {c : Edge → ZMod 2} {R : List (ZMod 2)} {G : PauliOp} (h : lay.FRun B F1 k c R G n)
    (h0 : lay.FRun B F0 0 (fun _ => 0) [] F1 m) : lay.FRun B F0 k c R G (m + n) := by
  induction h with
  | start => exact h0
  | bump h qs hB F' hF ih => rw [← Nat.add_assoc]; exact ih.bump qs hB F' hF
  | step h F' hF ih => exact ih.step F' hF

theorem rounds_frun (hv : lay.Valid) (hs : lay.Supported) (hN : lay.sub_rounds = N) {S S' : Frame}
    (hx : lay.isEM3 = false → ∀ j, ∀ e ∈ lay.round_edges j, (S (lay.idx e.center)).1 = 0) (h : FaultyRuns (lay.IsIn B) S (lay.allRounds N) rec S' n) :
    ∃ c G, lay.FRun B (lay.pos S) N c rec G n ∧ ∀ q ∈ lay.data_qubit_coords, S' (lay.idx q) = G q := by
  have h1 : 1 ≤ N := by have := hs.2.2.1; omega
  rcases supported_style hs with ⟨hst, he⟩ | ⟨hst, he⟩ | ⟨hn1, hn2, he⟩ | ⟨hst, he⟩
  · rw [allRounds, if_pos hst] at h
    exact sd6_frun hv he (by simp [isPC3, hst]) hN h1 h
  · rw [allRounds, if_neg (by rw [hst]; decide), if_pos hst] at h
    exact pc3_frun hv he (by simp [isPC3, hst]) h1 (hx he) h
  · rw [allRounds, if_neg hn1, if_neg hn2, if_pos he] at h
    obtain ⟨c, a⟩ := em3_frun hv he (by simp [isPC3, hn2]) h
    exact ⟨c, _, a, fun q _ => rfl⟩
  · rw [allRounds, if_neg (by rw [hst]; decide), if_neg (by rw [hst]; decide), if_neg (by simp [he]), si1000All] at h
    obtain ⟨c, G, a, l⟩ := si_frun hv he (by simp [isPC3, hst]) (hx he) h
    have := hs.2.2.2 hst
    rw [show 3 * (N / 3) = N by omega] at a
    exact ⟨c, G, a, l.eq⟩

theorem budget_basisChange (b : Basis) : lay.Budget [] (lay.basisChange b) := by
  rw [basisChange]
  cases b with
  | Z =>
    simp only [ne_eq, not_true_eq_false, if_false]
    exact budget_nil
  | X =>
    simp only [ne_eq, reduceCtorEq, not_false_eq_true, if_true]
    exact (budget_clifford (actions_H _)).idle_left budget_tick
  | Y =>
    simp only [ne_eq, reduceCtorEq, not_false_eq_true, if_true]
    exact (budget_clifford (actions_H_YZ _)).idle_left budget_tick

theorem budget_coords : lay.Budget [] lay.qubitCoordOps := budget_idle fun i hi p _ => by
  obtain ⟨q, _, rfl⟩ := List.mem_map.1 hi
  exact couples_nil rfl

/-- Every faulty run of the unrolled circuit is a recorded faulty trajectory. -/
theorem closed_frun (hv : lay.Valid) (hs : lay.Supported) (hN : lay.sub_rounds = N)
    (h : FaultyRuns (lay.IsIn B) F (lay.closedCircuit N) rec F' n) :
    ∃ Fs E locs, lay.FaultyTrajectory N E Fs ∧ lay.Recorded N Fs (recAt rec) ∧ rec.length = N * lay.perRound + lay.data_qubit_coords.length ∧
      lay.Located E locs ∧ locs.length ≤ n ∧ ∀ x ∈ locs, B x.2 := by
  rw [closedCircuit] at h
  obtain ⟨r1, r2, S4, n1, n2, g1, g2, rfl, rfl⟩ := h.append
  obtain ⟨r3, r4, S3, n3, n4, g3, g4, rfl, rfl⟩ := g1.append
  have hused : lay.Budget [0, 1] [.on .R lay.used_qubit_indices] := (budget_on hv (by simp) (covers_used hv)).mono (by
    intro c _ hc
    simpa using hc)
  obtain ⟨p1, p2, A1, A2, d1, g5, d2, rfl⟩ := segment hv (budget_coords.idle_left ((hused.idle_right budget_tick).idle_right (budget_basisChange (lay.obsAt 0).1))) g3
  have hM0 : lay.Budget [0, 1] [.on .M lay.data_qubit_indices] := budget_on hv (by simp) (covers_data hv)
  obtain ⟨p3, p4, B1, B2, d3, g6, d4, rfl⟩ := segment hv (((budget_basisChange (lay.obsAt N).1).idle_left hM0).idle_right (budget_marks emitFinal_marks)) g2
  -- the start
  obtain ⟨ra, rb, C0, g7, g8, rfl⟩ := runs_append_actions g5
  have hq : actions lay.qubitCoordOps = [] := by
    rw [actions, qubitCoordOps, List.flatMap_eq_nil_iff]
    intro i hi
    obtain ⟨q, _, rfl⟩ := List.mem_map.1 hi
    rfl
  rw [hq] at g7
  obtain ⟨rfl, rfl⟩ := runs_nil g7
  obtain ⟨r7, r8, S2, g7', g8', rfl⟩ := runs_append_actions g8
  obtain ⟨r9, r10, S1, g9, g10, rfl⟩ := runs_append_actions (a := [_]) (b := [_]) g7'
  obtain ⟨rfl, rfl⟩ := runs_tick g10
  rw [actions_R] at g9
  obtain ⟨rfl, a1, _⟩ := runs_reset g9
  obtain ⟨rfl, b1, _, b3⟩ := eff_basisChange hv g8'
  obtain ⟨c, G, ha, hG⟩ := rounds_frun hv hs hN (fun he j e hm => by
    obtain ⟨r, hr⟩ := a1 _ (mem_used_center hv he hm)
    rw [d2.centers j e hm, b3 j e hm, hr, smul_Z_fst]) g4
  have hb := (ha.trans (FRun.start.bump' d2)).bump p3 d3.sub (lay.pos B1) (fun q hq hn => by
    rw [pos, d3.data q hq hn, hG q hq])
  -- the end
  obtain ⟨r11, r12, S6, g11, g12, rfl⟩ := runs_append_actions g6
  rw [actions_nil_of_marks emitFinal_marks] at g12
  obtain ⟨rfl, rfl⟩ := runs_nil g12
  obtain ⟨r13, r14, S5, g13, g14, rfl⟩ := runs_append_actions g11
  obtain ⟨rfl, _, e2, _⟩ := eff_basisChange hv g13
  have hM : actions [Instr.on .M lay.data_qubit_indices] = lay.data_qubit_indices.map fun q => .measure [(.Z, q)] := by
    rw [actions, List.flatMap_cons, List.flatMap_nil, List.append_nil, Instr.actions]
    simp only [Instr.on, Instr.measures]
    rw [show (Instr.qubits ⟨.M, lay.data_qubit_indices.map .q, []⟩) = lay.data_qubit_indices from qubits_on .M _, List.map_map]
    rfl
  rw [hM] at g14
  obtain ⟨e1, _, _⟩ := runs_measure_Z g14
  obtain ⟨Fs, E, locs, ht, hr, hl, hloc, hlen, hin⟩ := hb.recorded hv (fun q hq => by
    obtain ⟨r, hr⟩ := a1 _ (mem_used_data hv hq)
    exact ⟨r, b1 q hq r hr⟩) (D := r14) (by
    rw [e1, data_qubit_indices, List.map_map]
    exact List.map_congr_left fun q hq => by rw [Function.comp, e2 q hq]; rfl)
  refine ⟨Fs, E, locs, ht, ?_, ?_, hloc, by omega, hin⟩
  · simpa only [List.nil_append, List.append_nil] using hr
  · simpa only [List.nil_append, List.append_nil] using hl

/-- The observable reported by a recorded trajectory. -/
theorem closed_obs_value (hv : lay.Valid) (hs : lay.Supported) (hN : lay.sub_rounds = N) {F : Nat → PauliOp}
    (hr : lay.Recorded N F (recAt rec)) (hl : rec.length = N * lay.perRound + lay.data_qubit_coords.length) :
    observableValue lay.obsI (lay.closedCircuit N) rec = some (lay.loopValue F lay.obsLoop N) := by
  have htl := (closed_uses hv hs hN).2.1
  rw [observableValue_eq, htl, List.map_append, List.map_append, List.sum_append, List.sum_append, final_weight (by omega), sum_flatMap,
    sum_map_congr fun k hk => ann_weight hv (List.mem_range.1 hk) (rec := rec) (by omega)]
  · refine congrArg some (Eq.trans ?_ (obs_value hv hr))
    by_cases hp : lay.isPC3 = true
    · have : lay.style = "PC3" := by simpa [isPC3] using hp
      rw [pc3Uses, if_pos this, pc3_weight hv (by omega), val_pc3 hp]
      simp [hp]
    · have : lay.style ≠ "PC3" := by simpa [isPC3] using hp
      rw [pc3Uses, if_neg this]
      simp [hp]
  · intro x hx
    refine ⟨offsets_closed hv hs hN x hx, ?_⟩
    rw [htl] at hx
    simp only [List.mem_append, List.mem_flatMap, List.mem_range, List.mem_map, roundUses, or_assoc] at hx
    rcases hx with ⟨k, hk, i, hi, rfl⟩ | hx | ⟨i, hi, rfl⟩
    · have := Nat.mul_le_mul_right lay.perRound (show k + 1 ≤ N by omega)
      simp only; omega
    · rw [pc3Uses] at hx
      split_ifs at hx
      · obtain ⟨i, hi, rfl⟩ := List.mem_map.1 hx
        simp only; omega
      · simp at hx
    · simp only; omega

/-- Undetected faults that flip the observable. -/
theorem closed_distance (hv : lay.Valid) (hs : lay.Supported) (hN : lay.sub_rounds = N) (h1 : 1 ≤ N)
    (h : FaultyRuns (lay.IsIn B) F (lay.closedCircuit N) rec F' n)
    (hz : ∀ x ∈ timeline 0 (lay.closedCircuit N), x.1.gate = .DETECTOR → flipParity rec x = some 0)
    (ho : observableValue lay.obsI (lay.closedCircuit N) rec ≠ some 0) :
    (lay.obs = "V" → lay.data_width ≤ n) ∧ (lay.obs ≠ "V" → lay.data_height / 3 * 2 ≤ n) := by
  obtain ⟨Fs, E, locs, ht, hr, hl, hloc, hlen, -⟩ := closed_frun hv hs hN h
  have hq := quiet_of_silent hr hv (silent_of_detectors hv hs hN hl hz) h1
  rw [closed_obs_value hv hs hN hr hl] at ho
  have ho : lay.loopValue Fs lay.obsLoop N ≠ 0 := fun e => ho (by rw [e])
  refine ⟨fun hV => ?_, fun hV => ?_⟩
  · have := distance_v hv hV ht hq hloc ho
    omega
  · have := distance_h hv hV ht hq hloc ho
    omega

end HoneycombLayout
end Honeycomb
