import Verif.Lemmas.DoubleEprRecord
import Verif.Lemmas.Superpose

/-! The double EPR experiment: runs without errors, and an error that nothing detects. -/

namespace Honeycomb
namespace HoneycombLayout
variable {lay : HoneycombLayout}

/-! ## Hexagons -/

theorem hexSum_frame_add (h : Pt) (F G : PauliOp) (P : Pauli) : lay.hexSum h (F + G) P = lay.hexSum h F P + lay.hexSum h G P := by
  rw [hexSum, hexSum, hexSum, ← sum_map_add]
  exact sum_map_congr fun q _ => by rw [Pi.add_apply, anti_add_left]

/-- The recorded parity of a hexagon is the parity it had at the start. -/
theorem epr_vHex (hv : lay.Valid) {N : Nat} {F : Nat → PauliOp} {R : Nat → ZMod 2}
    (hst : ∀ k : Nat, k < N → ∀ e ∈ lay.round_edges k, ∃ r : ZMod 2, F (k + 1) e.left = F k e.left + r • (Basis.ofIdx k).pauli ∧
      F (k + 1) e.right = F k e.right + r • (Basis.ofIdx k).pauli)
    (hrec : ∀ k : Nat, k < N → ∀ e ∈ lay.round_edges k, val R (lay.vE k e) = par (F k) k e)
    {k : Nat} (h1 : 1 ≤ k) (hk : k < N) {h : Pt} (hh : h ∈ lay.round_hex_centers (((k : Int) - 2) % 3)) :
    HasVal R (lay.vHex .X k h) (lay.hexSum h (F 0) (Basis.ofIdx (hexColour h)).pauli) := by
  obtain ⟨hx, hc⟩ := (mem_round_hex_centers hv).1 hh
  have ht : lay.Calm N (fun j => F j + F 0) := by
    have h0 : ∀ q, (F 0 + F 0) q = 0 := fun q => by
      rw [Pi.add_apply]
      generalize F 0 q = a
      revert a; decide
    refine ⟨fun h _ => sum_map_eq_zero fun q _ => by rw [h0, anti_zero_left], fun _ e _ => by rw [h0, h0, anti_zero_left, add_zero], fun j hj e he => ?_⟩
    obtain ⟨r, a1, a2⟩ := hst j hj e he
    refine ⟨r, ?_, ?_⟩
    · simp only [Pi.add_apply]; rw [a1]; abel
    · simp only [Pi.add_apply]; rw [a2]; abel
  have hconst : lay.hexSum h (F (k - 1)) (Basis.ofIdx (hexColour h)).pauli = lay.hexSum h (F 0) (Basis.ofIdx (hexColour h)).pauli := by
    have := ht.hex_const hv hx (k := k - 1) (by omega)
    rw [hexSum_frame_add, hexSum_frame_add] at this
    exact add_right_cancel this
  have hfirst : lay.hexSum h (F k) (Basis.ofIdx k).pauli = lay.hexSum h (F (k - 1)) (Basis.ofIdx k).pauli := by
    have := ht.hex_first hv hx (k := k - 1) (by omega) (by omega) (Basis.ofIdx k).pauli
    rw [show k - 1 + 1 = k by omega, hexSum_frame_add, hexSum_frame_add] at this
    exact add_right_cancel this
  have v2 : HasVal R (xorL ((lay.second_edges_around_hex h).map fun e => some (lay.vE k e))) (lay.hexSum h (F k) (Basis.ofIdx k).pauli) := by
    rw [hexSum, ← sum_second hx]
    exact hasVal_xorL fun e he => hrec k hk e (by
      rw [round_edges_congr lay (r' := hexColour h + 2) (by omega)]; exact second_edges_mem hv hx he)
  have v1 : HasVal R (lay.vHalf (k - 1) h) (lay.hexSum h (F (k - 1)) (Basis.ofIdx ((k - 1 : Nat) : Int)).pauli) := by
    rw [hexSum, ← sum_first hx]
    exact hasVal_xorL fun e he => hrec (k - 1) (by omega) e (by
      rw [round_edges_congr lay (r' := hexColour h + 1) (by omega)]; exact first_edges_mem hv hx he)
  have h3 := v2.xorO v1
  rw [vHex, if_neg (by omega), ← hconst, ← pauli_mul_next, hexSum_add, ofIdx_congr (k := hexColour h + 2) (k' := (k : Int)) (by omega), ← hfirst,
    ofIdx_congr (k := hexColour h + 1) (k' := ((k - 1 : Nat) : Int)) (by omega), add_comm]
  exact h3

/-! ## Observables -/

theorem nodup_eprEdges (hv : lay.Valid) (i : Nat) : (lay.eprEdges i).Nodup := by
  have := nodup_all_edges hv
  rw [eprEdges]
  split_ifs
  · exact (List.mergeSort_perm _ _).nodup_iff.2 (this.filter _)
  · exact (List.mergeSort_perm _ _).nodup_iff.2 (this.filter _)

theorem epr_logical (hv : lay.Valid) {N : Nat} {F : Nat → PauliOp} {R : Nat → ZMod 2}
    (hst : ∀ k : Nat, k < N → ∀ e ∈ lay.round_edges k, ∃ r : ZMod 2, F (k + 1) e.left = F k e.left + r • (Basis.ofIdx k).pauli ∧
      F (k + 1) e.right = F k e.right + r • (Basis.ofIdx k).pauli)
    (hrec : ∀ k : Nat, k < N → ∀ e ∈ lay.round_edges k, val R (lay.vE k e) = par (F k) k e) (i : Nat) {k : Nat} (hk : k ≤ N) :
    antiOp lay (F k) (obsOp (lay.eprLogical k i)) =
      antiOp lay (F 0) (obsOp (lay.eprLogical 0 i)) + ((List.range k).map fun j => val R (lay.eprObs j i)).sum := by
  induction k with
  | zero => simp
  | succ k ih =>
    have hval : val R (lay.eprObs k i) = (((lay.eprEdges i).filter fun e => e ∈ lay.round_edges k).map fun e => par (F k) k e).sum := by
      have e1 : obsEdgesOf (lay.eprEdges i) (lay.round_edges k) = (lay.eprEdges i).filter fun e => e ∈ lay.round_edges k :=
        pySet_of_nodup ((nodup_eprEdges hv i).filter _)
      rw [eprObs, val_xorS, List.map_map, e1]
      exact sum_map_congr fun e he => hrec k (by omega) e (by simpa using (List.mem_filter.1 he).2)
    obtain ⟨hc, hev⟩ := eprLogical_evolves hv k i
    have := op_step hv (F := F k) (F' := F (k + 1)) (fun e he => by simpa using (List.mem_filter.1 he).2) (hst k (by omega)) hc hev
    rw [Nat.cast_add, Nat.cast_one, this, ih (by omega), List.range_succ, List.map_append, List.sum_append]
    simp only [List.map_cons, List.map_nil, List.sum_cons, List.sum_nil, add_zero]
    rw [hval]
    ring

/-- Without errors no detector fires and every observable keeps its value. -/
theorem epr_quiet (hv : lay.Valid) (hs : lay.style = "EM3") {g : Nat → List Instr} (hg : lay.EprRounds g) {N : Nat} {F F' : Frame} {rec : List (ZMod 2)}
    (h : Runs F (actions (lay.measureObsAncParities 0 [0, 1, 2, 3] ++ (List.range N).flatMap g ++ lay.measureObsAncParities N [0, 1, 2, 3])) rec F') :
    (∀ v ∈ detectorValues (lay.measureObsAncParities 0 [0, 1, 2, 3] ++ (List.range N).flatMap g ++ lay.measureObsAncParities N [0, 1, 2, 3]) rec, v = some 0) ∧
    ∀ i < 4, observableValue i (lay.measureObsAncParities 0 [0, 1, 2, 3] ++ (List.range N).flatMap g ++ lay.measureObsAncParities N [0, 1, 2, 3]) rec = some 0 := by
  have hp : lay.isPC3 = false := by simp [isPC3, hs]
  obtain ⟨ra, B, F2, h', h3, rfl⟩ := runs_append_actions h
  obtain ⟨A, R, F1, h1, h2, rfl⟩ := runs_append_actions h'
  rw [actions_parities] at h1 h3
  have hids : ∀ i ∈ [0, 1, 2, 3], i < 4 := by decide
  obtain ⟨hA, hkeep⟩ := runs_products (P := lay.eprProduct 0) (S := (· < 4)) hids (fun i j a b => crossing_eprProduct hv hs 0 a b) h1
  obtain ⟨hB, -⟩ := runs_products (P := lay.eprProduct N) (S := (· < 4)) hids (fun i j a b => crossing_eprProduct hv hs N a b) h3
  obtain ⟨⟨c, hr⟩, hanc⟩ := epr_run hv hs hg h2
  have hl := hr.length hv
  obtain ⟨Fs, cs, f0, fN, -, -, -, hst, hrec⟩ := hr.extract hv
  have hrec' : ∀ k : Nat, k < N → ∀ e ∈ lay.round_edges k, val (recAt R) (lay.vE k e) = par (Fs k) k e := by
    intro k hk e he
    have := hrec k hk e he
    rw [hp] at this
    rw [vE_plain hp, val_singleton, this]
    rfl
  rw [List.append_assoc A R B]
  constructor
  · refine epr_detectors hv hg N (by rw [hA]; rfl) hl fun k h6 hk x hx => ?_
    have v1 := epr_vHex hv hst hrec' (by omega) hk hx
    have v2 := epr_vHex hv hst hrec' (k := k - 3) (by omega) (by omega) (h := x)
      (by rwa [show (((k - 3 : Nat) : Int) - 2) % 3 = ((k : Int) - 2) % 3 by omega])
    have := v1.xorO v2
    rwa [zmod2_add_self] at this
  · intro i hi
    have hA' : A = [F.flips (lay.eprProduct 0 0), F.flips (lay.eprProduct 0 1), F.flips (lay.eprProduct 0 2), F.flips (lay.eprProduct 0 3)] := hA
    have hB' : B = [F2.flips (lay.eprProduct N 0), F2.flips (lay.eprProduct N 1), F2.flips (lay.eprProduct N 2), F2.flips (lay.eprProduct N 3)] := hB
    rw [hA', hB', epr_observable hv hg N hl (fun i => F.flips (lay.eprProduct 0 i)) (fun i => F2.flips (lay.eprProduct N i)) hi]
    rw [← hkeep i hi, flips_eprProduct, flips_eprProduct, hanc _ (eprAncilla_ge i), ← f0, ← fN, epr_logical hv hst hrec' i (le_refl N)]
    generalize anti _ _ = x
    generalize antiOp _ _ _ = y
    generalize (List.map (fun k => val (recAt R) (lay.eprObs k i)) (List.range N)).sum = z
    congr 1
    revert x y z
    decide

/-! ## An error that nothing detects -/

/-- The first noise channel of a noisy sub-round. -/
theorem epr_channel {g : Nat → List Instr} (hg : lay.EprRounds g) (hp : 0 < lay.noise) {k : Nat} (h3 : 3 ≤ k) (hk : (k : Int) ≤ lay.sub_rounds) :
    ∃ X, g k = channel .DEPOLARIZE2 ((lay.mppOf k).qubits.map .q) lay.noise :: X := by
  obtain ⟨d, hd, e⟩ := hg.noisy k h3 hk
  have hf := noisyCircuit_ok hd
  have hr : ((NoiseModel.EM3_v1 lay.noise).rate .MPP).getD 0 = lay.noise := by simp [NoiseModel.rate, NoiseModel.EM3_v1]
  have hstep : ∀ (f : Nat → List Instr → List Instr) (a : Nat) (l : List Instr) (acc : List Instr), (∀ i ∈ l, i.gate ≠ .TICK) →
      perStep f (.ofList (l ++ [.tick])) a acc = f a (acc ++ l) ++ [.tick] ++ f a [] := by
    intro f a l
    induction l with
    | nil => intro acc _; simp [Circuit.ofList, perStep, Instr.tick]
    | cons i l ih =>
      intro acc h
      rw [List.cons_append, Circuit.ofList, perStep, if_neg (h i (by simp)), ih _ fun j hj => h j (by simp [hj])]
      simp
  have hl : lay.eprEmit k = (lay.mppOf k :: lay.eprAnn k) ++ [.tick] := rfl
  rw [e, hf, hl, hstep, List.nil_append, stepOf, noisyOps, List.flatMap_cons]
  · have hb : noiseBefore (NoiseModel.EM3_v1 lay.noise) (lay.mppOf k) (((NoiseModel.EM3_v1 lay.noise).rate (lay.mppOf k).gate).getD 0) =
        [channel .DEPOLARIZE2 ((lay.mppOf k).qubits.map .q) lay.noise] := by
      rw [show (lay.mppOf k).gate = .MPP from rfl, hr, noiseBefore, if_neg (not_le.2 hp)]
      rfl
    rw [hb]
    simp only [List.cons_append, List.nil_append]
    exact ⟨_, rfl⟩
  · intro i hi
    rcases List.mem_cons.1 hi with rfl | hi
    · simp [mppOf]
    · rcases eprAnn_gate hi with h | h <;> simp [h]

/-- A logical operator that the last measured edges do not protect. -/
theorem epr_exposed (hv : lay.Valid) (N : Nat) : ∃ i < 2, (lay.eprLogical N i).1 ≠ Basis.ofIdx ((N : Int) - 1) ∧ ∃ q, q ∈ (lay.eprLogical N i).2 := by
  have hne := (c11_logical_qubits lay hv N).1
  have h1 : ∃ q, q ∈ (lay.obs_h_before_sub_round N).2 := by
    by_contra hc
    push Not at hc
    refine absurd hne ?_
    rw [Anticommute', show antiOp lay (obsOp (lay.obs_h_before_sub_round N)) (obsOp (lay.obs_v_before_sub_round N)) = 0 from
      sum_map_eq_zero fun q _ => by rw [obsOp, opOn, if_neg (hc q), anti_zero_left]]
    decide
  have h2 : ∃ q, q ∈ (lay.obs_v_before_sub_round N).2 := by
    by_contra hc
    push Not at hc
    refine absurd hne ?_
    rw [Anticommute', show antiOp lay (obsOp (lay.obs_h_before_sub_round N)) (obsOp (lay.obs_v_before_sub_round N)) = 0 from
      sum_map_eq_zero fun q _ => by rw [obsOp, obsOp, opOn, opOn, if_neg (hc q), anti_zero_right]]
    decide
  have b1 : (lay.obs_h_before_sub_round N).1 = patternBasis (obsHPattern N) := rfl
  have b2 : (lay.obs_v_before_sub_round N).1 = patternBasis (obsVPattern N) := rfl
  have hc : (N : Int) % 6 = 0 ∨ (N : Int) % 6 = 1 ∨ (N : Int) % 6 = 2 ∨ (N : Int) % 6 = 3 ∨ (N : Int) % 6 = 4 ∨ (N : Int) % 6 = 5 := by omega
  have tab : patternBasis (obsHPattern N) ≠ Basis.ofIdx ((N : Int) - 1) ∨ patternBasis (obsVPattern N) ≠ Basis.ofIdx ((N : Int) - 1) := by
    rcases hc with h | h | h | h | h | h
    · rw [ofIdx_congr (k := (N : Int) - 1) (k' := 2) (by omega), obsHPattern, h]; left; decide
    · rw [ofIdx_congr (k := (N : Int) - 1) (k' := 0) (by omega), obsVPattern, h]; right; decide
    · rw [ofIdx_congr (k := (N : Int) - 1) (k' := 1) (by omega), obsHPattern, h]; left; decide
    · rw [ofIdx_congr (k := (N : Int) - 1) (k' := 2) (by omega), obsVPattern, h]; right; decide
    · rw [ofIdx_congr (k := (N : Int) - 1) (k' := 0) (by omega), obsHPattern, h]; left; decide
    · rw [ofIdx_congr (k := (N : Int) - 1) (k' := 1) (by omega), obsVPattern, h]; right; decide
  rcases tab with h | h
  · exact ⟨0, by omega, by simpa [eprLogical, b1] using h, by simpa [eprLogical] using h1⟩
  · exact ⟨1, by omega, by simpa [eprLogical, b2] using h, by simpa [eprLogical] using h2⟩

theorem actions_rounds {g : Nat → List Instr} (hg : lay.EprRounds g) (k : Nat) :
    actions (g k) = ((lay.round_edges k).map fun e => [(sub_round_edge_basis k, lay.idx e.left), (sub_round_edge_basis k, lay.idx e.right)]).map .measure := by
  rw [← actions_removeNoise, hg.clean, eprEmit, actions_append, actions_append, actions_nil_of_marks (eprAnn_marks k), List.append_nil,
    show actions [Instr.tick] = [] from rfl, List.append_nil, actions, List.flatMap_cons, List.flatMap_nil, List.append_nil, eprMpp_eq, mpp_actions]

theorem runs_still {g : Nat → List Instr} (hg : lay.EprRounds g) (N : Nat) : ∃ s, Runs 0 (actions ((List.range N).flatMap g)) s 0 ∧ ∀ x ∈ s, x = 0 := by
  induction N with
  | zero => exact ⟨[], .nil 0, by simp⟩
  | succ N ih =>
    obtain ⟨s, h1, h2⟩ := ih
    obtain ⟨s', h3, h4⟩ := runs_commuting (G := 0)
      (ms := (lay.round_edges N).map fun e => [(sub_round_edge_basis N, lay.idx e.left), (sub_round_edge_basis N, lay.idx e.right)]) fun P hP => by
        obtain ⟨e, _, rfl⟩ := List.mem_map.1 hP
        simp [Frame.flips]
    rw [← actions_rounds hg] at h3
    refine ⟨s ++ s', ?_, fun x hx => (List.mem_append.1 hx).elim (h2 x) (h4 x)⟩
    rw [range_succ_flatMap, actions_append]
    exact runs_append.2 ⟨_, _, _, h1, h3, rfl⟩

theorem val_zero {R : List (ZMod 2)} (h : ∀ x ∈ R, x = 0) (s : Finset Nat) : val (recAt R) s = 0 := by
  refine Finset.sum_eq_zero fun t _ => ?_
  rw [recAt, List.getD_eq_getElem?_getD]
  cases hx : R[t]? with
  | none => rfl
  | some x => exact h x (List.mem_of_getElem? hx)

/-- An error in the last sub-round that flips an observable and nothing else. -/
theorem epr_undetected (hv : lay.Valid) (hs : lay.style = "EM3") (hp : 0 < lay.noise) {g : Nat → List Instr} (hg : lay.EprRounds g) {N : Nat}
    (hN : lay.sub_rounds = N) (h4 : 4 ≤ N) :
    ∃ rec, CanSample 1 (lay.measureObsAncParities 0 [0, 1, 2, 3] ++ (List.range N).flatMap g ++ lay.measureObsAncParities N [0, 1, 2, 3]) rec ∧
      (∀ v ∈ detectorValues (lay.measureObsAncParities 0 [0, 1, 2, 3] ++ (List.range N).flatMap g ++ lay.measureObsAncParities N [0, 1, 2, 3]) rec, v = some 0) ∧
      ∃ i < 4, observableValue i (lay.measureObsAncParities 0 [0, 1, 2, 3] ++ (List.range N).flatMap g ++ lay.measureObsAncParities N [0, 1, 2, 3]) rec = some 1 := by
  obtain ⟨k, rfl⟩ : ∃ k, N = k + 1 := ⟨N - 1, by omega⟩
  obtain ⟨i, hi, hb, q, hq⟩ := epr_exposed hv (k + 1)
  rw [show ((k + 1 : Nat) : Int) - 1 = k by push_cast; ring] at hb
  have hqd := eprLogical_data hq
  have hids : ∀ i ∈ [0, 1, 2, 3], i < 4 := by decide
  -- the error
  obtain ⟨X, hX⟩ := epr_channel hg hp (k := k) (by omega) (by omega)
  obtain ⟨e, he, hend⟩ := exists_edge hv hqd k
  have hd := edge_ends_data hv (round_edges_subset_all he)
  have hne : lay.idx e.left ≠ lay.idx e.right := fun h =>
    edge_left_ne_right hv (round_edges_subset_all he) (idx_inj hv (data_mem_order hd.1) (data_mem_order hd.2) h)
  set E : Frame := Frame.mul (fun _ => 0) (lay.idx q) (Basis.ofIdx k).pauli with hE
  have hdraw : Instr.Draws (channel .DEPOLARIZE2 ((lay.mppOf k).qubits.map .q) lay.noise) E := by
    refine ⟨⟨_, List.mem_singleton_self _, hp⟩, (lay.idx e.left, lay.idx e.right), ?_, ?_⟩
    · show _ ∈ pairs (Instr.qubits (.on .DEPOLARIZE2 (lay.mppOf k).qubits))
      rw [qubits_on, mpp_qubits, pairs_targets (lay.round_edges k) (fun e => lay.idx e.left) (fun e => lay.idx e.right)]
      exact List.mem_map.2 ⟨e, he, rfl⟩
    · have hnz : (Basis.ofIdx k).pauli ≠ 0 := by generalize Basis.ofIdx k = b; cases b <;> decide
      rcases hend with h | h
      · refine ⟨(Basis.ofIdx k).pauli, 0, .inl hnz, ?_⟩
        funext n
        rw [hE, ← h]
        simp [Frame.mul]
      · refine ⟨0, (Basis.ofIdx k).pauli, .inr hnz, ?_⟩
        funext n
        rw [hE, ← h]
        simp [Frame.mul]
  -- before the error
  obtain ⟨s1, r1, z1⟩ := runs_commuting (G := 0) (ms := [0, 1, 2, 3].map fun i => lay.eprProduct 0 i) fun P _ => by
    simp [Frame.flips]
  rw [List.map_map] at r1
  have r1' : Runs 0 (actions (lay.measureObsAncParities 0 [0, 1, 2, 3])) s1 0 := by rw [actions_parities]; exact r1
  obtain ⟨s2, r2, z2⟩ := runs_still hg k
  -- the last sub-round
  have hEb : ∀ n, anti (E n) (sub_round_edge_basis k).pauli = 0 := by
    intro n
    rw [hE, Frame.mul, sub_round_edge_basis]
    split_ifs
    · rw [zero_add, anti_self]
    · exact anti_zero_left _
  obtain ⟨s3, r3, z3⟩ := runs_commuting (G := E)
      (ms := (lay.round_edges k).map fun e => [(sub_round_edge_basis k, lay.idx e.left), (sub_round_edge_basis k, lay.idx e.right)]) fun P hP => by
        obtain ⟨e, _, rfl⟩ := List.mem_map.1 hP
        simp [Frame.flips, hEb]
  rw [← actions_rounds hg] at r3
  -- after the memory
  obtain ⟨B, F', r4⟩ := runs_exists E (actions (lay.measureObsAncParities ((k + 1 : Nat) : Int) [0, 1, 2, 3]))
  have r4' := r4
  rw [actions_parities] at r4'
  obtain ⟨hB, -⟩ := runs_products (P := lay.eprProduct ((k + 1 : Nat) : Int)) (S := (· < 4)) hids
    (fun i j a b => crossing_eprProduct hv hs ((k + 1 : Nat) : Int) a b) r4'
  have hB' : B = [E.flips (lay.eprProduct ((k + 1 : Nat) : Int) 0), E.flips (lay.eprProduct ((k + 1 : Nat) : Int) 1),
    E.flips (lay.eprProduct ((k + 1 : Nat) : Int) 2), E.flips (lay.eprProduct ((k + 1 : Nat) : Int) 3)] := hB
  -- lengths
  obtain ⟨hA, -⟩ := runs_products (P := lay.eprProduct 0) (S := (· < 4)) hids (fun i j a b => crossing_eprProduct hv hs 0 a b)
    (show Runs 0 ([0, 1, 2, 3].map fun i => .measure (lay.eprProduct 0 i)) s1 0 by rw [← actions_parities]; exact r1')
  have hA' : s1 = [0, 0, 0, 0] := by
    rw [hA]
    simp [Frame.flips]
  have l2 : s2.length = k * lay.perRound := by
    obtain ⟨⟨c, hr⟩, -⟩ := epr_run hv hs hg r2
    exact hr.length hv
  have l3 : s3.length = lay.perRound := by
    rw [← actions_removeNoise, hg.clean] at r3
    rw [(epr_step hv hs r3).1, List.length_map, perRound_eq hv]
  have l23 : (s2 ++ s3).length = (k + 1) * lay.perRound := by rw [List.length_append, l2, l3, Nat.add_mul, Nat.one_mul]
  have z23 : ∀ x ∈ s2 ++ s3, x = 0 := fun x hx => (List.mem_append.1 hx).elim (z2 x) (z3 x)
  refine ⟨s1 ++ ((s2 ++ s3) ++ B), ⟨0, F', fun _ => rfl, ?_⟩, ?_, i, by omega, ?_⟩
  · rw [range_succ_flatMap]
    have t3 : NoisyRuns 0 (g k) s3 E 1 := by
      have := noisy_of_runs r3
      rw [hX] at this ⊢
      exact .error E hdraw (by rwa [zero_add])
    have := ((noisy_of_runs r1').join ((noisy_of_runs r2).join t3)).join (noisy_of_runs r4)
    simpa only [List.append_assoc, Nat.zero_add, Nat.add_zero] using this
  · refine epr_detectors hv hg _ (by rw [hA']; rfl) l23 fun j _ _ h _ s _ => val_zero z23 s
  · have hobs := epr_observable hv hg ((k + 1 : Nat) : Int) l23 (fun _ => 0) (fun i => E.flips (lay.eprProduct ((k + 1 : Nat) : Int) i))
      (show i < 4 by omega)
    rw [hA', hB', hobs]
    simp only [val_zero z23]
    have hflip : E.flips (lay.eprProduct ((k + 1 : Nat) : Int) i) = 1 := by
      have hm := flips_mul (fun _ => 0) (lay.idx q) 1 (Basis.ofIdx k) (lay.eprProduct ((k + 1 : Nat) : Int) i)
      rw [one_mul, one_mul, one_mul] at hm
      rw [hE, show (Basis.ofIdx k).pauli = ((Basis.ofIdx k).pauli.1, (Basis.ofIdx k).pauli.2) from rfl, hm]
      have h0 : Frame.flips (fun _ => 0) (lay.eprProduct ((k + 1 : Nat) : Int) i) = 0 := sum_map_eq_zero fun x _ => anti_zero_left _
      have ha := eprAncilla_ge (lay := lay) i
      have hq' := idx_lt_num hv hs hqd
      rw [h0, zero_add]
      simp only [eprProduct, List.map_cons, List.sum_cons, List.map_map, Function.comp_def]
      rw [if_neg (by omega), zero_add]
      have e1 : ((lay.eprLogical ((k + 1 : Nat) : Int) i).2.map fun p => if lay.idx q = lay.idx p then
          anti (Basis.ofIdx k).pauli (lay.eprLogical ((k + 1 : Nat) : Int) i).1.pauli else 0) =
          (lay.eprLogical ((k + 1 : Nat) : Int) i).2.map fun p => if q = p then
          anti (Basis.ofIdx k).pauli (lay.eprLogical ((k + 1 : Nat) : Int) i).1.pauli else 0 := by
        refine List.map_congr_left fun p hp => ?_
        have : lay.idx q = lay.idx p ↔ q = p :=
          ⟨fun h => idx_inj hv (data_mem_order hqd) (data_mem_order (eprLogical_data hp)) h, fun h => by rw [h]⟩
        simp only [this]
      rw [e1, sum_eq_mem (eprLogical_nodup _ i), if_pos hq]
      revert hb
      generalize (lay.eprLogical ((k + 1 : Nat) : Int) i).1 = b
      generalize Basis.ofIdx k = c
      cases b <;> cases c <;> decide
    rw [hflip]
    simp

end HoneycombLayout
end Honeycomb
