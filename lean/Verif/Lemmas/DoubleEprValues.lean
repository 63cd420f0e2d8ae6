import Verif.Lemmas.DoubleEprFrame
import Verif.Lemmas.PhysStyles
import Verif.Lemmas.Damage

/-! What the double EPR circuit records. -/

namespace Honeycomb
namespace HoneycombLayout
variable {lay : HoneycombLayout}

theorem isEM3_epr (hs : lay.style = "EM3") : lay.isEM3 = true := by simp [isEM3, hs]

/-- The ancillas are not data qubits. -/
theorem idx_lt_num (hv : lay.Valid) (hs : lay.style = "EM3") {q : Pt} (hq : q ∈ lay.data_qubit_coords) : lay.idx q < lay.num_qubits.toNat := by
  have h : lay.idx q ∈ lay.data_qubit_indices := List.mem_map.2 ⟨q, hq, rfl⟩
  rw [data_qubit_indices_eq hv, List.mem_range] at h
  have hl := length_data_qubit_coords hv
  rw [num_qubits, if_pos (isEM3_epr hs)]
  omega

theorem eprAncilla_ge (i : Nat) : lay.num_qubits.toNat ≤ (lay.eprAncilla i).2 := by
  rw [eprAncilla]
  simp only
  split_ifs <;> omega

theorem sum_eq_mem {α : Type} [DecidableEq α] {l : List α} (hl : l.Nodup) (x : α) (c : ZMod 2) :
    (l.map fun y => if x = y then c else 0).sum = if x ∈ l then c else 0 := by
  induction l with
  | nil => simp
  | cons y l ih =>
    obtain ⟨h1, h2⟩ := List.nodup_cons.1 hl
    rw [List.map_cons, List.sum_cons, ih h2]
    by_cases h : x = y
    · subst h; simp [h1]
    · simp [h]

/-- The four measured products commute. -/
theorem crossing_eprProduct (hv : lay.Valid) (hs : lay.style = "EM3") (k : Int) {i j : Nat} (hi : i < 4) (hj : j < 4) :
    crossing (lay.eprProduct k i) (lay.eprProduct k j) = 0 := by
  have hc := eprLogical_commute hv k hi hj
  rw [obsOp, anti_opOn (nodup_data_qubit_coords lay) (eprLogical_nodup k i) fun q h => eprLogical_data h] at hc
  have h1 : ((lay.eprLogical k j).2.map fun q => if (lay.eprAncilla i).2 = lay.idx q then
      anti (lay.eprAncilla i).1.pauli (lay.eprLogical k j).1.pauli else 0).sum = 0 := by
    refine sum_map_eq_zero fun q hq => ?_
    have a := idx_lt_num hv hs (eprLogical_data hq)
    have b := eprAncilla_ge (lay := lay) i
    rw [if_neg (by omega)]
  have h2 : ∀ q ∈ (lay.eprLogical k i).2, ((if lay.idx q = (lay.eprAncilla j).2 then
      anti (lay.eprLogical k i).1.pauli (lay.eprAncilla j).1.pauli else 0) + ((lay.eprLogical k j).2.map fun p => if lay.idx q = lay.idx p then
      anti (lay.eprLogical k i).1.pauli (lay.eprLogical k j).1.pauli else 0).sum) =
      anti (lay.eprLogical k i).1.pauli (obsOp (lay.eprLogical k j) q) := by
    intro q hq
    have a := idx_lt_num hv hs (eprLogical_data hq)
    have b := eprAncilla_ge (lay := lay) j
    have e : ((lay.eprLogical k j).2.map fun p => if lay.idx q = lay.idx p then
        anti (lay.eprLogical k i).1.pauli (lay.eprLogical k j).1.pauli else 0) = (lay.eprLogical k j).2.map fun p => if q = p then
        anti (lay.eprLogical k i).1.pauli (lay.eprLogical k j).1.pauli else 0 := by
      refine List.map_congr_left fun p hp => ?_
      have : lay.idx q = lay.idx p ↔ q = p :=
        ⟨fun h => idx_inj hv (data_mem_order (eprLogical_data hq)) (data_mem_order (eprLogical_data hp)) h, fun h => by rw [h]⟩
      simp only [this]
    rw [if_neg (by omega), zero_add, e, sum_eq_mem (eprLogical_nodup k j), obsOp, opOn]
    split_ifs <;> simp
  have h3 := sum_map_congr h2
  simp only [crossing, eprProduct, List.map_cons, List.sum_cons, List.map_map, Function.comp_def]
  rw [h1, h3, hc, add_zero]
  exact zmod2_add_self _

/-- What a sub-round does to a logical operator that evolves into another one. -/
theorem op_step (hv : lay.Valid) {k : Nat} {F F' : PauliOp} {A B : PauliOp} {es : List Edge} (hes : ∀ e ∈ es, e ∈ lay.round_edges k)
    (hstep : ∀ e ∈ lay.round_edges k, ∃ r : ZMod 2, F' e.left = F e.left + r • (Basis.ofIdx k).pauli ∧
      F' e.right = F e.right + r • (Basis.ofIdx k).pauli)
    (hcomm : ∀ e ∈ lay.round_edges k, Commute' lay A (edgeOp k e)) (hev : opProd (A :: es.map (edgeOp k)) = B) :
    antiOp lay F' B = antiOp lay F A + (es.map fun e => par F k e).sum := by
  have e1 : antiOp lay F' B = antiOp lay F' A + (es.map fun e => antiOp lay F' (edgeOp k e)).sum := by
    rw [← hev]
    clear hev hes
    simp only [opProd, List.map_cons, List.sum_cons, List.map_map, antiOp]
    induction es with
    | nil => simp
    | cons e es ih =>
      simp only [List.map_cons, List.sum_cons]
      rw [add_left_comm, ← ih, ← sum_map_add]
      refine sum_map_congr fun q _ => ?_
      simp only [Function.comp_apply]
      rw [add_left_comm, anti_add_right]
  have e2 : ∀ e ∈ es, antiOp lay F' (edgeOp k e) = par F k e := by
    intro e he
    have he' := hes e he
    have hd := edge_ends_data hv (round_edges_subset_all he')
    obtain ⟨r, a1, a2⟩ := hstep e he'
    have hne : e.left ≠ e.right := edge_left_ne_right hv (round_edges_subset_all he')
    rw [antiOp_comm, edgeOp, anti_opOn (nodup_data_qubit_coords lay) (by simp [hne]) (by simp [hd])]
    simp only [List.map_cons, List.map_nil, List.sum_cons, List.sum_nil, add_zero, a1, a2, par]
    rw [anti_comm _ (F e.left + _), anti_comm _ (F e.right + _), anti_add_left, anti_add_left, smul_self_anti, add_zero, add_zero]
  have e3 : antiOp lay F' A = antiOp lay F A := by
    rw [antiOp, antiOp, ← ((edgeEnds_data hv k).map _).sum_eq, ← ((edgeEnds_data hv k).map _).sum_eq, sum_edgeEnds, sum_edgeEnds]
    refine sum_map_congr fun e he => ?_
    obtain ⟨r, a1, a2⟩ := hstep e he
    have hd := edge_ends_data hv (round_edges_subset_all he)
    have hne : e.left ≠ e.right := edge_left_ne_right hv (round_edges_subset_all he)
    have hc := hcomm e he
    unfold Commute' at hc
    rw [antiOp_comm, edgeOp, anti_opOn (nodup_data_qubit_coords lay) (by simp [hne]) (by simp [hd])] at hc
    simp only [List.map_cons, List.map_nil, List.sum_cons, List.sum_nil, add_zero] at hc
    rw [a1, a2, anti_add_left, anti_add_left, anti_smul_left, anti_smul_left]
    linear_combination r * hc
  rw [e1, e3, sum_map_congr e2]

/-- The logical operators of the experiment evolve into each other. -/
theorem eprLogical_evolves (hv : lay.Valid) (k : Nat) (i : Nat) :
    (∀ e ∈ lay.round_edges k, Commute' lay (obsOp (lay.eprLogical k i)) (edgeOp k e)) ∧
    opProd (obsOp (lay.eprLogical k i) :: ((lay.eprEdges i).filter fun e => e ∈ lay.round_edges k).map (edgeOp k)) =
      obsOp (lay.eprLogical ((k : Int) + 1) i) := by
  have hshift : ∀ (k' : Int), k' = k ∨ k' = (k : Int) + 3 → lay.round_edges k' = lay.round_edges k ∧ edgeOp k' = edgeOp k := by
    intro k' h
    have hm : k' % 3 = (k : Int) % 3 := by omega
    exact ⟨round_edges_congr lay hm, by funext e; rw [edgeOp, edgeOp, ofIdx_congr hm]⟩
  have hH : ∀ k' : Int, (∀ e ∈ lay.round_edges k', Commute' lay (obsOp (lay.obs_h_before_sub_round k')) (edgeOp k' e)) ∧
      opProd (obsOp (lay.obs_h_before_sub_round k') :: (lay.obs_h_edges.filter fun e => e ∈ lay.round_edges k').map (edgeOp k')) =
        obsOp (lay.obs_h_before_sub_round (k' + 1)) := by
    intro k'
    obtain ⟨o, o', es, h1, h2, h3, h4, h5⟩ := c10_observable_evolution { lay with obs := "H" } ⟨hv.1, hv.2, hv.3, hv.4⟩ (.inl rfl) k'
    simp only [obs_before_sub_round, obs_edges, reduceCtorEq] at h1 h2 h3
    simp at h1 h2 h3
    subst h1 h2 h3
    exact ⟨h4, h5⟩
  have hV : ∀ k' : Int, (∀ e ∈ lay.round_edges k', Commute' lay (obsOp (lay.obs_v_before_sub_round k')) (edgeOp k' e)) ∧
      opProd (obsOp (lay.obs_v_before_sub_round k') :: (lay.obs_v_edges.filter fun e => e ∈ lay.round_edges k').map (edgeOp k')) =
        obsOp (lay.obs_v_before_sub_round (k' + 1)) := by
    intro k'
    obtain ⟨o, o', es, h1, h2, h3, h4, h5⟩ := c10_observable_evolution { lay with obs := "V" } ⟨hv.1, hv.2, hv.3, hv.4⟩ (.inr rfl) k'
    simp only [obs_before_sub_round, obs_edges, reduceCtorEq] at h1 h2 h3
    simp at h1 h2 h3
    subst h1 h2 h3
    exact ⟨h4, h5⟩
  have key : ∀ k' : Int, k' = k ∨ k' = (k : Int) + 3 → ∀ b : Bool,
      (∀ e ∈ lay.round_edges k, Commute' lay (obsOp (if b then lay.obs_h_before_sub_round k' else lay.obs_v_before_sub_round k')) (edgeOp k e)) ∧
      opProd (obsOp (if b then lay.obs_h_before_sub_round k' else lay.obs_v_before_sub_round k') ::
        ((if b then lay.obs_h_edges else lay.obs_v_edges).filter fun e => e ∈ lay.round_edges k).map (edgeOp k)) =
        obsOp (if b then lay.obs_h_before_sub_round (k' + 1) else lay.obs_v_before_sub_round (k' + 1)) := by
    intro k' h b
    obtain ⟨e1, e2⟩ := hshift k' h
    rw [← e1, ← e2]
    cases b
    · exact hV k'
    · exact hH k'
  have h3 : (k : Int) + 1 + 3 = (k : Int) + 3 + 1 := by ring
  rw [eprEdges, eprLogical, eprLogical]
  by_cases hi : i < 2
  · have := key k (.inl rfl) (decide (i % 2 = 0))
    simpa [hi] using this
  · have := key (k + 3) (.inr rfl) (decide (i % 2 = 0))
    simpa [hi, h3] using this

/-- One sub-round of the memory. -/
theorem epr_step (hv : lay.Valid) (hs : lay.style = "EM3") {k : Nat} {F F' : Frame} {rec : List (ZMod 2)}
    (h : Runs F (actions (lay.eprEmit k)) rec F') :
    rec = (lay.round_edges k).map (par (lay.pos F) k) ∧
    (∀ e ∈ lay.round_edges k, ∃ r : ZMod 2, lay.pos F' e.left = lay.pos F e.left + r • (Basis.ofIdx k).pauli ∧
      lay.pos F' e.right = lay.pos F e.right + r • (Basis.ofIdx k).pauli) ∧
    ∀ n, lay.num_qubits.toNat ≤ n → F' n = F n := by
  rw [eprEmit] at h
  obtain ⟨ra, r3, F2, h', h3, rfl⟩ := runs_append_actions h
  obtain ⟨r1, r2, F1, h1, h2, rfl⟩ := runs_append_actions h'
  obtain ⟨rfl, rfl⟩ := runs_tick h3
  have hmd : actions (lay.eprAnn k) = [] := by
    refine actions_nil_of_marks fun i hi => (isMark_iff i).2 ?_
    have := eprAnn_gate hi
    tauto
  rw [hmd] at h2
  obtain ⟨rfl, rfl⟩ := runs_nil h2
  have ha : actions [lay.eprMpp k] = ((lay.round_edges k).map fun e => (lay.idx e.left, lay.idx e.right)).map fun x =>
        .measure [(Basis.ofIdx k, x.1), (Basis.ofIdx k, x.2)] := by
    rw [actions, List.flatMap_cons, List.flatMap_nil, List.append_nil, eprMpp_eq, mpp_actions, List.map_map, List.map_map]
    rfl
  rw [ha] at h1
  obtain ⟨e1, e2, e3⟩ := runs_measure_pairs (by rw [List.flatMap_map]; exact (covers_ends hv k).1) h1
  refine ⟨by rw [e1, List.append_nil, List.append_nil, List.map_map]; rfl, fun e hm => ?_, fun n hn => e3 n fun hc => ?_⟩
  · exact e2 (lay.idx e.left, lay.idx e.right) (List.mem_map.2 ⟨e, hm, rfl⟩)
  · rw [List.flatMap_map] at hc
    obtain ⟨e, he, hx⟩ := List.mem_flatMap.1 hc
    have hd := edge_ends_data hv (round_edges_subset_all he)
    have a1 := idx_lt_num hv hs hd.1
    have a2 := idx_lt_num hv hs hd.2
    simp at hx
    omega

/-- The memory: the frame before every sub-round. -/
theorem epr_run (hv : lay.Valid) (hs : lay.style = "EM3") {g : Nat → List Instr} (hg : lay.EprRounds g) {N : Nat} {F F' : Frame}
    {rec : List (ZMod 2)} (h : Runs F (actions ((List.range N).flatMap g)) rec F') :
    (∃ c, lay.AbsRun (lay.pos F) N c rec (lay.pos F')) ∧ ∀ n, lay.num_qubits.toNat ≤ n → F' n = F n := by
  have hp : lay.isPC3 = false := by simp [isPC3, hs]
  induction N generalizing rec F' with
  | zero =>
    obtain ⟨rfl, rfl⟩ := runs_nil h
    exact ⟨⟨_, .start⟩, fun _ _ => rfl⟩
  | succ N ih =>
    rw [range_succ_flatMap] at h
    obtain ⟨r1, r2, F1, h1, h2, rfl⟩ := runs_append_actions h
    obtain ⟨⟨c, ih1⟩, ih2⟩ := ih h1
    rw [← actions_removeNoise, hg.clean] at h2
    obtain ⟨e, hst, ho⟩ := epr_step hv hs h2
    rw [e]
    exact ⟨ih1.step' hp _ hst, fun n hn => (ho n hn).trans (ih2 n hn)⟩

end HoneycombLayout
end Honeycomb
