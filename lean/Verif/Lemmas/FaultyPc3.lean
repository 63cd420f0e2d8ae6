import Verif.Lemmas.FaultySd6

/-! Faulty runs of PC3 circuits. -/

namespace Honeycomb
namespace HoneycombLayout
variable {lay : HoneycombLayout} {F F' : Frame} {rec : List (ZMod 2)} {n : Nat}

/-- `PcLink` with faults `D` on the first half of the data qubits since their interaction. -/
structure PcFLink (lay : HoneycombLayout) (j : Nat) (S : Frame) (c : Edge → ZMod 2) (R rec : List (ZMod 2)) (G D : PauliOp) : Prop where
  left : ∀ e ∈ lay.round_edges j, S (lay.idx e.left) = G e.left + (S (lay.idx e.center)).2 • (Basis.ofIdx j).pauli + D e.left
  right : ∀ q ∈ lay.data_qubit_coords, dataQubitParity q = true → S (lay.idx q) = G q
  anc : ∀ e ∈ lay.round_edges j, (S (lay.idx e.center)).1 = c e + anti (G e.left) (Basis.ofIdx j).pauli
  next : ∀ e ∈ lay.round_edges ((j : Int) + 1), (S (lay.idx e.center)).1 = c e
  last : ∀ e ∈ lay.round_edges ((j : Int) + 2), (S (lay.idx e.center)).1 = c e
  zero : j = 0 → ∀ e, c e = 0
  pend : (j = 0 ∧ R = rec) ∨ (1 ≤ j ∧ R = rec ++ (lay.round_edges ((j : Int) - 1)).map c)
  only : ∀ q, dataQubitParity q = true → D q = 0

theorem PcLink.toF {j : Nat} {S : Frame} {c : Edge → ZMod 2} {R r : List (ZMod 2)} {G : PauliOp} (h : lay.PcLink j S c R r G) :
    lay.PcFLink j S c R r G (fun _ => 0) :=
  ⟨fun e he => by
    have h1 := h.left e he
    beta_reduce
    rw [add_zero]; exact h1, h.right, h.anc, h.next, h.last, h.zero, h.pend, fun _ _ => rfl⟩

theorem PcFLink.perturb (hv : lay.Valid) {j : Nat} {S S' : Frame} {c : Edge → ZMod 2} {R r : List (ZMod 2)} {G D : PauliOp} {ps ds : List Pt}
    (hl : lay.PcFLink j S c R r G D) (hD : ∀ q, q ∉ ds → D q = 0) (hd : lay.DNear B ps S S') :
    ∃ G' D' : PauliOp, lay.PcFLink j S' c R r G' D' ∧ (∀ q ∈ lay.data_qubit_coords, q ∉ half true ps → G' q = G q) ∧
      ∀ q, q ∉ ds ++ half false ps → D' q = 0 := by
  have hself : ∀ p : Pauli, p + p = 0 := by decide
  refine ⟨fun q => if dataQubitParity q then S' (lay.idx q) else G q,
    fun q => if dataQubitParity q then 0 else if q ∈ lay.data_qubit_coords then D q + (S' (lay.idx q) + S (lay.idx q)) else D q,
    ⟨?_, ?_, ?_, ?_, ?_, hl.zero, hl.pend, ?_⟩, ?_, ?_⟩
  · intro e he
    obtain ⟨f1, f2⟩ := left_facts hv he
    simp only [f2, f1, Bool.false_eq_true, if_false, if_true]
    rw [hd.centers j e he, ← add_assoc, ← hl.left e he]
    generalize S (lay.idx e.left) = p
    generalize S' (lay.idx e.left) = p'
    revert p p'; decide
  · intro q hq hp
    simp only [hp, if_true]
  · intro e he
    obtain ⟨f1, f2⟩ := left_facts hv he
    simp only [f2, Bool.false_eq_true, if_false]
    rw [hd.centers j e he]
    exact hl.anc e he
  · exact fun e he => by rw [hd.centers _ e he]; exact hl.next e he
  · exact fun e he => by rw [hd.centers _ e he]; exact hl.last e he
  · intro q hp
    simp only [hp, if_true]
  · intro q hq hn
    rcases hp : dataQubitParity q with _ | _
    · simp [hp]
    · simp only [hp, if_true]
      rw [hd.data q hq (not_mem_half hp hn), hl.right q hq hp]
  · intro q hn
    rw [List.mem_append, not_or] at hn
    rcases hp : dataQubitParity q with _ | _
    · simp only [hp, Bool.false_eq_true, if_false]
      split_ifs with hq
      · rw [hD q hn.1, hd.data q hq (not_mem_half hp hn.2), hself, zero_add]
      · exact hD q hn.1
    · simp [hp]

/-- The second half of sub-round `j`. -/
theorem pc3_ffinish (hv : lay.Valid) (he : lay.isEM3 = false) (hp : lay.isPC3 = true) {j m : Nat} {S S2 S' : Frame} {F0 : PauliOp} {c : Edge → ZMod 2}
    {R r r3 : List (ZMod 2)} {G G' D : PauliOp} {ds : List Pt} (ha : lay.FRun B F0 j c R G m) (hl : lay.PcFLink j S c R r G D) (hD : ∀ q, q ∉ ds → D q = 0) (hB : ∀ q ∈ ds, B q)
    (h2l : ∀ e ∈ lay.round_edges j, G' e.left = S (lay.idx e.left))
    (h2r : ∀ e ∈ lay.round_edges j, G' e.right = S (lay.idx e.right) + (S (lay.idx e.center)).2 • (Basis.ofIdx j).pauli)
    (h2c : ∀ e ∈ lay.round_edges j, (S2 (lay.idx e.center)).1 = (S (lay.idx e.center)).1 + anti (S (lay.idx e.right)) (Basis.ofIdx j).pauli)
    (h2o : ∀ e ∈ lay.round_edges ((j : Int) + 2), S2 (lay.idx e.center) = S (lay.idx e.center))
    (h3 : Runs S2 (actions (if 2 ≤ j + 1 then lay.emitMD (j + 1 - 2) else lay.subRoundResets (((j + 1 : Nat) : Int) - 2))) r3 S') :
    ∃ c' R', lay.FRun B F0 (j + 1) c' R' G' (m + ds.length) ∧ R' = (r ++ r3) ++ (lay.round_edges j).map c' ∧
      (∀ e ∈ lay.round_edges j, (S' (lay.idx e.center)).1 = c' e) ∧ (∀ e, e ∉ lay.round_edges j → c' e = c e) ∧
      ∀ e ∈ lay.round_edges ((j : Int) + 2), (S' (lay.idx e.center)).1 = c e := by
  obtain ⟨e3, b1, b2, b3⟩ := pc3_mid hv he h3
  have hstep := ha.stepD ds hB D G' hD fun e hm => ⟨(S (lay.idx e.center)).2, by rw [h2l e hm, hl.left e hm], by
    rw [h2r e hm, hl.right _ (right_facts hv hm).1 (right_facts hv hm).2, hl.only _ (right_facts hv hm).2, add_zero]⟩
  simp only [hp, if_true] at hstep
  have hc : ∀ e ∈ lay.round_edges j, (S2 (lay.idx e.center)).1 = c e + par G j e := fun e hm => by
    rw [h2c e hm, hl.anc e hm, hl.right _ (right_facts hv hm).1 (right_facts hv hm).2, par]; ring
  refine ⟨_, _, hstep, ?_, ?_, ?_, ?_⟩
  · have : r ++ r3 = R := by
      rcases hl.pend with ⟨z, e⟩ | ⟨z, e⟩
      · rw [e3, if_pos z, List.append_nil, e]
      · rw [e3, if_neg (by omega), e]
        congr 1
        refine List.map_congr_left fun e hm => ?_
        rw [round_edges_congr lay (r := (j : Int) - 1) (r' := (j : Int) + 2) (by omega)] at hm
        rw [h2o e hm, hl.last e hm]
    rw [this]
    congr 1
    refine List.map_congr_left fun e hm => ?_
    simp only [if_pos hm]
  · intro e hm
    rw [b2 j (by omega) e hm, hc e hm]
    simp only [if_pos hm]
  · intro e hm
    simp only [if_neg hm, add_zero]
  · intro e hm
    rw [b3 e hm]
    split_ifs with z
    · rw [hl.zero z]
    · rw [h2o e hm, hl.last e hm]

theorem pc3_fstep (hv : lay.Valid) (he : lay.isEM3 = false) (hp : lay.isPC3 = true) {N j m : Nat} (hj : j + 1 < N) {S S' : Frame} {F0 : PauliOp}
    {c : Edge → ZMod 2} {R r : List (ZMod 2)} {G D : PauliOp} {ds : List Pt} (ha : lay.FRun B F0 j c R G m) (hl : lay.PcFLink j S c R r G D)
    (hD : ∀ q, q ∉ ds → D q = 0) (hB : ∀ q ∈ ds, B q) (h : Runs S (actions (lay.pc3Emit N (j + 1))) rec S') :
    ∃ c' R' G', lay.FRun B F0 (j + 1) c' R' G' (m + ds.length) ∧ lay.PcLink (j + 1) S' c' R' (r ++ rec) G' := by
  rw [pc3Emit, if_pos hj, if_pos (by omega : 1 ≤ j + 1 ∧ j + 1 - 1 < N), show ((j + 1 : Nat) : Int) - 1 = (j : Int) by omega] at h
  obtain ⟨r1, t1, S4, g1, ht, rfl⟩ := runs_append_actions h
  obtain ⟨rfl, rfl⟩ := runs_tick ht
  obtain ⟨r2, r3, S2, g2, h3, rfl⟩ := runs_append_actions g1
  obtain ⟨r4, r5, S1, h1, h2, rfl⟩ := runs_append_actions g2
  obtain ⟨rfl, a1, a2, a3⟩ := eff_left hv (P := sub_round_edge_basis ((j + 1 : Nat) : Int)) (Q := .X) (Or.inr ⟨rfl, rfl⟩) h1
  obtain ⟨rfl, b1, b2, b3⟩ := eff_right hv (P := sub_round_edge_basis (j : Int)) (Q := .X) (Or.inr ⟨rfl, rfl⟩) h2
  rw [show ((j + 1 : Nat) : Int) = (j : Int) + 1 by omega] at a1 a3
  obtain ⟨_, m1, m2, m3⟩ := pc3_mid hv he h3
  obtain ⟨c', R', ha', eR, hc1, hc2, hc3⟩ := pc3_ffinish hv he hp (S2 := S2) (G' := fun q => if dataQubitParity q then S2 (lay.idx q) else S (lay.idx q))
    ha hl hD hB
    (fun e hm => by simp only [(left_facts hv hm).2, Bool.false_eq_true, if_false])
    (fun e hm => by
      simp only [(right_facts hv hm).2, if_true]
      rw [(b1 e hm).1, anti_X, a3 j (by omega) e hm, a2 _ (right_facts hv hm).1 (right_facts hv hm).2]; rfl)
    (fun e hm => by
      rw [(b1 e hm).2, Prod.fst_add, smul_X_fst, a3 j (by omega) e hm, a2 _ (right_facts hv hm).1 (right_facts hv hm).2]; rfl)
    (fun e hm => by rw [b3 ((j : Int) + 2) (by omega) e hm, a3 ((j : Int) + 2) (by omega) e hm]) h3
  refine ⟨c', R', _, ha', ?_⟩
  have hdis : ∀ i : Int, i % 3 ≠ (j : Int) % 3 → ∀ e ∈ lay.round_edges i, e ∉ lay.round_edges j := fun i hi e hm hm' =>
    hi (round_edges_disjoint hv hm hm')
  have hcen : ∀ e ∈ lay.round_edges ((j : Int) + 1), S' (lay.idx e.center) = S1 (lay.idx e.center) := fun e hm => by
    rw [m2 _ (by omega) e hm, b3 ((j : Int) + 1) (by omega) e hm]
  constructor
  · intro e hm
    have hm : e ∈ lay.round_edges ((j : Int) + 1) := hm
    obtain ⟨f1, f2⟩ := left_facts hv hm
    simp only [f2, Bool.false_eq_true, if_false]
    rw [m1 _ _ f1 f2, b2 _ f1 f2, (a1 e hm).1, anti_X, hcen e hm, (a1 e hm).2, Prod.snd_add, smul_X_snd, add_zero]; rfl
  · intro q hq hb
    simp only [hb, if_true]
    rw [m1 _ _ hq hb]
  · intro e hm
    have hm : e ∈ lay.round_edges ((j : Int) + 1) := hm
    obtain ⟨f1, f2⟩ := left_facts hv hm
    simp only [f2, Bool.false_eq_true, if_false]
    rw [hcen e hm, (a1 e hm).2, Prod.fst_add, smul_X_fst, hl.next e hm, hc2 e (hdis _ (by omega) e hm)]; rfl
  · intro e hm
    rw [show ((j + 1 : Nat) : Int) + 1 = (j : Int) + 2 by omega] at hm
    rw [hc3 e hm, hc2 e (hdis _ (by omega) e hm)]
  · intro e hm
    rw [round_edges_congr lay (r := ((j + 1 : Nat) : Int) + 2) (r' := (j : Int)) (by omega)] at hm
    exact hc1 e hm
  · omega
  · refine Or.inr ⟨by omega, ?_⟩
    rw [eR, show ((j + 1 : Nat) : Int) - 1 = (j : Int) by omega]
    simp only [List.nil_append, List.append_nil]

theorem basisCX_ne (b : Basis) : basisCX b ≠ .MPP := by cases b <;> simp [basisCX]

theorem budget_pc3 (hv : lay.Valid) (he : lay.isEM3 = false) (N k : Nat) : lay.Budget [0, 1] (lay.pc3Emit N k) := by
  have hl : lay.Budget [0] (if k < N then [.on (basisCX (sub_round_edge_basis k)) (lay.leftTargets (lay.round_edges k))] else []) := by
    split_ifs
    · exact (budget_on hv (basisCX_ne _) (covers_left hv k)).mono (by have := cc_ne k; simp [this])
    · exact budget_nil.mono (by simp)
  have hr : lay.Budget [1] (if 1 ≤ k ∧ k - 1 < N then
      [.on (basisCX (sub_round_edge_basis ((k : Int) - 1))) (lay.rightTargets (lay.round_edges ((k : Int) - 1)))] else []) := by
    split_ifs
    · exact (budget_on hv (basisCX_ne _) (covers_right hv _)).mono (by have := cc_ne ((k : Int) - 1); simp [this])
    · exact budget_nil.mono (by simp)
  rw [pc3Emit]
  refine ((hl.append hr (by simp)).idle_right ?_).idle_right budget_tick
  split_ifs
  · exact budget_md hv he _
  · exact budget_resets hv _

/-- A run together with faults that have not taken effect yet. -/
def PcState (lay : HoneycombLayout) (B : Pt → Prop) (F0 : PauliOp) (j : Nat) (rec : List (ZMod 2)) (S : Frame) (n : Nat) : Prop :=
  ∃ c R G D, ∃ ds : List Pt, ∃ m, lay.FRun B F0 j c R G m ∧ lay.PcFLink j S c R rec G D ∧ (∀ q, q ∉ ds → D q = 0) ∧ m + ds.length = n ∧ ∀ q ∈ ds, B q

theorem PcState.perturb (hv : lay.Valid) {F0 : PauliOp} {k : Nat} {S S' : Frame} {ps : List Pt}
    (h : lay.PcState B F0 k rec S n) (hd : lay.DNear B ps S S') : lay.PcState B F0 k rec S' (n + ps.length) := by
  obtain ⟨c, R, G, D, ds, m, hr, hl, hD, rfl, hB⟩ := h
  obtain ⟨G', D', l', hG, hD'⟩ := hl.perturb hv hD hd
  refine ⟨c, R, G', D', ds ++ half false ps, m + (half true ps).length, hr.bump _ (fun q hq => hd.sub q (List.mem_filter.1 hq).1) _ hG, l', hD', ?_, fun q hq => ?_⟩
  · have := half_length ps
    rw [List.length_append]
    omega
  · rcases List.mem_append.1 hq with hq | hq
    · exact hB q hq
    · exact hd.sub q (List.mem_filter.1 hq).1

theorem pc3_fsteps (hv : lay.Valid) (he : lay.isEM3 = false) (hp : lay.isPC3 = true) {N j : Nat} (hj : j < N) {S S' : Frame}
    (hx : ∀ j, ∀ e ∈ lay.round_edges j, (S (lay.idx e.center)).1 = 0)
    (h : FaultyRuns (lay.IsIn B) S ((List.range (j + 1)).flatMap (lay.pc3Emit N)) rec S' n) :
    lay.PcState B (lay.pos S) j rec S' n := by
  induction j generalizing rec S' n with
  | zero =>
    rw [range_succ_flatMap, List.range_zero, List.flatMap_nil, List.nil_append] at h
    obtain ⟨p1, p2, A1, A2, d1, g, d2, rfl⟩ := segment hv (budget_pc3 hv he N 0) h
    have l := pc3_start hv (N := N) (by omega) (fun j e hm => by rw [d1.centers j e hm]; exact hx j e hm) g
    have h0 : lay.PcState B (lay.pos S) 0 rec A2 (0 + p1.length) :=
      ⟨_, _, _, _, [], _, FRun.start.bump' d1, l.toF, fun _ _ => rfl, rfl, by simp⟩
    have := h0.perturb hv d2
    rw [Nat.zero_add] at this
    exact this
  | succ j ih =>
    rw [range_succ_flatMap] at h
    obtain ⟨r1, r2, F1, n1, n2, h1, h2, rfl, rfl⟩ := h.append
    have hs := ih (by omega) h1
    obtain ⟨p1, p2, A1, A2, d1, g, d2, rfl⟩ := segment hv (budget_pc3 hv he N (j + 1)) h2
    obtain ⟨c, R, G, D, ds, m, hr, hl, hD, em, hB⟩ := hs.perturb hv d1
    obtain ⟨c', R', G', a', l'⟩ := pc3_fstep hv he hp hj hr hl hD hB g
    have h1 : lay.PcState B (lay.pos S) (j + 1) (r1 ++ r2) A2 (m + ds.length) :=
      ⟨_, _, _, _, [], _, a', l'.toF, fun _ _ => rfl, rfl, by simp⟩
    have := h1.perturb hv d2
    rw [em, Nat.add_assoc] at this
    exact this

theorem pc3_frun (hv : lay.Valid) (he : lay.isEM3 = false) (hp : lay.isPC3 = true) {N : Nat} (hN : 1 ≤ N) {S S' : Frame}
    (hx : ∀ j, ∀ e ∈ lay.round_edges j, (S (lay.idx e.center)).1 = 0)
    (h : FaultyRuns (lay.IsIn B) S (lay.pc3All N) rec S' n) :
    ∃ c G, lay.FRun B (lay.pos S) N c rec G n ∧ ∀ q ∈ lay.data_qubit_coords, S' (lay.idx q) = G q := by
  obtain ⟨j, rfl⟩ : ∃ j, N = j + 1 := ⟨N - 1, by omega⟩
  rw [pc3All, range_succ_flatMap, List.append_assoc, range_succ_flatMap] at h
  obtain ⟨ra, rb, T, n1, n2, h1, h2, rfl, rfl⟩ := h.append
  obtain ⟨r4, r5, S0, n3, n4, g4, h5, rfl, rfl⟩ := h1.append
  have hs := pc3_fsteps hv he hp (by omega) hx g4
  have hob : ∀ i ∈ lay.pc3ObsEmit (j + 1), isMark i = true := fun i hi => by
    obtain ⟨r, _, rfl⟩ := List.mem_map.1 hi; rfl
  obtain ⟨p1, p2, A1, A2, d1, g5, d2, rfl⟩ := segment hv (budget_pc3 hv he (j + 1) (j + 1)) h5
  obtain ⟨p3, p4, B1, B2, d3, g6, d4, rfl⟩ := segment hv ((budget_pc3 hv he (j + 1) (j + 1 + 1)).idle_right (budget_marks hob)) h2
  obtain ⟨c, R, G, D, ds, m, a, l, hD, em, hB⟩ := hs.perturb hv d1
  obtain ⟨ry, rz, U, hm, h7, rfl⟩ := runs_append_actions g6
  rw [actions_nil_of_marks hob] at h7
  obtain ⟨rfl, rfl⟩ := runs_nil h7
  rw [pc3Emit, if_neg (by omega), if_pos (by omega : 1 ≤ j + 1 ∧ j + 1 - 1 < j + 1), show ((j + 1 : Nat) : Int) - 1 = (j : Int) by omega, List.nil_append] at g5
  obtain ⟨r6, t1, S4, g5, ht, rfl⟩ := runs_append_actions g5
  obtain ⟨rfl, rfl⟩ := runs_tick ht
  obtain ⟨r7, r8, S2, hr, h3, rfl⟩ := runs_append_actions g5
  rw [pc3Emit, if_neg (by omega), if_neg (by omega), if_pos (by omega), show j + 1 + 1 - 2 = j by omega] at hm
  obtain ⟨r9, t2, S5, g6, ht2, rfl⟩ := runs_append_actions hm
  obtain ⟨rfl, rfl⟩ := runs_tick ht2
  simp only [List.nil_append] at g6
  obtain ⟨rfl, b1, b2, b3⟩ := eff_right hv (P := sub_round_edge_basis (j : Int)) (Q := .X) (Or.inr ⟨rfl, rfl⟩) hr
  obtain ⟨_, m1, m2, m3⟩ := pc3_mid hv he h3
  obtain ⟨e1, n1, n2, n3⟩ := eff_md hv he g6
  obtain ⟨c', R', ha', eR, hc1, hc2, hc3⟩ := pc3_ffinish hv he hp (S2 := S2) (G' := lay.pos A2) a l hD hB
    (fun e hm => by rw [pos, m1 _ _ (left_facts hv hm).1 (left_facts hv hm).2, b2 _ (left_facts hv hm).1 (left_facts hv hm).2])
    (fun e hm => by rw [pos, m1 _ _ (right_facts hv hm).1 (right_facts hv hm).2, (b1 e hm).1, anti_X]; rfl)
    (fun e hm => by rw [(b1 e hm).2, Prod.fst_add, smul_X_fst]; rfl)
    (fun e hm => by rw [b3 ((j : Int) + 2) (by omega) e hm]) h3
  have hf := ((ha'.bump' d2).bump' d3).bump p4 d4.sub (lay.pos S') (fun q hq hn => by
    rw [pos, d4.data q hq hn, pos]
    rcases hb : dataQubitParity q with _ | _ <;> exact n1 _ q hq hb)
  refine ⟨c', lay.pos S', ?_, fun q _ => rfl⟩
  have : r9 = (lay.round_edges j).map c' := by
    rw [e1]; exact List.map_congr_left fun e hm => by rw [d3.centers j e hm, d2.centers j e hm]; exact hc1 e hm
  simp only [List.nil_append, List.append_nil]
  rw [this, ← eR]
  convert hf using 1
  omega

end HoneycombLayout
end Honeycomb
