import Verif.Lemmas.PhysSd6

/-! PC3: pipelined sub-rounds whose ancillas accumulate the parities of their edges. -/

namespace Honeycomb
namespace HoneycombLayout
variable {lay : HoneycombLayout} {F F' : Frame} {rec : List (ZMod 2)}

/-- Before moment `j + 1`: the first half of sub-round `j` has been performed, and `rec` lacks the last of the outcomes `R`. -/
structure PcLink (lay : HoneycombLayout) (j : Nat) (S : Frame) (c : Edge → ZMod 2) (R rec : List (ZMod 2)) (G : PauliOp) : Prop where
  left : ∀ e ∈ lay.round_edges j, S (lay.idx e.left) = G e.left + (S (lay.idx e.center)).2 • (Basis.ofIdx j).pauli
  right : ∀ q ∈ lay.data_qubit_coords, dataQubitParity q = true → S (lay.idx q) = G q
  anc : ∀ e ∈ lay.round_edges j, (S (lay.idx e.center)).1 = c e + anti (G e.left) (Basis.ofIdx j).pauli
  next : ∀ e ∈ lay.round_edges ((j : Int) + 1), (S (lay.idx e.center)).1 = c e
  last : ∀ e ∈ lay.round_edges ((j : Int) + 2), (S (lay.idx e.center)).1 = c e
  zero : j = 0 → ∀ e, c e = 0
  pend : (j = 0 ∧ R = rec) ∨ (1 ≤ j ∧ R = rec ++ (lay.round_edges ((j : Int) - 1)).map c)

/-- The third part of moment `j + 1`: the measurements of sub-round `j - 1`. -/
theorem pc3_mid (hv : lay.Valid) (he : lay.isEM3 = false) {j : Nat} {S S' : Frame}
    (h : Runs S (actions (if 2 ≤ j + 1 then lay.emitMD (j + 1 - 2) else lay.subRoundResets (((j + 1 : Nat) : Int) - 2))) rec S') :
    rec = (if j = 0 then [] else (lay.round_edges ((j : Int) - 1)).map fun e => (S (lay.idx e.center)).1) ∧ (∀ b, lay.SameD S S' b) ∧
    (∀ i, i % 3 ≠ ((j : Int) + 2) % 3 → lay.SameC S S' i) ∧
    ∀ e ∈ lay.round_edges ((j : Int) + 2), (S' (lay.idx e.center)).1 = if j = 0 then 0 else (S (lay.idx e.center)).1 := by
  rcases Nat.eq_zero_or_pos j with rfl | hj
  · rw [if_neg (by omega)] at h
    obtain ⟨rfl, a1, a2, a3⟩ := eff_resets hv h
    refine ⟨rfl, a2, fun i hi => a3 i (by omega), fun e hm => ?_⟩
    rw [if_pos rfl]
    exact a1 e (by rw [round_edges_congr lay (r := ((0 : Nat) : Int) + 2) (r' := ((0 + 1 : Nat) : Int) - 2) (by omega)] at hm; exact hm)
  · rw [if_pos (by omega)] at h
    obtain ⟨e1, a1, a2, a3⟩ := eff_md hv he h
    rw [show ((j + 1 - 2 : Nat) : Int) = (j : Int) - 1 by omega] at e1 a3
    refine ⟨by rw [if_neg (by omega)]; exact e1, a1, fun i hi => a3 i (by omega), fun e hm => ?_⟩
    rw [if_neg (by omega), a2]

/-- What a step of sub-round `j` leads to, in a style whose ancillas accumulate the parities. -/
def Steps (lay : HoneycombLayout) (j : Nat) (c : Edge → ZMod 2) (R : List (ZMod 2)) (G : PauliOp)
    (A : (Edge → ZMod 2) → List (ZMod 2) → PauliOp → Prop) : Prop :=
  ∀ G' : PauliOp, (∀ e ∈ lay.round_edges j, ∃ r : ZMod 2, G' e.left = G e.left + r • (Basis.ofIdx j).pauli ∧ G' e.right = G e.right + r • (Basis.ofIdx j).pauli) →
    A (fun e => c e + if e ∈ lay.round_edges j then par G j e else 0) (R ++ (lay.round_edges j).map fun e => c e + par G j e) G'

theorem RunFrom.steps (hp : lay.isPC3 = true) {k0 : Nat} {c0 : Edge → ZMod 2} {R0 : List (ZMod 2)} {F0 : PauliOp} {j : Nat} {c : Edge → ZMod 2} {R : List (ZMod 2)} {G : PauliOp} (ha : lay.RunFrom k0 c0 R0 F0 j c R G) :
    lay.Steps j c R G (lay.RunFrom k0 c0 R0 F0 (j + 1)) := fun G' hG => by
  have := ha.step G' hG
  simpa only [hp, if_true] using this

/-- The second half of sub-round `j`. -/
theorem pc3_finish (hv : lay.Valid) (he : lay.isEM3 = false) {j : Nat} {S S2 S' : Frame} {c : Edge → ZMod 2}
    {R r r3 : List (ZMod 2)} {G G' : PauliOp} {A : (Edge → ZMod 2) → List (ZMod 2) → PauliOp → Prop} (ha : lay.Steps j c R G A) (hl : lay.PcLink j S c R r G)
    (h2l : ∀ e ∈ lay.round_edges j, G' e.left = S (lay.idx e.left))
    (h2r : ∀ e ∈ lay.round_edges j, G' e.right = S (lay.idx e.right) + (S (lay.idx e.center)).2 • (Basis.ofIdx j).pauli)
    (h2c : ∀ e ∈ lay.round_edges j, (S2 (lay.idx e.center)).1 = (S (lay.idx e.center)).1 + anti (S (lay.idx e.right)) (Basis.ofIdx j).pauli)
    (h2o : ∀ e ∈ lay.round_edges ((j : Int) + 2), S2 (lay.idx e.center) = S (lay.idx e.center))
    (h3 : Runs S2 (actions (if 2 ≤ j + 1 then lay.emitMD (j + 1 - 2) else lay.subRoundResets (((j + 1 : Nat) : Int) - 2))) r3 S') :
    ∃ c' R', A c' R' G' ∧ R' = (r ++ r3) ++ (lay.round_edges j).map c' ∧
      (∀ e ∈ lay.round_edges j, (S' (lay.idx e.center)).1 = c' e) ∧ (∀ e, e ∉ lay.round_edges j → c' e = c e) ∧
      ∀ e ∈ lay.round_edges ((j : Int) + 2), (S' (lay.idx e.center)).1 = c e := by
  obtain ⟨e3, b1, b2, b3⟩ := pc3_mid hv he h3
  have hstep := ha G' fun e hm => ⟨(S (lay.idx e.center)).2, by rw [h2l e hm, hl.left e hm], by
    rw [h2r e hm, hl.right _ (right_facts hv hm).1 (right_facts hv hm).2]⟩
  have hc : ∀ e ∈ lay.round_edges j, (S2 (lay.idx e.center)).1 = c e + par G j e := fun e hm => by
    rw [h2c e hm, hl.anc e hm, hl.right _ (right_facts hv hm).1 (right_facts hv hm).2, par]; ring
  refine ⟨_, _, hstep, ?_, ?_, ?_, ?_⟩
  · have : r ++ r3 = R := by
      rcases hl.pend with ⟨z, e⟩ | ⟨z, e⟩
      · rw [e3, if_pos z, List.append_nil, e]
      · rw [e3, if_neg (by omega), e]
        congr 1
        refine List.map_congr_left fun e hm => ?_
        rw [round_edges_congr lay (r := (j : Int) - 1) (r' := (j : Int) + 2) (by omega)] at hm
        rw [h2o e hm, hl.last e hm]
    rw [this]
    congr 1
    refine List.map_congr_left fun e hm => ?_
    simp only [if_pos hm]
  · intro e hm
    rw [b2 j (by omega) e hm, hc e hm]
    simp only [if_pos hm]
  · intro e hm
    simp only [if_neg hm, add_zero]
  · intro e hm
    rw [b3 e hm]
    split_ifs with z
    · rw [hl.zero z]
    · rw [h2o e hm, hl.last e hm]

theorem pc3_step (hv : lay.Valid) (he : lay.isEM3 = false) {N j : Nat} (hj : j + 1 < N) {S S' : Frame}
    {c : Edge → ZMod 2} {R r : List (ZMod 2)} {G : PauliOp} {A : (Edge → ZMod 2) → List (ZMod 2) → PauliOp → Prop} (ha : lay.Steps j c R G A) (hl : lay.PcLink j S c R r G)
    (h : Runs S (actions (lay.pc3Emit N (j + 1))) rec S') :
    ∃ c' R' G', A c' R' G' ∧ lay.PcLink (j + 1) S' c' R' (r ++ rec) G' := by
  rw [pc3Emit, if_pos hj, if_pos (by omega : 1 ≤ j + 1 ∧ j + 1 - 1 < N), show ((j + 1 : Nat) : Int) - 1 = (j : Int) by omega] at h
  obtain ⟨r1, t1, S4, g1, ht, rfl⟩ := runs_append_actions h
  obtain ⟨rfl, rfl⟩ := runs_tick ht
  obtain ⟨r2, r3, S2, g2, h3, rfl⟩ := runs_append_actions g1
  obtain ⟨r4, r5, S1, h1, h2, rfl⟩ := runs_append_actions g2
  obtain ⟨rfl, a1, a2, a3⟩ := eff_left hv (P := sub_round_edge_basis ((j + 1 : Nat) : Int)) (Q := .X) (Or.inr ⟨rfl, rfl⟩) h1
  obtain ⟨rfl, b1, b2, b3⟩ := eff_right hv (P := sub_round_edge_basis (j : Int)) (Q := .X) (Or.inr ⟨rfl, rfl⟩) h2
  rw [show ((j + 1 : Nat) : Int) = (j : Int) + 1 by omega] at a1 a3
  obtain ⟨_, m1, m2, m3⟩ := pc3_mid hv he h3
  obtain ⟨c', R', ha', eR, hc1, hc2, hc3⟩ := pc3_finish hv he (S2 := S2) (G' := fun q => if dataQubitParity q then S2 (lay.idx q) else S (lay.idx q)) ha hl
    (fun e hm => by simp only [(left_facts hv hm).2, Bool.false_eq_true, if_false])
    (fun e hm => by
      simp only [(right_facts hv hm).2, if_true]
      rw [(b1 e hm).1, anti_X, a3 j (by omega) e hm, a2 _ (right_facts hv hm).1 (right_facts hv hm).2]; rfl)
    (fun e hm => by
      rw [(b1 e hm).2, Prod.fst_add, smul_X_fst, a3 j (by omega) e hm, a2 _ (right_facts hv hm).1 (right_facts hv hm).2]; rfl)
    (fun e hm => by rw [b3 ((j : Int) + 2) (by omega) e hm, a3 ((j : Int) + 2) (by omega) e hm]) h3
  refine ⟨c', R', _, ha', ?_⟩
  have hdis : ∀ i : Int, i % 3 ≠ (j : Int) % 3 → ∀ e ∈ lay.round_edges i, e ∉ lay.round_edges j := fun i hi e hm hm' =>
    hi (round_edges_disjoint hv hm hm')
  have hcen : ∀ e ∈ lay.round_edges ((j : Int) + 1), S' (lay.idx e.center) = S1 (lay.idx e.center) := fun e hm => by
    rw [m2 _ (by omega) e hm, b3 ((j : Int) + 1) (by omega) e hm]
  constructor
  · intro e hm
    have hm : e ∈ lay.round_edges ((j : Int) + 1) := hm
    obtain ⟨f1, f2⟩ := left_facts hv hm
    simp only [f2, Bool.false_eq_true, if_false]
    rw [m1 _ _ f1 f2, b2 _ f1 f2, (a1 e hm).1, anti_X, hcen e hm, (a1 e hm).2, Prod.snd_add, smul_X_snd, add_zero]; rfl
  · intro q hq hb
    simp only [hb, if_true]
    rw [m1 _ _ hq hb]
  · intro e hm
    have hm : e ∈ lay.round_edges ((j : Int) + 1) := hm
    obtain ⟨f1, f2⟩ := left_facts hv hm
    simp only [f2, Bool.false_eq_true, if_false]
    rw [hcen e hm, (a1 e hm).2, Prod.fst_add, smul_X_fst, hl.next e hm, hc2 e (hdis _ (by omega) e hm)]; rfl
  · intro e hm
    rw [show ((j + 1 : Nat) : Int) + 1 = (j : Int) + 2 by omega] at hm
    rw [hc3 e hm, hc2 e (hdis _ (by omega) e hm)]
  · intro e hm
    rw [round_edges_congr lay (r := ((j + 1 : Nat) : Int) + 2) (r' := (j : Int)) (by omega)] at hm
    exact hc1 e hm
  · omega
  · refine Or.inr ⟨by omega, ?_⟩
    rw [eR, show ((j + 1 : Nat) : Int) - 1 = (j : Int) by omega]
    simp only [List.nil_append, List.append_nil]

theorem pc3_start (hv : lay.Valid) {N : Nat} (hN : 1 ≤ N) {S S' : Frame} (hx : ∀ j, ∀ e ∈ lay.round_edges j, (S (lay.idx e.center)).1 = 0)
    (h : Runs S (actions (lay.pc3Emit N 0)) rec S') :
    lay.PcLink 0 S' (fun _ => 0) [] rec (lay.pos S) := by
  rw [pc3Emit, if_pos (by omega), if_neg (by omega), if_neg (by omega), List.append_nil] at h
  obtain ⟨r1, t1, S4, g1, ht, rfl⟩ := runs_append_actions h
  obtain ⟨rfl, rfl⟩ := runs_tick ht
  obtain ⟨r2, r3, S1, h1, h2, rfl⟩ := runs_append_actions g1
  obtain ⟨rfl, a1, a2, a3⟩ := eff_left hv (P := sub_round_edge_basis ((0 : Nat) : Int)) (Q := .X) (Or.inr ⟨rfl, rfl⟩) h1
  obtain ⟨rfl, b1, b2, b3⟩ := eff_resets hv h2
  constructor
  · intro e hm
    obtain ⟨f1, f2⟩ := left_facts hv hm
    rw [b2 _ _ f1 f2, (a1 e hm).1, anti_X, b3 ((0 : Nat) : Int) (by omega) e hm, (a1 e hm).2, Prod.snd_add, smul_X_snd, add_zero]; rfl
  · intro q hq hb
    rw [b2 _ _ hq hb, a2 _ hq hb]; rfl
  · intro e hm
    rw [b3 ((0 : Nat) : Int) (by omega) e hm, (a1 e hm).2, Prod.fst_add, smul_X_fst, hx _ e hm]; rfl
  · intro e hm
    exact b1 e (by rw [round_edges_congr lay (r := ((0 : Nat) : Int) + 1) (r' := ((0 : Nat) : Int) - 2) (by omega)] at hm; exact hm)
  · intro e hm
    rw [b3 _ (by omega) e hm, a3 _ (by omega) e hm, hx _ e hm]
  · exact fun _ _ => rfl
  · exact Or.inl ⟨rfl, rfl⟩

theorem pc3_steps (hv : lay.Valid) (he : lay.isEM3 = false) (hp : lay.isPC3 = true) {N j : Nat} (hj : j < N) {S S' : Frame}
    (hx : ∀ j, ∀ e ∈ lay.round_edges j, (S (lay.idx e.center)).1 = 0)
    (h : Runs S (actions ((List.range (j + 1)).flatMap (lay.pc3Emit N))) rec S') :
    ∃ c R G, lay.AbsRun (lay.pos S) j c R G ∧ lay.PcLink j S' c R rec G := by
  induction j generalizing rec S' with
  | zero =>
    rw [range_succ_flatMap, List.range_zero, List.flatMap_nil, List.nil_append] at h
    exact ⟨_, _, _, .start, pc3_start hv (by omega) hx h⟩
  | succ j ih =>
    rw [range_succ_flatMap] at h
    obtain ⟨r1, r2, F1, h1, h2, rfl⟩ := runs_append_actions h
    obtain ⟨c, R, G, a, l⟩ := ih (by omega) h1
    exact pc3_step hv he hj (a.steps hp) l h2

/-- The end of the pipeline. -/
theorem pc3_last (hv : lay.Valid) (he : lay.isEM3 = false) (hp : lay.isPC3 = true) {j : Nat} {S0 S' : Frame} {F0 : PauliOp} {c : Edge → ZMod 2}
    {R r4 : List (ZMod 2)} {G : PauliOp} (a : lay.RunFrom k0 c0 R0 F0 j c R G) (l : lay.PcLink j S0 c R r4 G)
    (h : Runs S0 (actions (lay.pc3Emit (j + 1) (j + 1) ++ lay.pc3Emit (j + 1) (j + 1 + 1) ++ lay.pc3ObsEmit (j + 1))) rec S') :
    ∃ c G, lay.RunFrom k0 c0 R0 F0 (j + 1) c (r4 ++ rec) G ∧ ∀ q ∈ lay.data_qubit_coords, S' (lay.idx q) = G q := by
  obtain ⟨r1, r2, F1, g1, h2, rfl⟩ := runs_append_actions h
  have ho : actions (lay.pc3ObsEmit (j + 1)) = [] := actions_nil_of_marks fun i hi => by
    obtain ⟨r, _, rfl⟩ := List.mem_map.1 hi; rfl
  rw [ho] at h2
  obtain ⟨rfl, rfl⟩ := runs_nil h2
  obtain ⟨r5, rm, S3, h5, hm, rfl⟩ := runs_append_actions g1
  rw [pc3Emit, if_neg (by omega), if_pos (by omega : 1 ≤ j + 1 ∧ j + 1 - 1 < j + 1), show ((j + 1 : Nat) : Int) - 1 = (j : Int) by omega, List.nil_append] at h5
  obtain ⟨r6, t1, S4, g5, ht, rfl⟩ := runs_append_actions h5
  obtain ⟨rfl, rfl⟩ := runs_tick ht
  obtain ⟨r7, r8, S2, hr, h3, rfl⟩ := runs_append_actions g5
  rw [pc3Emit, if_neg (by omega), if_neg (by omega), if_pos (by omega), show j + 1 + 1 - 2 = j by omega] at hm
  obtain ⟨r9, t2, S5, g6, ht2, rfl⟩ := runs_append_actions hm
  obtain ⟨rfl, rfl⟩ := runs_tick ht2
  simp only [List.nil_append] at g6
  obtain ⟨rfl, b1, b2, b3⟩ := eff_right hv (P := sub_round_edge_basis (j : Int)) (Q := .X) (Or.inr ⟨rfl, rfl⟩) hr
  obtain ⟨_, m1, m2, m3⟩ := pc3_mid hv he h3
  obtain ⟨e1, n1, n2, n3⟩ := eff_md hv he g6
  have hd : ∀ b, ∀ q ∈ lay.data_qubit_coords, dataQubitParity q = b → S' (lay.idx q) = S2 (lay.idx q) := fun b q hq hb => by
    rw [n1 b q hq hb, m1 b q hq hb]
  obtain ⟨c', R', ha', eR, hc1, hc2, hc3⟩ := pc3_finish hv he (S2 := S2) (G' := lay.pos S') (a.steps hp) l
    (fun e hm => by rw [pos, hd _ _ (left_facts hv hm).1 (left_facts hv hm).2, b2 _ (left_facts hv hm).1 (left_facts hv hm).2])
    (fun e hm => by rw [pos, hd _ _ (right_facts hv hm).1 (right_facts hv hm).2, (b1 e hm).1, anti_X]; rfl)
    (fun e hm => by rw [(b1 e hm).2, Prod.fst_add, smul_X_fst]; rfl)
    (fun e hm => by rw [b3 ((j : Int) + 2) (by omega) e hm]) h3
  refine ⟨c', lay.pos S', ?_, fun q _ => rfl⟩
  have : r9 = (lay.round_edges j).map c' := by
    rw [e1]; exact List.map_congr_left fun e hm => hc1 e hm
  simp only [List.nil_append, List.append_nil]
  rw [this, ← List.append_assoc, ← eR]
  exact ha'

theorem pc3_run (hv : lay.Valid) (he : lay.isEM3 = false) (hp : lay.isPC3 = true) {N : Nat} (hN : 1 ≤ N) {S S' : Frame}
    (hx : ∀ j, ∀ e ∈ lay.round_edges j, (S (lay.idx e.center)).1 = 0)
    (h : Runs S (actions (lay.pc3All N)) rec S') :
    ∃ c G, lay.AbsRun (lay.pos S) N c rec G ∧ ∀ q ∈ lay.data_qubit_coords, S' (lay.idx q) = G q := by
  obtain ⟨j, rfl⟩ : ∃ j, N = j + 1 := ⟨N - 1, by omega⟩
  rw [pc3All] at h
  rw [range_succ_flatMap, range_succ_flatMap, List.append_assoc, List.append_assoc, ← List.append_assoc (lay.pc3Emit _ _)] at h
  obtain ⟨r1, r2, S0, g1, g2, rfl⟩ := runs_append_actions h
  obtain ⟨c, R, G, a, l⟩ := pc3_steps hv he hp (by omega) hx g1
  exact pc3_last hv he hp a l g2

end HoneycombLayout
end Honeycomb
