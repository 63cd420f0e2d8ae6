import Verif.Lemmas.PhysStyles

/-! SD6: pipelined sub-rounds on rotated data qubits. -/

namespace Honeycomb
namespace HoneycombLayout
variable {lay : HoneycombLayout} {F F' : Frame} {rec : List (ZMod 2)}

theorem smul_X_snd (r : ZMod 2) : (r • Basis.X.pauli : Pauli).2 = 0 := by revert r; decide
theorem smul_X_fst (r : ZMod 2) : (r • Basis.X.pauli : Pauli).1 = r := by revert r; decide

/-- After the first half of the controlled gates of sub-round `k`: the first half of the data qubits has been rotated `a` times, the second half `b`
times. -/
structure SdLink (lay : HoneycombLayout) (a b k : Int) (S : Frame) (G : PauliOp) : Prop where
  left : ∀ e ∈ lay.round_edges k, S (lay.idx e.left) = rotN a (G e.left + (S (lay.idx e.center)).2 • (Basis.ofIdx k).pauli)
  right : ∀ q ∈ lay.data_qubit_coords, dataQubitParity q = true → S (lay.idx q) = rotN b (G q)
  anc : ∀ e ∈ lay.round_edges k, (S (lay.idx e.center)).1 = anti (G e.left) (Basis.ofIdx k).pauli

/-- Both halves of the controlled gates, for consecutive sub-rounds. -/
theorem sd6_cross (hv : lay.Valid) {k : Int} {S S' : Frame} {G : PauliOp} (hl : lay.SdLink (k + 2) (k + 1) k S G)
    (hx : ∀ e ∈ lay.round_edges (k + 1), (S (lay.idx e.center)).1 = 0)
    (h : Runs S (actions ((lay.subRound2qOps (k + 1)).1 ++ (lay.subRound2qOps k).2)) rec S') :
    rec = [] ∧ ∃ G' : PauliOp, (∀ e ∈ lay.round_edges k, ∃ r : ZMod 2, G' e.left = G e.left + r • (Basis.ofIdx k).pauli ∧
        G' e.right = G e.right + r • (Basis.ofIdx k).pauli) ∧
      (∀ e ∈ lay.round_edges k, (S' (lay.idx e.center)).1 = par G k e) ∧ lay.SdLink (k + 2) (k + 1) (k + 1) S' G' := by
  obtain ⟨r1, r2, S1, h1, h2, rfl⟩ := runs_append_actions h
  obtain ⟨rfl, a1, a2, a3⟩ := eff_left hv (g := .CX) (P := .Z) (Q := .X) (Or.inr ⟨rfl, rfl⟩) h1
  obtain ⟨rfl, b1, b2, b3⟩ := eff_right hv (g := .CX) (P := .Z) (Q := .X) (Or.inr ⟨rfl, rfl⟩) h2
  have er : ∀ e ∈ lay.round_edges k, S' (lay.idx e.right) = rotN (k + 1) (G e.right + (S (lay.idx e.center)).2 • (Basis.ofIdx k).pauli) := by
    intro e he
    obtain ⟨f1, f2⟩ := right_facts hv he
    rw [(b1 e he).1, a2 _ f1 f2, hl.right _ f1 f2, a3 k (by omega) e he, anti_X, rotN_add]
  refine ⟨rfl, fun q => if dataQubitParity q then rotN (-(k + 1)) (S' (lay.idx q)) else rotN (-(k + 2)) (S (lay.idx q)), ?_, ?_, ?_, ?_, ?_⟩
  · intro e he
    refine ⟨(S (lay.idx e.center)).2, ?_, ?_⟩
    · simp only [(left_facts hv he).2, Bool.false_eq_true, if_false]
      rw [hl.left e he, rotN_rotN, rotN_zero (by omega)]
    · simp only [(right_facts hv he).2, if_true]
      rw [er e he, rotN_rotN, rotN_zero (by omega)]
  · intro e he
    obtain ⟨f1, f2⟩ := right_facts hv he
    rw [(b1 e he).2, Prod.fst_add, smul_X_fst, a3 k (by omega) e he, hl.anc e he, a2 _ f1 f2, hl.right _ f1 f2, anti_Z, rotN_fst, par]
  · intro e he
    obtain ⟨f1, f2⟩ := left_facts hv he
    simp only [f2, Bool.false_eq_true, if_false]
    have hz : (S' (lay.idx e.center)).2 = (S (lay.idx e.center)).2 := by
      rw [b3 (k + 1) (by omega) e he, (a1 e he).2, Prod.snd_add, smul_X_snd, add_zero]
    rw [hz, b2 _ f1 f2, (a1 e he).1, anti_X, show k + 2 = k + 1 + 1 by ring, ← rotN_add, rotN_inv]
  · intro q hq hp
    simp only [hp, if_true]
    rw [rotN_inv]
  · intro e he
    obtain ⟨f1, f2⟩ := left_facts hv he
    simp only [f2, Bool.false_eq_true, if_false]
    rw [b3 (k + 1) (by omega) e he, (a1 e he).2, Prod.fst_add, smul_X_fst, hx e he, zero_add, anti_Z, ← rotN_fst, show k + 1 + 1 = k + 2 by ring, rotN_inv]

theorem eff_cycle (hv : lay.Valid) (h : Runs F (actions (lay.cycleData true true)) rec F') :
    rec = [] ∧ (∀ q ∈ lay.data_qubit_coords, F' (lay.idx q) = rot (F (lay.idx q))) ∧ ∀ j, lay.SameC F F' j :=
  eff_data hv (actions_C_ZYX _) h

/-- The rest of a pipeline step: the measurements of sub-round `k`, and the resets for sub-round `k + 2`. -/
theorem sd6_rest (hv : lay.Valid) (he : lay.isEM3 = false) {k : Nat} {S S' : Frame} {G : PauliOp} {v : Edge → ZMod 2}
    (hl : lay.SdLink (k + 2) (k + 1) (k + 1) S G) (hk : ∀ e ∈ lay.round_edges k, (S (lay.idx e.center)).1 = v e)
    (h : Runs S (actions (lay.subRoundResets ((k : Int) + 2) ++ lay.cycleData true true ++ lay.emitMD k ++ [.tick])) rec S') :
    rec = (lay.round_edges k).map v ∧
      lay.SdLink (k + 3) (k + 2) (k + 1) S' G ∧ ∀ e ∈ lay.round_edges ((k : Int) + 2), (S' (lay.idx e.center)).1 = 0 := by
  obtain ⟨r1, t1, S5, g1, ht, rfl⟩ := runs_append_actions h
  obtain ⟨rfl, rfl⟩ := runs_tick ht
  obtain ⟨r2, rm, S4, g2, hm, rfl⟩ := runs_append_actions g1
  obtain ⟨r3, rc, S3, hr, hc, rfl⟩ := runs_append_actions g2
  obtain ⟨rfl, a1, a2, a3⟩ := eff_resets hv hr
  obtain ⟨rfl, b1, b2⟩ := eff_cycle hv hc
  obtain ⟨e1, c1, c2, c3⟩ := eff_md hv he hm
  have hcen : lay.SameC S S' ((k : Int) + 1) := fun e hm => by
    rw [c3 _ (by omega) e hm, b2 _ e hm, a3 _ (by omega) e hm]
  refine ⟨?_, ⟨?_, ?_, ?_⟩, ?_⟩
  · simp only [List.nil_append, List.append_nil]
    rw [e1]
    refine List.map_congr_left fun e hm => ?_
    rw [b2 _ e hm, a3 _ (by omega) e hm, hk e hm]
  · intro e hm
    obtain ⟨f1, f2⟩ := left_facts hv hm
    rw [c1 _ _ f1 f2, b1 _ f1, a2 _ _ f1 f2, hl.left e hm, hcen e hm, rot_rotN]
    exact rotN_congr (by omega) _
  · intro q hq hp
    rw [c1 _ _ hq hp, b1 _ hq, a2 _ _ hq hp, hl.right q hq hp, rot_rotN]
    exact rotN_congr (by omega) _
  · intro e hm
    rw [hcen e hm, hl.anc e hm]
  · intro e hm
    rw [c3 _ (by omega) e hm, b2 _ e hm, a1 e hm]

theorem sd6Emit_parts {k : Nat} : lay.sd6Emit k = ((lay.subRound2qOps ((k : Int) + 1)).1 ++ (lay.subRound2qOps k).2) ++ [.tick] ++
    (lay.subRoundResets ((k : Int) + 2) ++ lay.cycleData true true ++ lay.emitMD k ++ [.tick]) := by
  simp only [sd6Emit, List.append_assoc]

theorem sd6_step (hv : lay.Valid) (he : lay.isEM3 = false) {k : Nat} {S S' : Frame} {G : PauliOp} (hl : lay.SdLink (k + 2) (k + 1) k S G)
    (hx : ∀ e ∈ lay.round_edges ((k : Int) + 1), (S (lay.idx e.center)).1 = 0) (h : Runs S (actions (lay.sd6Emit k)) rec S') :
    ∃ G' : PauliOp, rec = (lay.round_edges k).map (par G k) ∧
      (∀ e ∈ lay.round_edges k, ∃ r : ZMod 2, G' e.left = G e.left + r • (Basis.ofIdx k).pauli ∧ G' e.right = G e.right + r • (Basis.ofIdx k).pauli) ∧
      lay.SdLink (k + 3) (k + 2) (k + 1) S' G' ∧ ∀ e ∈ lay.round_edges ((k : Int) + 2), (S' (lay.idx e.center)).1 = 0 := by
  rw [sd6Emit_parts] at h
  obtain ⟨r1, r2, S2, g1, g2, rfl⟩ := runs_append_actions h
  obtain ⟨r3, r4, S1, g3, ht, rfl⟩ := runs_append_actions g1
  obtain ⟨rfl, rfl⟩ := runs_tick ht
  obtain ⟨rfl, G', st, pv, l⟩ := sd6_cross hv hl hx g3
  obtain ⟨e, l', x⟩ := sd6_rest hv he l pv g2
  exact ⟨G', by simpa using e, st, l', x⟩

theorem sd6_start (hv : lay.Valid) {S S' : Frame} (h : Runs S (actions lay.sd6Start) rec S') :
    rec = [] ∧ lay.SdLink 2 1 0 S' (lay.pos S) ∧ ∀ e ∈ lay.round_edges 1, (S' (lay.idx e.center)).1 = 0 := by
  rw [sd6Start] at h
  obtain ⟨r1, t1, S7, g1, ht, rfl⟩ := runs_append_actions h
  obtain ⟨rfl, rfl⟩ := runs_tick ht
  obtain ⟨r2, t2, S6, g2, hc, rfl⟩ := runs_append_actions g1
  obtain ⟨r3, t3, S5, g3, hr, rfl⟩ := runs_append_actions g2
  obtain ⟨r4, t4, S4, g4, ht4, rfl⟩ := runs_append_actions g3
  obtain ⟨rfl, rfl⟩ := runs_tick ht4
  obtain ⟨r5, t5, S3, g5, hx, rfl⟩ := runs_append_actions g4
  obtain ⟨r6, t6, S2, g6, ht6, rfl⟩ := runs_append_actions g5
  obtain ⟨rfl, rfl⟩ := runs_tick ht6
  obtain ⟨r7, t7, S1, hr0, hc1, rfl⟩ := runs_append_actions g6
  obtain ⟨rfl, a1, a2, _⟩ := eff_resets hv hr0
  obtain ⟨rfl, b1, b2, b3⟩ := eff_1st hv hc1
  obtain ⟨rfl, c1, c2, c3⟩ := eff_left hv (g := .CX) (P := .Z) (Q := .X) (Or.inr ⟨rfl, rfl⟩) hx
  obtain ⟨rfl, d1, d2, d3⟩ := eff_resets hv hr
  obtain ⟨rfl, e1, e2⟩ := eff_cycle hv hc
  have hz : ∀ e ∈ lay.round_edges 0, (S' (lay.idx e.center)).2 = (S1 (lay.idx e.center)).2 := by
    intro e he
    rw [e2 _ e he, d3 _ (by omega) e he, (c1 e he).2, Prod.snd_add, smul_X_snd, add_zero, b3 _ e he]
  have hrot : ∀ p, rot p = rotN (0 + 1) p := by decide
  refine ⟨rfl, ⟨?_, ?_, ?_⟩, ?_⟩
  · intro e he
    obtain ⟨f1, f2⟩ := left_facts hv he
    rw [hz e he, e1 _ f1, d2 _ _ f1 f2, (c1 e he).1, anti_X, b3 _ e he, b1 _ f1 f2, hrot (S1 _), rotN_add, rot_rotN, a2 _ _ f1 f2]
    rfl
  · intro q hq hp
    rw [e1 _ hq, d2 _ _ hq hp, c2 _ hq hp, b2 _ hq hp, a2 _ _ hq hp, hrot]; rfl
  · intro e he
    obtain ⟨f1, f2⟩ := left_facts hv he
    rw [e2 _ e he, d3 _ (by omega) e he, (c1 e he).2, Prod.fst_add, smul_X_fst, b3 _ e he, a1 e he, zero_add, anti_Z, b1 _ f1 f2, hrot, rotN_fst, a2 _ _ f1 f2]
    rfl
  · intro e he
    rw [e2 _ e he, d1 e he]

/-- All pipeline steps. -/
theorem sd6_steps (hv : lay.Valid) (he : lay.isEM3 = false) (hp : lay.isPC3 = false) {M : Nat} {S S' : Frame}
    (h : Runs S (actions (lay.sd6Start ++ (List.range M).flatMap lay.sd6Emit)) rec S') :
    ∃ c G, lay.AbsRun (lay.pos S) M c rec G ∧ lay.SdLink (M + 2) (M + 1) M S' G ∧ ∀ e ∈ lay.round_edges ((M : Int) + 1), (S' (lay.idx e.center)).1 = 0 := by
  induction M generalizing rec S' with
  | zero =>
    rw [List.range_zero, List.flatMap_nil, List.append_nil] at h
    obtain ⟨rfl, l, x⟩ := sd6_start hv h
    exact ⟨_, _, .start, l, x⟩
  | succ M ih =>
    rw [range_succ_flatMap, ← List.append_assoc] at h
    obtain ⟨r1, r2, F1, h1, h2, rfl⟩ := runs_append_actions h
    obtain ⟨c, G, a, l, x⟩ := ih h1
    obtain ⟨G', e, st, l', x'⟩ := sd6_step hv he l x h2
    obtain ⟨c', a'⟩ := a.step' hp G' st
    refine ⟨c', G', by rw [e]; exact a', ?_, ?_⟩
    · push_cast
      rw [show (M : Int) + 1 + 2 = M + 3 by ring, show (M : Int) + 1 + 1 = M + 2 by ring]
      exact l'
    · push_cast
      rw [show (M : Int) + 1 + 1 = M + 2 by ring]
      exact x'

/-- The end of the pipeline. -/
theorem sd6_end (hv : lay.Valid) (he : lay.isEM3 = false) (hp : lay.isPC3 = false) {k : Nat} {S S' : Frame} {F0 G : PauliOp} {c : Edge → ZMod 2}
    {R : List (ZMod 2)} (ha : lay.RunFrom k0 c0 R0 F0 k c R G) (hl : lay.SdLink (k + 2) (k + 1) k S G)
    (hx : ∀ e ∈ lay.round_edges ((k : Int) + 1), (S (lay.idx e.center)).1 = 0) (h : Runs S (actions (lay.sd6EndEmit (k + 2))) rec S') :
    ∃ c' G', lay.RunFrom k0 c0 R0 F0 (k + 2) c' (R ++ rec) G' ∧ ∀ q ∈ lay.data_qubit_coords, S' (lay.idx q) = rotN (k + 2) (G' q) := by
  rw [sd6EndEmit, show k + 2 - 2 = k by omega, show k + 2 - 1 = k + 1 by omega, show ((k + 2 : Nat) : Int) - 1 = (k : Int) + 1 by omega,
    show ((k + 2 : Nat) : Int) - 2 = (k : Int) by omega] at h
  obtain ⟨r1, rm1, S9, g1, hm1, rfl⟩ := runs_append_actions h
  obtain ⟨r2, t2, S8, g2, ht2, rfl⟩ := runs_append_actions g1
  obtain ⟨rfl, rfl⟩ := runs_tick ht2
  obtain ⟨r3, rx, S7, g3, hr, rfl⟩ := runs_append_actions g2
  obtain ⟨r4, t4, S6, g4, ht4, rfl⟩ := runs_append_actions g3
  obtain ⟨rfl, rfl⟩ := runs_tick ht4
  obtain ⟨r5, rc, S5, g5, hc, rfl⟩ := runs_append_actions g4
  obtain ⟨r6, t6, S4, g6, ht6, rfl⟩ := runs_append_actions g5
  obtain ⟨rfl, rfl⟩ := runs_tick ht6
  obtain ⟨r7, rm, S3, g7, hm, rfl⟩ := runs_append_actions g6
  obtain ⟨r8, t8, S2, g8, ht8, rfl⟩ := runs_append_actions g7
  obtain ⟨rfl, rfl⟩ := runs_tick ht8
  obtain ⟨rfl, G1, st, pv, l⟩ := sd6_cross hv hl hx g8
  obtain ⟨e1, c1, c2, c3⟩ := eff_md hv he hm
  obtain ⟨rfl, b1, b2, b3⟩ := eff_2nd hv hc
  obtain ⟨rfl, d1, d2, d3⟩ := eff_right hv (g := .CX) (P := .Z) (Q := .X) (Or.inr ⟨rfl, rfl⟩) hr
  obtain ⟨e2, f1, f2, f3⟩ := eff_md hv he hm1
  obtain ⟨ca, a1⟩ := ha.step' hp G1 st
  have hcen : ∀ e ∈ lay.round_edges ((k : Int) + 1), S7 (lay.idx e.center) = S3 (lay.idx e.center) := fun e hm => by
    rw [b3 _ e hm, c3 _ (by omega) e hm]
  have hrt : ∀ e ∈ lay.round_edges ((k : Int) + 1), S7 (lay.idx e.right) = rotN (k + 1 + 1) (G1 e.right) := fun e hm => by
    obtain ⟨g1, g2⟩ := right_facts hv hm
    rw [b1 _ g1 g2, c1 _ _ g1 g2, l.right _ g1 g2, rot_rotN]
  obtain ⟨cb, a2⟩ := a1.step' hp (fun q => rotN (-(k + 2)) (S' (lay.idx q))) (by
    intro e hm
    have hm : e ∈ lay.round_edges ((k : Int) + 1) := hm
    obtain ⟨g1, g2⟩ := right_facts hv hm
    obtain ⟨g3, g4⟩ := left_facts hv hm
    refine ⟨(S3 (lay.idx e.center)).2, ?_, ?_⟩
    · push_cast
      rw [f1 _ _ g3 g4, d2 _ g3 g4, b2 _ g3 g4, c1 _ _ g3 g4, l.left e hm, rotN_rotN, rotN_zero (by omega)]
    · push_cast
      rw [f1 _ _ g1 g2, (d1 e hm).1, hrt e hm, hcen e hm, anti_X, rotN_add, rotN_rotN, rotN_zero (by omega)])
  refine ⟨cb, fun q => rotN (-(k + 2)) (S' (lay.idx q)), ?_, fun q _ => ?_⟩
  · have e2' : rm1 = (lay.round_edges ((k + 1 : Nat) : Int)).map (par G1 ((k + 1 : Nat) : Int)) := by
      rw [e2]
      refine List.map_congr_left fun e hm => ?_
      have hm : e ∈ lay.round_edges ((k : Int) + 1) := hm
      rw [(d1 e hm).2, Prod.fst_add, smul_X_fst, hcen e hm, l.anc e hm, hrt e hm, anti_Z, rotN_fst, par]
      push_cast
      rfl
    have e1' : rm = (lay.round_edges k).map (par G k) := by
      rw [e1]
      exact List.map_congr_left fun e hm => pv e hm
    simp only [List.nil_append, List.append_nil]
    rw [e1', e2', ← List.append_assoc]
    exact a2
  · simp only
    rw [rotN_inv]

/-- A single sub-round. -/
theorem sd6_single (hv : lay.Valid) (he : lay.isEM3 = false) (hp : lay.isPC3 = false) {S S' : Frame}
    (h : Runs S (actions (lay.subRoundResets 0 ++ lay.cycleData true true ++ [.tick] ++ (lay.subRound2qOps 0).1 ++ [.tick]
      ++ (lay.subRound2qOps 0).2 ++ [.tick] ++ lay.emitMD 0)) rec S') :
    ∃ c G, lay.AbsRun (lay.pos S) 1 c rec G ∧ ∀ q ∈ lay.data_qubit_coords, S' (lay.idx q) = rotN 1 (G q) := by
  obtain ⟨r1, rm, S9, g1, hm, rfl⟩ := runs_append_actions h
  obtain ⟨r2, t2, S8, g2, ht2, rfl⟩ := runs_append_actions g1
  obtain ⟨rfl, rfl⟩ := runs_tick ht2
  obtain ⟨r3, rx, S7, g3, hr, rfl⟩ := runs_append_actions g2
  obtain ⟨r4, t4, S6, g4, ht4, rfl⟩ := runs_append_actions g3
  obtain ⟨rfl, rfl⟩ := runs_tick ht4
  obtain ⟨r5, ry, S5, g5, hl, rfl⟩ := runs_append_actions g4
  obtain ⟨r6, t6, S4, g6, ht6, rfl⟩ := runs_append_actions g5
  obtain ⟨rfl, rfl⟩ := runs_tick ht6
  obtain ⟨r7, rc, S3, hr0, hc, rfl⟩ := runs_append_actions g6
  obtain ⟨rfl, a1, a2, _⟩ := eff_resets hv hr0
  obtain ⟨rfl, b1, b2⟩ := eff_cycle hv hc
  obtain ⟨rfl, c1, c2, c3⟩ := eff_left hv (g := .CX) (P := .Z) (Q := .X) (Or.inr ⟨rfl, rfl⟩) hl
  obtain ⟨rfl, d1, d2, d3⟩ := eff_right hv (g := .CX) (P := .Z) (Q := .X) (Or.inr ⟨rfl, rfl⟩) hr
  obtain ⟨e1, f1, _, _⟩ := eff_md hv he hm
  have hrot : ∀ p, rot p = rotN (0 + 1) p := by decide
  obtain ⟨cb, a'⟩ := (AbsRun.start (lay := lay) (F0 := lay.pos S)).step' hp (fun q => rotN (-1) (S' (lay.idx q))) (by
    intro e hm
    have hm : e ∈ lay.round_edges 0 := hm
    obtain ⟨g1, g2⟩ := right_facts hv hm
    obtain ⟨g3, g4⟩ := left_facts hv hm
    refine ⟨(S3 (lay.idx e.center)).2, ?_, ?_⟩
    · rw [f1 _ _ g3 g4, d2 _ g3 g4, (c1 e hm).1, anti_X, b2 _ e hm, b1 _ g3, hrot, rotN_add, rotN_rotN, rotN_zero (by omega), a2 _ _ g3 g4]
      rfl
    · rw [f1 _ _ g1 g2, (d1 e hm).1, anti_X, c2 _ g1 g2, b1 _ g1, (c1 e hm).2, Prod.snd_add, smul_X_snd, add_zero, b2 _ e hm, hrot, rotN_add,
        rotN_rotN, rotN_zero (by omega), a2 _ _ g1 g2]
      rfl)
  refine ⟨cb, fun q => rotN (-1) (S' (lay.idx q)), ?_, fun q _ => ?_⟩
  · have : rm = (lay.round_edges ((0 : Nat) : Int)).map (par (lay.pos S) ((0 : Nat) : Int)) := by
      rw [e1]
      refine List.map_congr_left fun e hm => ?_
      have hm : e ∈ lay.round_edges 0 := hm
      obtain ⟨g1, g2⟩ := right_facts hv hm
      obtain ⟨g3, g4⟩ := left_facts hv hm
      rw [(d1 e hm).2, Prod.fst_add, smul_X_fst, (c1 e hm).2, Prod.fst_add, smul_X_fst, b2 _ e hm, a1 e hm, zero_add, anti_Z, anti_Z, b1 _ g3, c2 _ g1 g2,
        b1 _ g1, hrot, rotN_fst, hrot, rotN_fst, a2 _ _ g3 g4, a2 _ _ g1 g2]
      rfl
    simp only [List.nil_append, List.append_nil]
    rw [this]
    exact a'
  · simp only
    rw [rotN_inv]

theorem sd6_realign (hv : lay.Valid) {N : Nat} (hN : lay.sub_rounds = N) {S S' : Frame} {G : PauliOp}
    (hS : ∀ q ∈ lay.data_qubit_coords, S (lay.idx q) = rotN N (G q)) (h : Runs S (actions lay.sd6Realign) rec S') :
    rec = [] ∧ ∀ q ∈ lay.data_qubit_coords, S' (lay.idx q) = G q := by
  rw [sd6Realign, hN] at h
  obtain ⟨r1, r2, S1, h1, h2, rfl⟩ := runs_append_actions h
  obtain ⟨rfl, rfl⟩ := runs_tick h2
  split_ifs at h1 with c1 c2
  · obtain ⟨rfl, e, _⟩ := eff_data hv (actions_C_ZYX _) h1
    exact ⟨rfl, fun q hq => by rw [e q hq, hS q hq, rot_rotN, rotN_zero (by omega)]⟩
  · obtain ⟨rfl, e, _⟩ := eff_data hv (actions_C_XYZ _) h1
    exact ⟨rfl, fun q hq => by rw [e q hq, hS q hq, rotN_rotN, rotN_zero (by omega)]⟩
  · obtain ⟨rfl, rfl⟩ := runs_nil h1
    exact ⟨rfl, fun q hq => by rw [hS q hq, rotN_zero (by omega)]⟩

theorem sd6_run (hv : lay.Valid) (he : lay.isEM3 = false) (hp : lay.isPC3 = false) {N : Nat} (hN : lay.sub_rounds = N) (h1 : 1 ≤ N) {S S' : Frame}
    (h : Runs S (actions (lay.sd6All N)) rec S') :
    ∃ c G, lay.AbsRun (lay.pos S) N c rec G ∧ ∀ q ∈ lay.data_qubit_coords, S' (lay.idx q) = G q := by
  rw [sd6All] at h
  split_ifs at h with hN1
  · subst hN1
    obtain ⟨r1, r2, S1, g1, g2, rfl⟩ := runs_append_actions h
    obtain ⟨c, G, a, e⟩ := sd6_single hv he hp g1
    obtain ⟨rfl, e'⟩ := sd6_realign hv hN e g2
    exact ⟨c, G, by rw [List.append_nil]; exact a, e'⟩
  · obtain ⟨r1, r2, S1, g1, g2, rfl⟩ := runs_append_actions h
    obtain ⟨r3, r4, S2, g3, g4, rfl⟩ := runs_append_actions g1
    obtain ⟨c, G, a, l, x⟩ := sd6_steps hv he hp g3
    obtain ⟨M, rfl⟩ : ∃ M, N = M + 2 := ⟨N - 2, by omega⟩
    rw [show M + 2 - 2 = M by omega] at a l x
    obtain ⟨c', G', a', e⟩ := sd6_end hv he hp a l x g4
    obtain ⟨rfl, e'⟩ := sd6_realign hv hN (by push_cast; exact e) g2
    exact ⟨c', G', by rw [List.append_nil]; exact a', e'⟩

end HoneycombLayout
end Honeycomb
