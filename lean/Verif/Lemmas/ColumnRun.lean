import Verif.Lemmas.Column

/-! The errors on the column in the runs of the styles with ancillas. -/

namespace Honeycomb
namespace HoneycombLayout
variable {lay : HoneycombLayout} {F F' : Frame} {rec : List (ZMod 2)} {N : Nat}

/-- The errors on the column: `φ` says how an error flips the outcome of an ancilla. -/
structure ColErr (lay : HoneycombLayout) (φ : ZMod 2 → Pauli) (E : Frame) : Prop where
  data : ∀ q ∈ lay.data_qubit_coords, E (lay.idx q) = column colError q
  anc : ∀ e ∈ lay.round_edges 2, E (lay.idx e.center) = φ (colFlip e)
  other : ∀ j : Int, j % 3 ≠ 2 → ∀ e ∈ lay.round_edges j, E (lay.idx e.center) = 0

theorem colError_left (hv : lay.Valid) {k : Int} {e : Edge} (he : e ∈ lay.round_edges k) : column colError e.left = 0 := by
  obtain ⟨-, hl, -⟩ := edge_column hv he
  rw [column]
  split_ifs with h
  · have h0 : ∀ r ∈ ([0, 2, 4] : List Int), colError r = 0 := by decide
    exact h0 _ (hl h)
  · rfl

/-! ## SD6 -/

/-- The SD6 rounds up to the controlled gates of sub-round 2. -/
def sd6Head (lay : HoneycombLayout) : List Instr :=
  lay.sd6Start ++ (List.range 2).flatMap lay.sd6Emit ++ ((lay.subRound2qOps ((2 : Nat) + 1)).1 ++ (lay.subRound2qOps (2 : Nat)).2)

/-- The rest of the SD6 rounds. -/
def sd6Tail (lay : HoneycombLayout) (M : Nat) : List Instr :=
  [.tick] ++ (lay.subRoundResets (((2 : Nat) : Int) + 2) ++ lay.cycleData true true ++ lay.emitMD 2 ++ [.tick]) ++ lay.sd6Emit 3 ++
    (List.range M).flatMap (fun i => lay.sd6Emit (4 + i)) ++ lay.sd6EndEmit (M + 6) ++ lay.sd6Realign

theorem sd6_more (hv : lay.Valid) (he : lay.isEM3 = false) (hp : lay.isPC3 = false) {k M : Nat} {S S' : Frame} {F0 G : PauliOp} {c : Edge → ZMod 2}
    {R : List (ZMod 2)} (ha : lay.RunFrom k0 c0 R0 F0 k c R G) (hl : lay.SdLink (k + 2) (k + 1) k S G)
    (hx : ∀ e ∈ lay.round_edges ((k : Int) + 1), (S (lay.idx e.center)).1 = 0)
    (h : Runs S (actions ((List.range M).flatMap fun i => lay.sd6Emit (k + i))) rec S') :
    ∃ c G, lay.RunFrom k0 c0 R0 F0 (k + M) c (R ++ rec) G ∧ lay.SdLink (((k + M : Nat) : Int) + 2) (((k + M : Nat) : Int) + 1) ((k + M : Nat) : Int) S' G ∧
      ∀ e ∈ lay.round_edges (((k + M : Nat) : Int) + 1), (S' (lay.idx e.center)).1 = 0 := by
  induction M generalizing rec S' with
  | zero =>
    obtain ⟨rfl, rfl⟩ := runs_nil h
    exact ⟨c, G, by rwa [List.append_nil], hl, hx⟩
  | succ M ih =>
    rw [range_succ_flatMap] at h
    obtain ⟨r1, r2, F1, h1, h2, rfl⟩ := runs_append_actions h
    obtain ⟨c, G, a, l, x⟩ := ih h1
    obtain ⟨G', e, st, l', x'⟩ := sd6_step hv he l x h2
    obtain ⟨c', a'⟩ := a.step' hp G' st
    refine ⟨c', G', by rw [e, ← List.append_assoc]; exact a', ?_, ?_⟩
    · rw [show ((k + (M + 1) : Nat) : Int) + 2 = ((k + M : Nat) : Int) + 3 by omega, show ((k + (M + 1) : Nat) : Int) + 1 = ((k + M : Nat) : Int) + 2 by omega,
        show ((k + (M + 1) : Nat) : Int) = ((k + M : Nat) : Int) + 1 by omega]
      exact l'
    · rw [show ((k + (M + 1) : Nat) : Int) + 1 = ((k + M : Nat) : Int) + 2 by omega]
      exact x'

theorem sd6_column (hv : lay.Valid) (he : lay.isEM3 = false) (hp : lay.isPC3 = false) {M : Nat} (hN : lay.sub_rounds = (M + 6 : Nat)) {S S1 S' E : Frame}
    {r1 r2 : List (ZMod 2)} (hE : lay.ColErr (fun r => (r, 0)) E) (h1 : Runs S (actions lay.sd6Head) r1 S1)
    (h2 : Runs (S1 + E) (actions (lay.sd6Tail M)) r2 S') :
    ∃ c G, lay.AbsRun (lay.pos S + column gap0) (M + 6) c (r1 ++ r2) G ∧ ∀ q ∈ lay.data_qubit_coords, S' (lay.idx q) = G q := by
  rw [sd6Head] at h1
  obtain ⟨ra, rb, T1, g1, g2, rfl⟩ := runs_append_actions h1
  obtain ⟨c, G, a, l, x⟩ := sd6_steps hv he hp g1
  obtain ⟨rfl, G', st, pv, l'⟩ := sd6_cross hv l x g2
  have a3 := a.three hv st
  rw [sd6Tail] at h2
  obtain ⟨r3, r4, U5, k5, k6, rfl⟩ := runs_append_actions h2
  obtain ⟨r5, r6, U4, k4, k7, rfl⟩ := runs_append_actions k5
  obtain ⟨r7, r8, U3, k3, k8, rfl⟩ := runs_append_actions k4
  obtain ⟨r9, r10, U2, k2, k9, rfl⟩ := runs_append_actions k3
  obtain ⟨r11, r12, U1, k1, k10, rfl⟩ := runs_append_actions k2
  obtain ⟨rfl, rfl⟩ := runs_tick k1
  have cz : ∀ e ∈ lay.round_edges (((2 : Nat) : Int) + 1), (S1 + E) (lay.idx e.center) = S1 (lay.idx e.center) := fun e hm => by
    rw [Pi.add_apply, hE.other _ (by decide) e hm, add_zero]
  have lE : lay.SdLink (((2 : Nat) : Int) + 2) (((2 : Nat) : Int) + 1) (((2 : Nat) : Int) + 1) (S1 + E) (G' + column colError) := by
    constructor
    · intro e hm
      rw [cz e hm, Pi.add_apply, hE.data _ (left_facts hv hm).1, Pi.add_apply, colError_left hv hm, add_zero, add_zero, l'.left e hm]
    · intro q hq hb
      rw [Pi.add_apply, hE.data _ hq, Pi.add_apply, l'.right q hq hb, rotN_zero (by decide), rotN_zero (by decide)]
    · intro e hm
      rw [cz e hm, Pi.add_apply, colError_left hv hm, add_zero, l'.anc e hm]
  obtain ⟨e2, l2, x2⟩ := sd6_rest hv he (v := fun e => par G ((2 : Nat) : Int) e + colFlip e) lE (fun e hm => by
    rw [Pi.add_apply, Prod.fst_add, pv e hm, hE.anc e hm]) k10
  simp only [hp, Bool.false_eq_true, if_false] at a3
  rw [← e2] at a3
  obtain ⟨G3, e3, st3, l3, x3⟩ := sd6_step hv he (k := 3) l2 x2 k9
  have a4 := a3.beside st3 (kicks_3 hv) (par_3 hv)
  simp only [hp, Bool.false_eq_true, if_false, add_zero] at a4
  rw [← e3] at a4
  obtain ⟨c5, G5, a5, l5, x5⟩ := sd6_more hv he hp a4 l3 x3 k8
  rw [show M + 6 = 3 + 1 + M + 2 by omega] at k7 hN ⊢
  obtain ⟨c6, G6, a6, e6⟩ := sd6_end hv he hp a5 l5 x5 k7
  obtain ⟨rfl, e7⟩ := sd6_realign hv hN (by push_cast at e6 ⊢; exact e6) k6
  refine ⟨c6, G6, ?_, e7⟩
  simpa only [List.append_nil, List.nil_append, List.append_assoc] using a6

/-! ## PC3 -/

/-- The PC3 rounds up to moment 3. -/
def pc3Head (lay : HoneycombLayout) (N : Nat) : List Instr := (List.range 4).flatMap (lay.pc3Emit N)

theorem AbsRun.steps_fade (hp : lay.isPC3 = true) {F0 : PauliOp} {j : Nat} {c : Edge → ZMod 2} {R : List (ZMod 2)} {G g : PauliOp}
    (ha : lay.AbsRun F0 j c R (G + g)) (hg : lay.Kicks j g 0) (h0 : ∀ e ∈ lay.round_edges j, par g j e = 0) :
    lay.Steps j c R G (lay.AbsRun F0 (j + 1)) := fun G' hG => by
  have := ha.beside hG hg h0
  simpa only [hp, if_true, add_zero] using this

theorem pc3_more (hv : lay.Valid) (he : lay.isEM3 = false) (hp : lay.isPC3 = true) {k M : Nat} (hk : k + M < N) {S S' : Frame} {F0 G : PauliOp}
    {c : Edge → ZMod 2} {R r : List (ZMod 2)} (ha : lay.RunFrom k0 c0 R0 F0 k c R G) (hl : lay.PcLink k S c R r G)
    (h : Runs S (actions ((List.range M).flatMap fun i => lay.pc3Emit N (k + 1 + i))) rec S') :
    ∃ c R G, lay.RunFrom k0 c0 R0 F0 (k + M) c R G ∧ lay.PcLink (k + M) S' c R (r ++ rec) G := by
  induction M generalizing rec S' with
  | zero =>
    obtain ⟨rfl, rfl⟩ := runs_nil h
    exact ⟨c, R, G, ha, by rwa [List.append_nil]⟩
  | succ M ih =>
    rw [range_succ_flatMap] at h
    obtain ⟨r1, r2, F1, h1, h2, rfl⟩ := runs_append_actions h
    obtain ⟨c, R, G, a, l⟩ := ih (by omega) h1
    rw [show k + 1 + M = k + M + 1 by omega] at h2
    rw [← List.append_assoc]
    exact pc3_step hv he (by omega) (a.steps hp) l h2

/-- The rest of the PC3 rounds. -/
def pc3Tail (lay : HoneycombLayout) (M : Nat) : List Instr :=
  lay.pc3Emit (M + 5) 4 ++ (List.range M).flatMap (fun i => lay.pc3Emit (M + 5) (4 + 1 + i)) ++
    (lay.pc3Emit (M + 5) (M + 5) ++ lay.pc3Emit (M + 5) (M + 5 + 1) ++ lay.pc3ObsEmit (M + 5))

theorem pc3_column (hv : lay.Valid) (he : lay.isEM3 = false) (hp : lay.isPC3 = true) {M : Nat} {S S1 S' E : Frame}
    (hx : ∀ j, ∀ e ∈ lay.round_edges j, (S (lay.idx e.center)).1 = 0)
    {r1 r2 : List (ZMod 2)} (hE : lay.ColErr (fun r => (r, 0)) E) (h1 : Runs S (actions (lay.pc3Head (M + 5))) r1 S1)
    (h2 : Runs (S1 + E) (actions (lay.pc3Tail M)) r2 S') :
    ∃ c G, lay.AbsRun (lay.pos S + column gap0) (M + 5) c (r1 ++ r2) G ∧ ∀ q ∈ lay.data_qubit_coords, S' (lay.idx q) = G q := by
  obtain ⟨c, R, G, a, l⟩ := pc3_steps hv he hp (by omega) hx h1
  obtain ⟨c0, R0, G0, a0, st, rfl, rfl⟩ := AbsRun.inv (k := 2) a
  have a3 := a0.three hv st
  simp only [hp, if_true] at a3 l
  have hdis : ∀ i : Int, i % 3 ≠ 2 → ∀ e ∈ lay.round_edges i, e ∉ lay.round_edges ((2 : Nat) : Int) := fun i hi e hm hm' =>
    hi (round_edges_disjoint hv hm hm')
  have cz : ∀ i : Int, i % 3 ≠ 2 → ∀ e ∈ lay.round_edges i, (S1 + E) (lay.idx e.center) = S1 (lay.idx e.center) := fun i hi e hm => by
    rw [Pi.add_apply, hE.other _ hi e hm, add_zero]
  have lE : lay.PcLink 3 (S1 + E) (fun e => c0 e + if e ∈ lay.round_edges ((2 : Nat) : Int) then par G0 ((2 : Nat) : Int) e + colFlip e else 0)
      (R0 ++ (lay.round_edges ((2 : Nat) : Int)).map fun e => c0 e + (par G0 ((2 : Nat) : Int) e + colFlip e)) r1 (G + column colError) := by
    constructor
    · intro e hm
      rw [cz _ (by decide) e hm, Pi.add_apply, hE.data _ (left_facts hv hm).1, Pi.add_apply, colError_left hv hm, add_zero, add_zero, l.left e hm]
    · intro q hq hb
      rw [Pi.add_apply, hE.data _ hq, Pi.add_apply, l.right q hq hb]
    · intro e hm
      rw [cz _ (by decide) e hm, Pi.add_apply, colError_left hv hm, add_zero, l.anc e hm]
      simp only [if_neg (hdis _ (by decide) e hm)]
    · intro e hm
      rw [cz _ (by decide) e hm, l.next e hm]
      simp only [if_neg (hdis _ (by decide) e hm)]
    · intro e hm
      have hm2 : e ∈ lay.round_edges ((2 : Nat) : Int) := by
        rw [round_edges_congr lay (r := ((3 : Nat) : Int) + 2) (r' := ((2 : Nat) : Int)) (by decide)] at hm
        exact hm
      rw [Pi.add_apply, Prod.fst_add, l.last e hm, hE.anc e hm2]
      simp only [if_pos hm2]
      ring
    · exact fun h => absurd h (by decide)
    · refine Or.inr ⟨by decide, ?_⟩
      rcases l.pend with ⟨z, -⟩ | ⟨-, z⟩
      · exact absurd z (by decide)
      · have hlen := congrArg List.length z
        simp only [List.length_append, List.length_map] at hlen
        have h23 : lay.round_edges (((3 : Nat) : Int) - 1) = lay.round_edges ((2 : Nat) : Int) := rfl
        rw [h23] at z hlen ⊢
        have := (List.append_inj' z (by simp)).1
        rw [← this]
        congr 1
        refine List.map_congr_left fun e hm => ?_
        simp only [if_pos hm]
  rw [pc3Tail] at h2
  obtain ⟨r3, r4, U2, k2, k3, rfl⟩ := runs_append_actions h2
  obtain ⟨r5, r6, U1, k0, k1, rfl⟩ := runs_append_actions k2
  obtain ⟨c4, R4, G4, a4, l4⟩ := pc3_step hv he (j := 3) (by omega) (a3.steps_fade hp (kicks_3 hv) (par_3 hv)) lE k0
  obtain ⟨c5, R5, G5, a5, l5⟩ := pc3_more hv he hp (by omega) a4 l4 k1
  rw [show M + 5 = 3 + 1 + M + 1 by omega] at k3 ⊢
  have := pc3_last hv he hp a5 l5 k3
  simpa only [List.append_assoc] using this

/-! ## SI1000 -/

theorem si_more (hv : lay.Valid) (he : lay.isEM3 = false) (hp : lay.isPC3 = false) {k M : Nat} (hk : 0 < k) {S S' : Frame} {F0 G : PauliOp} {c : Edge → ZMod 2}
    {R : List (ZMod 2)} (ha : lay.RunFrom k0 c0 R0 F0 (3 * k) c R G) (hl : lay.SiLink 0 0 S G)
    (h : Runs S (actions ((List.range M).flatMap fun i => lay.si1000Emit (k + i))) rec S') :
    ∃ c G, lay.RunFrom k0 c0 R0 F0 (3 * (k + M)) c (R ++ rec) G ∧ lay.SiLink 0 0 S' G := by
  induction M generalizing rec S' with
  | zero =>
    obtain ⟨rfl, rfl⟩ := runs_nil h
    exact ⟨c, G, by rwa [List.append_nil], hl⟩
  | succ M ih =>
    rw [range_succ_flatMap] at h
    obtain ⟨r1, r2, F1, h1, h2, rfl⟩ := runs_append_actions h
    obtain ⟨c, G, a, l⟩ := ih h1
    rw [← List.append_assoc]
    exact si_cycle hv he hp l (fun (h : k + M = 0) => absurd h (by omega)) a h2

/-- The rest of the SI1000 rounds, after the controlled gates of sub-round 2. -/
def si1000Tail (lay : HoneycombLayout) (M : Nat) : List Instr :=
  lay.si1000Back 0 ++ lay.si1000Emit 1 ++ (List.range M).flatMap fun i => lay.si1000Emit (2 + i)

theorem si_column (hv : lay.Valid) (he : lay.isEM3 = false) (hp : lay.isPC3 = false) {M : Nat} {S S1 S' E : Frame}
    (hx : ∀ j, ∀ e ∈ lay.round_edges j, (S (lay.idx e.center)).1 = 0)
    {r1 r2 : List (ZMod 2)} (hE : lay.ColErr (fun r => (0, r)) E) (h1 : Runs S (actions (lay.si1000Front 0)) r1 S1)
    (h2 : Runs (S1 + E) (actions (lay.si1000Tail M)) r2 S') :
    ∃ c G, lay.AbsRun (lay.pos S + column gap0) (3 * (2 + M)) c (r1 ++ r2) G ∧ ∀ q ∈ lay.data_qubit_coords, S' (lay.idx q) = G q := by
  obtain ⟨rfl, G1, G2, G3, st1, st2, st3, v0, v1, v2, l⟩ := si_front hv (j := 0) (G := lay.pos S)
    ⟨fun q _ _ => by rw [rotN_zero (by omega)]; rfl, fun q _ _ => by rw [rotN_zero (by omega)]; rfl⟩ (fun _ => hx) h1
  obtain ⟨c1, a1⟩ := (RunFrom.start (lay := lay) (k0 := 0) (c0 := fun _ => 0) (R0 := []) (F0 := lay.pos S)).step' hp G1 st1
  obtain ⟨c2, a2⟩ := a1.step' hp G2 st2
  have a3 := AbsRun.three hv a2 st3
  simp only [hp, Bool.false_eq_true, if_false] at a3
  have lE : lay.SiLink 0 0 (S1 + E) (G3 + column colError) := by
    constructor
    · intro q hq hb
      rw [Pi.add_apply, hE.data _ hq, l.left q hq hb, Pi.add_apply, rotN_zero (by decide), rotN_zero (by decide)]
    · intro q hq hb
      rw [Pi.add_apply, hE.data _ hq, l.right q hq hb, Pi.add_apply, rotN_zero (by decide), rotN_zero (by decide)]
  rw [si1000Tail] at h2
  obtain ⟨r3, r4, U2, k2, k3, rfl⟩ := runs_append_actions h2
  obtain ⟨r5, r6, U1, k0, k1, rfl⟩ := runs_append_actions k2
  obtain ⟨e0, l0⟩ := si_back hv he lE k0
  have f0 : (lay.round_edges 0).map (fun e => ((S1 + E) (lay.idx e.center)).2) = (lay.round_edges 0).map (par (lay.pos S) 0) :=
    List.map_congr_left fun e hm => by rw [Pi.add_apply, hE.other _ (by decide) e hm, add_zero, v0 e hm]
  have f1 : (lay.round_edges 1).map (fun e => ((S1 + E) (lay.idx e.center)).2) = (lay.round_edges 1).map (par G1 1) :=
    List.map_congr_left fun e hm => by rw [Pi.add_apply, hE.other _ (by decide) e hm, add_zero, v1 e hm]
  have f2 : (lay.round_edges 2).map (fun e => ((S1 + E) (lay.idx e.center)).2) = (lay.round_edges 2).map fun e => par G2 2 e + colFlip e :=
    List.map_congr_left fun e hm => by rw [Pi.add_apply, Prod.snd_add, hE.anc e hm, v2 e hm]
  rw [f0, f1, f2] at e0
  rw [show ([] ++ (lay.round_edges ((0 : Nat) : Int)).map (par (lay.pos S) ((0 : Nat) : Int)) ++
    (lay.round_edges ((0 + 1 : Nat) : Int)).map (par G1 ((0 + 1 : Nat) : Int)) ++
    (lay.round_edges ((2 : Nat) : Int)).map fun e => par G2 ((2 : Nat) : Int) e + colFlip e) = r5 by rw [e0]; rfl] at a3
  -- the next cycle
  rw [si1000Emit_parts] at k1
  obtain ⟨s1, s2, V1, m1, m2, rfl⟩ := runs_append_actions k1
  obtain ⟨rfl, H1, H2, H3, t1, t2, t3, w0, w1, w2, lV⟩ := si_front hv l0 (fun h => absurd h (by decide)) m1
  obtain ⟨eV, lV'⟩ := si_back hv he lV m2
  have b4 := a3.beside (G' := H1) (fun e hm => t1 e hm) (kicks_3 hv) (par_3 hv)
  simp only [hp, Bool.false_eq_true, if_false, add_zero] at b4
  obtain ⟨c5, b5⟩ := b4.step' hp H2 (fun e hm => t2 e hm)
  obtain ⟨c6, b6⟩ := b5.step' hp H3 (fun e hm => t3 e hm)
  have g0 : (lay.round_edges 0).map (fun e => (V1 (lay.idx e.center)).2) = (lay.round_edges ((3 : Nat) : Int)).map (par (G3 + column colError) ((3 : Nat) : Int)) :=
    List.map_congr_left (l := lay.round_edges 0) fun e hm => by rw [w0 e hm]; exact par_congr (by decide) _ _
  have g1 : (lay.round_edges 1).map (fun e => (V1 (lay.idx e.center)).2) = (lay.round_edges ((3 + 1 : Nat) : Int)).map (par H1 ((3 + 1 : Nat) : Int)) :=
    List.map_congr_left (l := lay.round_edges 1) fun e hm => by rw [w1 e hm]; exact par_congr (by decide) _ _
  have g2 : (lay.round_edges 2).map (fun e => (V1 (lay.idx e.center)).2) = (lay.round_edges ((3 + 1 + 1 : Nat) : Int)).map (par H2 ((3 + 1 + 1 : Nat) : Int)) :=
    List.map_congr_left (l := lay.round_edges 2) fun e hm => by rw [w2 e hm]; exact par_congr (by decide) _ _
  rw [g0, g1, g2] at eV
  have b6' : lay.AbsRun (lay.pos S + column gap0) (3 * 2) c6 (r5 ++ s2) H3 := by
    rw [eV, ← List.append_assoc, ← List.append_assoc]
    exact b6
  obtain ⟨c7, G7, b7, l7⟩ := si_more hv he hp (k := 2) (by omega) b6' lV' k3
  exact ⟨c7, G7, by simpa only [List.nil_append, List.append_assoc] using b7, l7.eq⟩

end HoneycombLayout
end Honeycomb
