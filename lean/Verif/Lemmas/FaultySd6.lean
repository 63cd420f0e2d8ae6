import Verif.Lemmas.FaultyStyles

/-! Faulty runs of SD6 circuits. -/

namespace Honeycomb
namespace HoneycombLayout
variable {lay : HoneycombLayout} {F F' : Frame} {rec : List (ZMod 2)} {n : Nat}

/-- A sub-round followed by changes `D` of the frame on the qubits `ds`. -/
theorem FRun.stepD {F0 : PauliOp} {k n : Nat} {c : Edge → ZMod 2} {R : List (ZMod 2)} {G : PauliOp} (h : lay.FRun B F0 k c R G n) (ds : List Pt) (hB : ∀ q ∈ ds, B q)
    (D G' : PauliOp) (hD : ∀ q, q ∉ ds → D q = 0) (hG : ∀ e ∈ lay.round_edges k, ∃ r : ZMod 2,
      G' e.left = G e.left + r • (Basis.ofIdx k).pauli + D e.left ∧ G' e.right = G e.right + r • (Basis.ofIdx k).pauli + D e.right) :
    lay.FRun B F0 (k + 1) (fun e => c e + if e ∈ lay.round_edges k then par G k e else 0)
        (R ++ (lay.round_edges k).map fun e => if lay.isPC3 then c e + par G k e else par G k e) G' (n + ds.length) := by
  have hpp : ∀ p q r : Pauli, p = q + r → p + r = q := by decide
  refine (h.step (fun q => G' q + D q) fun e he => ?_).bump ds hB G' fun q _ hq => ?_
  · obtain ⟨r, h1, h2⟩ := hG e he
    exact ⟨r, hpp _ _ _ h1, hpp _ _ _ h2⟩
  · beta_reduce
    rw [hD q hq, add_zero]

theorem FRun.stepD' {F0 : PauliOp} {k n : Nat} {c : Edge → ZMod 2} {R : List (ZMod 2)} {G : PauliOp} (hp : lay.isPC3 = false) (h : lay.FRun B F0 k c R G n)
    (ds : List Pt) (hB : ∀ q ∈ ds, B q) (D G' : PauliOp) (hD : ∀ q, q ∉ ds → D q = 0) (hG : ∀ e ∈ lay.round_edges k, ∃ r : ZMod 2,
      G' e.left = G e.left + r • (Basis.ofIdx k).pauli + D e.left ∧ G' e.right = G e.right + r • (Basis.ofIdx k).pauli + D e.right) :
    ∃ c', lay.FRun B F0 (k + 1) c' (R ++ (lay.round_edges k).map (par G k)) G' (n + ds.length) := by
  have := h.stepD ds hB D G' hD hG
  simp only [hp, Bool.false_eq_true, if_false] at this
  exact ⟨_, this⟩

/-- `SdLink` with faults `D` on the first half of the data qubits since their interaction. -/
structure SdFLink (lay : HoneycombLayout) (a b k : Int) (S : Frame) (G D : PauliOp) : Prop where
  left : ∀ e ∈ lay.round_edges k, S (lay.idx e.left) = rotN a (G e.left + (S (lay.idx e.center)).2 • (Basis.ofIdx k).pauli + D e.left)
  right : ∀ q ∈ lay.data_qubit_coords, dataQubitParity q = true → S (lay.idx q) = rotN b (G q)
  anc : ∀ e ∈ lay.round_edges k, (S (lay.idx e.center)).1 = anti (G e.left) (Basis.ofIdx k).pauli
  only : ∀ q, dataQubitParity q = true → D q = 0

theorem SdLink.toF {a b k : Int} {S : Frame} {G : PauliOp} (h : lay.SdLink a b k S G) : lay.SdFLink a b k S G (fun _ => 0) :=
  ⟨fun e he => by
    have h1 := h.left e he
    beta_reduce
    rw [add_zero]; exact h1, h.right, h.anc, fun _ _ => rfl⟩

theorem rotN_addP (a : Int) (p p' : Pauli) : rotN a (p + p') = rotN a p + rotN a p' := by
  have h : a % 3 = 0 ∨ a % 3 = 1 ∨ a % 3 = 2 := by omega
  rcases h with h | h | h
  · rw [rotN_congr (n' := 0) (by omega), rotN_congr (n := a) (n' := 0) (by omega), rotN_congr (n := a) (n' := 0) (by omega)]; revert p p'; decide
  · rw [rotN_congr (n' := 1) (by omega), rotN_congr (n := a) (n' := 1) (by omega), rotN_congr (n := a) (n' := 1) (by omega)]; revert p p'; decide
  · rw [rotN_congr (n' := 2) (by omega), rotN_congr (n := a) (n' := 2) (by omega), rotN_congr (n := a) (n' := 2) (by omega)]; revert p p'; decide

/-- The points of one half. -/
def half (b : Bool) (ps : List Pt) : List Pt := ps.filter fun q => dataQubitParity q == b

theorem half_length (ps : List Pt) : (half true ps).length + (half false ps).length = ps.length := by
  induction ps with
  | nil => rfl
  | cons q l ih =>
    simp only [half, List.filter_cons] at ih ⊢
    cases dataQubitParity q <;> simp at ih ⊢ <;> omega

theorem not_mem_half {b : Bool} {ps : List Pt} {q : Pt} (hb : dataQubitParity q = b) (h : q ∉ half b ps) : q ∉ ps := fun hm =>
  h (List.mem_filter.2 ⟨hm, by simp [hb]⟩)

theorem SdFLink.perturb (hv : lay.Valid) {a b k : Int} {S S' : Frame} {G D : PauliOp} {ps ds : List Pt} (hl : lay.SdFLink a b k S G D) (hD : ∀ q, q ∉ ds → D q = 0)
    (hd : lay.DNear B ps S S') : ∃ G' D' : PauliOp, lay.SdFLink a b k S' G' D' ∧ (∀ q ∈ lay.data_qubit_coords, q ∉ half true ps → G' q = G q) ∧
      ∀ q, q ∉ ds ++ half false ps → D' q = 0 := by
  have hself : ∀ p : Pauli, p + p = 0 := by decide
  refine ⟨fun q => if dataQubitParity q then rotN (-b) (S' (lay.idx q)) else G q,
    fun q => if dataQubitParity q then 0 else if q ∈ lay.data_qubit_coords then D q + (rotN (-a) (S' (lay.idx q)) + rotN (-a) (S (lay.idx q))) else D q, ⟨?_, ?_, ?_, ?_⟩, ?_, ?_⟩
  · intro e he
    obtain ⟨f1, f2⟩ := left_facts hv he
    simp only [f2, f1, Bool.false_eq_true, if_false, if_true]
    rw [hd.centers k e he, ← add_assoc, rotN_addP, hl.left e he, ← hl.left e he, rotN_addP, rotN_inv, rotN_inv]
    generalize S (lay.idx e.left) = p
    generalize S' (lay.idx e.left) = p'
    revert p p'; decide
  · intro q hq hp
    simp only [hp, if_true]
    rw [rotN_inv]
  · intro e he
    obtain ⟨f1, f2⟩ := left_facts hv he
    simp only [f2, Bool.false_eq_true, if_false]
    rw [hd.centers k e he]
    exact hl.anc e he
  · intro q hp
    simp only [hp, if_true]
  · intro q hq hn
    rcases hp : dataQubitParity q with _ | _
    · simp [hp]
    · simp only [hp, if_true]
      rw [hd.data q hq (not_mem_half hp hn), hl.right q hq hp, rotN_rotN, rotN_zero (by omega)]
  · intro q hn
    rw [List.mem_append, not_or] at hn
    rcases hp : dataQubitParity q with _ | _
    · simp only [hp, Bool.false_eq_true, if_false]
      split_ifs with hq
      · rw [hD q hn.1, hd.data q hq (not_mem_half hp hn.2), hself, zero_add]
      · exact hD q hn.1
    · simp [hp]

/-- Both halves of the controlled gates, for consecutive sub-rounds. -/
theorem sd6_fcross (hv : lay.Valid) {k : Int} {S S' : Frame} {G D : PauliOp} (hl : lay.SdFLink (k + 2) (k + 1) k S G D)
    (hx : ∀ e ∈ lay.round_edges (k + 1), (S (lay.idx e.center)).1 = 0)
    (h : Runs S (actions ((lay.subRound2qOps (k + 1)).1 ++ (lay.subRound2qOps k).2)) rec S') :
    rec = [] ∧ ∃ G' : PauliOp, (∀ e ∈ lay.round_edges k, ∃ r : ZMod 2, G' e.left = G e.left + r • (Basis.ofIdx k).pauli + D e.left ∧
        G' e.right = G e.right + r • (Basis.ofIdx k).pauli + D e.right) ∧
      (∀ e ∈ lay.round_edges k, (S' (lay.idx e.center)).1 = par G k e) ∧ lay.SdLink (k + 2) (k + 1) (k + 1) S' G' := by
  obtain ⟨r1, r2, S1, h1, h2, rfl⟩ := runs_append_actions h
  obtain ⟨rfl, a1, a2, a3⟩ := eff_left hv (g := .CX) (P := .Z) (Q := .X) (Or.inr ⟨rfl, rfl⟩) h1
  obtain ⟨rfl, b1, b2, b3⟩ := eff_right hv (g := .CX) (P := .Z) (Q := .X) (Or.inr ⟨rfl, rfl⟩) h2
  have er : ∀ e ∈ lay.round_edges k, S' (lay.idx e.right) = rotN (k + 1) (G e.right + (S (lay.idx e.center)).2 • (Basis.ofIdx k).pauli) := by
    intro e he
    obtain ⟨f1, f2⟩ := right_facts hv he
    rw [(b1 e he).1, a2 _ f1 f2, hl.right _ f1 f2, a3 k (by omega) e he, anti_X, rotN_add]
  refine ⟨rfl, fun q => if dataQubitParity q then rotN (-(k + 1)) (S' (lay.idx q)) else rotN (-(k + 2)) (S (lay.idx q)), ?_, ?_, ?_, ?_, ?_⟩
  · intro e he
    refine ⟨(S (lay.idx e.center)).2, ?_, ?_⟩
    · simp only [(left_facts hv he).2, Bool.false_eq_true, if_false]
      rw [hl.left e he, rotN_rotN, rotN_zero (by omega)]
    · simp only [(right_facts hv he).2, if_true]
      rw [er e he, rotN_rotN, rotN_zero (by omega), hl.only _ (right_facts hv he).2, add_zero]
  · intro e he
    obtain ⟨f1, f2⟩ := right_facts hv he
    rw [(b1 e he).2, Prod.fst_add, smul_X_fst, a3 k (by omega) e he, hl.anc e he, a2 _ f1 f2, hl.right _ f1 f2, anti_Z, rotN_fst, par]
  · intro e he
    obtain ⟨f1, f2⟩ := left_facts hv he
    simp only [f2, Bool.false_eq_true, if_false]
    have hz : (S' (lay.idx e.center)).2 = (S (lay.idx e.center)).2 := by
      rw [b3 (k + 1) (by omega) e he, (a1 e he).2, Prod.snd_add, smul_X_snd, add_zero]
    rw [hz, b2 _ f1 f2, (a1 e he).1, anti_X, show k + 2 = k + 1 + 1 by ring, ← rotN_add, rotN_inv]
  · intro q hq hp
    simp only [hp, if_true]
    rw [rotN_inv]
  · intro e he
    obtain ⟨f1, f2⟩ := left_facts hv he
    simp only [f2, Bool.false_eq_true, if_false]
    rw [b3 (k + 1) (by omega) e he, (a1 e he).2, Prod.fst_add, smul_X_fst, hx e he, zero_add, anti_Z, ← rotN_fst, show k + 1 + 1 = k + 2 by ring, rotN_inv]

theorem sd6_fstep (hv : lay.Valid) (he : lay.isEM3 = false) {k : Nat} {S S' : Frame} {G D : PauliOp} (hl : lay.SdFLink (k + 2) (k + 1) k S G D)
    (hx : ∀ e ∈ lay.round_edges ((k : Int) + 1), (S (lay.idx e.center)).1 = 0) (h : Runs S (actions (lay.sd6Emit k)) rec S') :
    ∃ G' : PauliOp, rec = (lay.round_edges k).map (par G k) ∧
      (∀ e ∈ lay.round_edges k, ∃ r : ZMod 2, G' e.left = G e.left + r • (Basis.ofIdx k).pauli + D e.left ∧
        G' e.right = G e.right + r • (Basis.ofIdx k).pauli + D e.right) ∧
      lay.SdLink (k + 3) (k + 2) (k + 1) S' G' ∧ ∀ e ∈ lay.round_edges ((k : Int) + 2), (S' (lay.idx e.center)).1 = 0 := by
  rw [sd6Emit] at h
  obtain ⟨r1, t1, S5, g1, ht, rfl⟩ := runs_append_actions h
  obtain ⟨rfl, rfl⟩ := runs_tick ht
  obtain ⟨r2, rm, S4, g2, hm, rfl⟩ := runs_append_actions g1
  obtain ⟨r3, rc, S3, g3, hc, rfl⟩ := runs_append_actions g2
  obtain ⟨r4, rr, S2, g4, hr, rfl⟩ := runs_append_actions g3
  obtain ⟨r5, t2, S1, g5, ht2, rfl⟩ := runs_append_actions g4
  obtain ⟨rfl, rfl⟩ := runs_tick ht2
  obtain ⟨rfl, G', st, pv, l⟩ := sd6_fcross hv hl hx g5
  obtain ⟨rfl, a1, a2, a3⟩ := eff_resets hv hr
  obtain ⟨rfl, b1, b2⟩ := eff_cycle hv hc
  obtain ⟨e1, c1, c2, c3⟩ := eff_md hv he hm
  have hcen : lay.SameC S2 S' ((k : Int) + 1) := fun e hm => by
    rw [c3 _ (by omega) e hm, b2 _ e hm, a3 _ (by omega) e hm]
  refine ⟨G', ?_, st, ⟨?_, ?_, ?_⟩, ?_⟩
  · simp only [List.nil_append, List.append_nil]
    rw [e1]
    refine List.map_congr_left fun e hm => ?_
    rw [b2 _ e hm, a3 _ (by omega) e hm, pv e hm]
  · intro e hm
    obtain ⟨f1, f2⟩ := left_facts hv hm
    rw [c1 _ _ f1 f2, b1 _ f1, a2 _ _ f1 f2, l.left e hm, hcen e hm, rot_rotN]
    exact rotN_congr (by omega) _
  · intro q hq hp
    rw [c1 _ _ hq hp, b1 _ hq, a2 _ _ hq hp, l.right q hq hp, rot_rotN]
    exact rotN_congr (by omega) _
  · intro e hm
    rw [hcen e hm, l.anc e hm]
  · intro e hm
    rw [c3 _ (by omega) e hm, b2 _ e hm, a1 e hm]

/-! ### Interactions -/

theorem budget_2q1 (hv : lay.Valid) (k : Int) : lay.Budget [0] (lay.subRound2qOps k).1 :=
  (budget_on hv (g := .CX) (by simp) (covers_left hv k)).mono (by have := cc_ne k; simp [this])

theorem budget_2q2 (hv : lay.Valid) (k : Int) : lay.Budget [1] (lay.subRound2qOps k).2 :=
  (budget_on hv (g := .CX) (by simp) (covers_right hv k)).mono (by have := cc_ne k; simp [this])

theorem budget_resets (hv : lay.Valid) (k : Int) : lay.Budget [] (lay.subRoundResets k) :=
  (budget_on hv (g := .R) (by simp) (covers_centers hv k)).mono (by have := cc_ne k; simp [this])

theorem budget_cycle (a b : Bool) : lay.Budget [] (lay.cycleData a b) := by
  rw [cycleData]
  split_ifs
  · exact budget_clifford (actions_C_ZYX _)
  · exact budget_clifford (actions_C_ZYX _)
  · exact budget_clifford (actions_C_ZYX _)
  · exact budget_nil

theorem budget_sd6Emit (hv : lay.Valid) (he : lay.isEM3 = false) (k : Nat) : lay.Budget [0, 1] (lay.sd6Emit k) := by
  rw [sd6Emit]
  exact ((((((budget_2q1 hv _).append (budget_2q2 hv _) (by simp)).idle_right budget_tick).idle_right (budget_resets hv _)).idle_right
    (budget_cycle _ _)).idle_right (budget_md hv he k)).idle_right budget_tick

theorem budget_sd6Start (hv : lay.Valid) : lay.Budget [0] lay.sd6Start := by
  rw [sd6Start]
  exact ((((((((budget_resets hv 0).idle_right (budget_cycle _ _)).idle_right budget_tick).append (budget_2q1 hv _) (by simp)).idle_right
    budget_tick).idle_right (budget_resets hv 1)).idle_right (budget_cycle _ _)).idle_right budget_tick)

/-- The end of the pipeline up to the measurements of the last sub-round but one. -/
def sd6End1 (lay : HoneycombLayout) (k : Nat) : List Instr :=
  (lay.subRound2qOps ((k : Int) + 1)).1 ++ (lay.subRound2qOps (k : Int)).2 ++ [.tick] ++ lay.emitMD k ++ [.tick]

/-- The last sub-round. -/
def sd6End2 (lay : HoneycombLayout) (k : Nat) : List Instr :=
  lay.cycleData false true ++ [.tick] ++ (lay.subRound2qOps ((k : Int) + 1)).2 ++ [.tick] ++ lay.emitMD (k + 1)

theorem sd6End_split (k : Nat) : lay.sd6EndEmit (k + 2) = lay.sd6End1 k ++ lay.sd6End2 k := by
  rw [sd6EndEmit, show k + 2 - 2 = k by omega, show k + 2 - 1 = k + 1 by omega, show ((k + 2 : Nat) : Int) - 1 = (k : Int) + 1 by omega,
    show ((k + 2 : Nat) : Int) - 2 = (k : Int) by omega, sd6End1, sd6End2]
  simp only [List.append_assoc]

theorem budget_sd6End1 (hv : lay.Valid) (he : lay.isEM3 = false) (k : Nat) : lay.Budget [0, 1] (lay.sd6End1 k) := by
  rw [sd6End1]
  exact ((((budget_2q1 hv _).append (budget_2q2 hv _) (by simp)).idle_right budget_tick).idle_right (budget_md hv he k)).idle_right budget_tick

theorem budget_sd6End2 (hv : lay.Valid) (he : lay.isEM3 = false) (k : Nat) : lay.Budget [1] (lay.sd6End2 k) := by
  rw [sd6End2]
  exact ((((budget_cycle _ _).idle_right budget_tick).append (budget_2q2 hv _) (by simp)).idle_right budget_tick).idle_right (budget_md hv he _)

theorem budget_sd6Realign : lay.Budget [] lay.sd6Realign := by
  rw [sd6Realign]
  refine Budget.idle_right ?_ budget_tick
  split_ifs
  · exact budget_clifford (actions_C_ZYX _)
  · exact budget_clifford (actions_C_XYZ _)
  · exact budget_nil

/-- A run together with faults that have not taken effect yet. -/
def SdState (lay : HoneycombLayout) (B : Pt → Prop) (F0 : PauliOp) (a b : Int) (k : Nat) (R : List (ZMod 2)) (S : Frame) (n : Nat) : Prop :=
  ∃ c G D, ∃ ds : List Pt, ∃ m, lay.FRun B F0 k c R G m ∧ lay.SdFLink a b k S G D ∧ (∀ q, q ∉ ds → D q = 0) ∧ m + ds.length = n ∧ ∀ q ∈ ds, B q

theorem SdState.perturb (hv : lay.Valid) {F0 : PauliOp} {a b : Int} {k : Nat} {R : List (ZMod 2)} {S S' : Frame} {ps : List Pt}
    (h : lay.SdState B F0 a b k R S n) (hd : lay.DNear B ps S S') : lay.SdState B F0 a b k R S' (n + ps.length) := by
  obtain ⟨c, G, D, ds, m, hr, hl, hD, rfl, hB⟩ := h
  obtain ⟨G', D', l', hG, hD'⟩ := hl.perturb hv hD hd
  refine ⟨c, G', D', ds ++ half false ps, m + (half true ps).length, hr.bump _ (fun q hq => hd.sub q (List.mem_filter.1 hq).1) _ hG, l', hD', ?_, fun q hq => ?_⟩
  · have := half_length ps
    rw [List.length_append]
    omega
  · rcases List.mem_append.1 hq with hq | hq
    · exact hB q hq
    · exact hd.sub q (List.mem_filter.1 hq).1

theorem SdState.start (hv : lay.Valid) {S S' : Frame} (h : FaultyRuns (lay.IsIn B) S lay.sd6Start rec S' n) :
    lay.SdState B (lay.pos S) 2 1 0 rec S' n ∧ ∀ e ∈ lay.round_edges 1, (S' (lay.idx e.center)).1 = 0 := by
  obtain ⟨p1, p2, F1, F2, d1, g, d2, rfl⟩ := segment hv (budget_sd6Start hv) h
  obtain ⟨rfl, l, x⟩ := sd6_start hv g
  have h0 : lay.SdState B (lay.pos S) 2 1 0 [] F2 (0 + p1.length) :=
    ⟨_, _, _, [], _, FRun.start.bump' d1, l.toF, fun _ _ => rfl, rfl, by simp⟩
  have := h0.perturb hv d2
  rw [Nat.zero_add] at this
  exact ⟨this, fun e he => by rw [d2.centers 1 e he]; exact x e he⟩

theorem SdState.step (hv : lay.Valid) (he : lay.isEM3 = false) (hp : lay.isPC3 = false) {F0 : PauliOp} {k m : Nat} {R : List (ZMod 2)} {S S' : Frame}
    (hs : lay.SdState B F0 (k + 2) (k + 1) k R S m) (hx : ∀ e ∈ lay.round_edges ((k : Int) + 1), (S (lay.idx e.center)).1 = 0)
    (h : FaultyRuns (lay.IsIn B) S (lay.sd6Emit k) rec S' n) :
    lay.SdState B F0 (k + 3) (k + 2) (k + 1) (R ++ rec) S' (m + n) ∧ ∀ e ∈ lay.round_edges ((k : Int) + 2), (S' (lay.idx e.center)).1 = 0 := by
  obtain ⟨p1, p2, F1, F2, d1, g, d2, rfl⟩ := segment hv (budget_sd6Emit hv he k) h
  obtain ⟨c, G, D, ds, m', hr, hl, hD, e, hB⟩ := hs.perturb hv d1
  obtain ⟨G', rfl, st, l', x'⟩ := sd6_fstep hv he hl (fun e he => by rw [d1.centers _ e he]; exact hx e he) g
  obtain ⟨c', hr'⟩ := hr.stepD' hp ds hB D G' hD st
  have h1 : lay.SdState B F0 (k + 3) (k + 2) (k + 1) (R ++ (lay.round_edges k).map (par G k)) F2 (m' + ds.length) :=
    ⟨_, _, _, [], _, hr', l'.toF, fun _ _ => rfl, rfl, by simp⟩
  have := h1.perturb hv d2
  rw [e, Nat.add_assoc] at this
  exact ⟨this, fun e he => by rw [d2.centers _ e he]; exact x' e he⟩

theorem sd6_fsteps (hv : lay.Valid) (he : lay.isEM3 = false) (hp : lay.isPC3 = false) {M : Nat} {S S' : Frame}
    (h : FaultyRuns (lay.IsIn B) S (lay.sd6Start ++ (List.range M).flatMap lay.sd6Emit) rec S' n) :
    lay.SdState B (lay.pos S) (M + 2) (M + 1) M rec S' n ∧ ∀ e ∈ lay.round_edges ((M : Int) + 1), (S' (lay.idx e.center)).1 = 0 := by
  induction M generalizing rec S' n with
  | zero =>
    rw [List.range_zero, List.flatMap_nil, List.append_nil] at h
    exact SdState.start hv h
  | succ M ih =>
    rw [range_succ_flatMap, ← List.append_assoc] at h
    obtain ⟨r1, r2, F1, n1, n2, h1, h2, rfl, rfl⟩ := h.append
    obtain ⟨a, x⟩ := ih h1
    have := a.step hv he hp x h2
    push_cast
    rw [show (M : Int) + 1 + 2 = M + 3 by ring, show (M : Int) + 1 + 1 = M + 2 by ring]
    exact this

theorem sd6_fend (hv : lay.Valid) (he : lay.isEM3 = false) (hp : lay.isPC3 = false) {k m : Nat} {S S' : Frame} {F0 : PauliOp}
    {R : List (ZMod 2)} (hs : lay.SdState B F0 (k + 2) (k + 1) k R S m)
    (hx : ∀ e ∈ lay.round_edges ((k : Int) + 1), (S (lay.idx e.center)).1 = 0) (h : FaultyRuns (lay.IsIn B) S (lay.sd6EndEmit (k + 2)) rec S' n) :
    ∃ c' G', lay.FRun B F0 (k + 2) c' (R ++ rec) G' (m + n) ∧ ∀ q ∈ lay.data_qubit_coords, S' (lay.idx q) = rotN (k + 2) (G' q) := by
  rw [sd6End_split] at h
  obtain ⟨ra, rb, T, n1, n2, h1, h2, rfl, rfl⟩ := h.append
  obtain ⟨p1, p2, A1, A2, d1, g1, d2, rfl⟩ := segment hv (budget_sd6End1 hv he k) h1
  obtain ⟨p3, p4, B1, B2, d3, g2, d4, rfl⟩ := segment hv (budget_sd6End2 hv he k) h2
  -- the last sub-round but one
  obtain ⟨c, G, D, ds, m', hr, hl, hD, em, hB⟩ := hs.perturb hv d1
  rw [sd6End1] at g1
  obtain ⟨r6, t6, S4, g6, ht6, rfl⟩ := runs_append_actions g1
  obtain ⟨rfl, rfl⟩ := runs_tick ht6
  obtain ⟨r7, rm, S3, g7, hm, rfl⟩ := runs_append_actions g6
  obtain ⟨r8, t8, S2, g8, ht8, rfl⟩ := runs_append_actions g7
  obtain ⟨rfl, rfl⟩ := runs_tick ht8
  obtain ⟨rfl, G1, st, pv, l⟩ := sd6_fcross hv hl (fun e he => by rw [d1.centers _ e he]; exact hx e he) g8
  obtain ⟨e1, c1, c2, c3⟩ := eff_md hv he hm
  obtain ⟨ca, ra1⟩ := hr.stepD' hp ds hB D G1 hD st
  have e1' : rm = (lay.round_edges k).map (par G k) := by
    rw [e1]
    exact List.map_congr_left fun e hm => pv e hm
  have l1 : lay.SdLink (k + 2) (k + 1) (k + 1) A2 G1 := by
    constructor
    · intro e hm
      obtain ⟨f1, f2⟩ := left_facts hv hm
      rw [c1 _ _ f1 f2, c3 _ (by omega) e hm]
      exact l.left e hm
    · intro q hq hb
      rw [c1 _ _ hq hb]
      exact l.right q hq hb
    · intro e hm
      rw [c3 _ (by omega) e hm]
      exact l.anc e hm
  have s1 : lay.SdState B F0 (k + 2) (k + 1) (k + 1) (R ++ rm) A2 (m' + ds.length) := by
    rw [e1']
    exact ⟨_, _, _, [], _, ra1, l1.toF, fun _ _ => rfl, rfl, by simp⟩
  obtain ⟨cb, H, E, es, m2, hr2, hl2, hE, em2, hB2⟩ := (s1.perturb hv d2).perturb hv d3
  -- the last sub-round
  rw [sd6End2] at g2
  obtain ⟨r1, rm1, S9, k1, hm1, rfl⟩ := runs_append_actions g2
  obtain ⟨r2, t2, S8, k2, ht2, rfl⟩ := runs_append_actions k1
  obtain ⟨rfl, rfl⟩ := runs_tick ht2
  obtain ⟨r3, rx, S7, k3, hr', rfl⟩ := runs_append_actions k2
  obtain ⟨r5, rc, S5, hc, ht4, rfl⟩ := runs_append_actions k3
  obtain ⟨rfl, rfl⟩ := runs_tick ht4
  obtain ⟨rfl, b1, b2, b3⟩ := eff_2nd hv hc
  obtain ⟨rfl, q1, q2, q3⟩ := eff_right hv (g := .CX) (P := .Z) (Q := .X) (Or.inr ⟨rfl, rfl⟩) hr'
  obtain ⟨e2, f1, f2, f3⟩ := eff_md hv he hm1
  have hrt : ∀ e ∈ lay.round_edges ((k : Int) + 1), S7 (lay.idx e.right) = rotN (k + 1 + 1) (H e.right) := fun e hm => by
    obtain ⟨g1, g2⟩ := right_facts hv hm
    rw [b1 _ g1 g2, hl2.right _ g1 g2, rot_rotN]
  obtain ⟨cd, a2⟩ := hr2.stepD' hp es hB2 E (fun q => rotN (-(k + 2)) (B2 (lay.idx q))) hE (by
    intro e hm
    have hm : e ∈ lay.round_edges ((k : Int) + 1) := hm
    obtain ⟨g1, g2⟩ := right_facts hv hm
    obtain ⟨g3, g4⟩ := left_facts hv hm
    refine ⟨(B1 (lay.idx e.center)).2, ?_, ?_⟩
    · push_cast
      rw [f1 _ _ g3 g4, q2 _ g3 g4, b2 _ g3 g4, hl2.left e hm, rotN_rotN, rotN_zero (by omega)]
      push_cast
      rfl
    · push_cast
      rw [f1 _ _ g1 g2, (q1 e hm).1, hrt e hm, b3 _ e hm, anti_X, rotN_add, rotN_rotN, rotN_zero (by omega), hl2.only _ g2, add_zero])
  have e2' : rm1 = (lay.round_edges ((k + 1 : Nat) : Int)).map (par H ((k + 1 : Nat) : Int)) := by
    rw [e2]
    refine List.map_congr_left fun e hm => ?_
    have hm : e ∈ lay.round_edges ((k : Int) + 1) := hm
    rw [(q1 e hm).2, Prod.fst_add, smul_X_fst, b3 _ e hm, hl2.anc e hm, hrt e hm, anti_Z, rotN_fst, par]
    push_cast
    rfl
  have a3 := a2.bump p4 d4.sub (fun q => rotN (-(k + 2)) (S' (lay.idx q))) (fun q hq hn => by
    beta_reduce
    rw [d4.data q hq hn])
  refine ⟨cd, fun q => rotN (-(k + 2)) (S' (lay.idx q)), ?_, fun q _ => ?_⟩
  · simp only [List.nil_append, List.append_nil]
    rw [e2', ← List.append_assoc]
    convert a3 using 1
    omega
  · simp only
    rw [rotN_inv]

/-- The only sub-round. -/
def sd6One (lay : HoneycombLayout) : List Instr :=
  lay.subRoundResets 0 ++ lay.cycleData true true ++ [.tick] ++ (lay.subRound2qOps 0).1 ++ [.tick] ++ (lay.subRound2qOps 0).2 ++ [.tick] ++ lay.emitMD 0

theorem budget_sd6One (hv : lay.Valid) (he : lay.isEM3 = false) : lay.Budget [0, 1] lay.sd6One := by
  rw [sd6One]
  exact (((((((budget_resets hv 0).idle_right (budget_cycle _ _)).idle_right budget_tick).append (budget_2q1 hv _) (by simp)).idle_right
    budget_tick).append (budget_2q2 hv _) (by simp)).idle_right budget_tick).idle_right (budget_md hv he 0)

theorem AbsRun.toF {F0 : PauliOp} {k : Nat} {c : Edge → ZMod 2} {R : List (ZMod 2)} {G : PauliOp} (h : lay.AbsRun F0 k c R G) :
    ∀ {F1 : PauliOp} {n : Nat}, lay.FRun B F1 0 (fun _ => 0) [] F0 n → lay.FRun B F1 k c R G n := by
  induction h with
  | start => exact fun h => h
  | step h F' hF ih => exact fun h0 => (ih h0).step F' hF

theorem sd6_frun (hv : lay.Valid) (he : lay.isEM3 = false) (hp : lay.isPC3 = false) {N : Nat} (hN : lay.sub_rounds = N) (h1 : 1 ≤ N) {S S' : Frame}
    (h : FaultyRuns (lay.IsIn B) S (lay.sd6All N) rec S' n) :
    ∃ c G, lay.FRun B (lay.pos S) N c rec G n ∧ ∀ q ∈ lay.data_qubit_coords, S' (lay.idx q) = G q := by
  -- the last basis change
  have fin : ∀ {n1 n2 : Nat} {r1 r2 : List (ZMod 2)} {T : Frame} {c : Edge → ZMod 2} {G : PauliOp}, lay.FRun B (lay.pos S) N c r1 G n1 →
      (∀ q ∈ lay.data_qubit_coords, T (lay.idx q) = rotN N (G q)) → FaultyRuns (lay.IsIn B) T lay.sd6Realign r2 S' n2 →
      ∃ c G, lay.FRun B (lay.pos S) N c (r1 ++ r2) G (n1 + n2) ∧ ∀ q ∈ lay.data_qubit_coords, S' (lay.idx q) = G q := by
    intro n1 n2 r1 r2 T c G hr e h2
    obtain ⟨p1, p2, A1, A2, d1, g, d2, rfl⟩ := segment hv budget_sd6Realign h2
    have hb := hr.bump p1 d1.sub (fun q => rotN (-N) (A1 (lay.idx q))) (fun q hq hn => by
      beta_reduce
      rw [d1.data q hq hn, e q hq, rotN_rotN, rotN_zero (by omega)])
    obtain ⟨rfl, e'⟩ := sd6_realign hv hN (G := fun q => rotN (-N) (A1 (lay.idx q))) (fun q _ => by rw [rotN_inv]) g
    have hb2 := hb.bump p2 d2.sub (fun q => S' (lay.idx q)) (fun q hq hn => by
      beta_reduce
      rw [d2.data q hq hn, e' q hq])
    rw [Nat.add_assoc] at hb2
    exact ⟨c, _, by rw [List.append_nil]; exact hb2, fun q _ => rfl⟩
  rw [sd6All] at h
  split_ifs at h with hN1
  · obtain ⟨r1, r2, S1, n1, n2, g1, g2, rfl, rfl⟩ := h.append
    obtain ⟨p1, p2, A1, A2, d1, g, d2, rfl⟩ := segment hv (budget_sd6One hv he) g1
    obtain ⟨c, G, a, e⟩ := sd6_single hv he hp g
    subst hN1
    have hb := (a.toF (FRun.start.bump' d1)).bump p2 d2.sub (fun q => rotN (-1) (S1 (lay.idx q))) (fun q hq hn => by
      beta_reduce
      rw [d2.data q hq hn, e q hq, rotN_rotN, rotN_zero (by omega)])
    rw [Nat.zero_add] at hb
    exact fin hb (fun q _ => by rw [show ((1 : Nat) : Int) = 1 from rfl, rotN_inv]) g2
  · obtain ⟨r1, r2, S1, n1, n2, g1, g2, rfl, rfl⟩ := h.append
    obtain ⟨r3, r4, S2, n3, n4, g3, g4, rfl, rfl⟩ := g1.append
    obtain ⟨M, rfl⟩ : ∃ M, N = M + 2 := ⟨N - 2, by omega⟩
    rw [show M + 2 - 2 = M by omega] at g3
    obtain ⟨a, x⟩ := sd6_fsteps hv he hp g3
    obtain ⟨c', G', a', e⟩ := sd6_fend hv he hp a x g4
    exact fin a' (by push_cast; exact e) g2

end HoneycombLayout
end Honeycomb
