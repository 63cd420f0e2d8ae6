import Verif.Lemmas.Budget
import Verif.Lemmas.PhysClosed

/-! Faulty runs of each style. -/

namespace Honeycomb
namespace HoneycombLayout
variable {lay : HoneycombLayout} {F F' : Frame} {rec : List (ZMod 2)} {n : Nat}

/-- Frames that agree on all data qubits except `ps`, which are in `B`, and on all ancillas. -/
structure DNear (lay : HoneycombLayout) (B : Pt → Prop) (ps : List Pt) (F F' : Frame) : Prop where
  data : ∀ q ∈ lay.data_qubit_coords, q ∉ ps → F' (lay.idx q) = F (lay.idx q)
  centers : ∀ j, lay.SameC F F' j
  sub : ∀ p ∈ ps, B p

theorem center_not_data (hv : lay.Valid) {j : Int} {e : Edge} (he : e ∈ lay.round_edges j) {p : Pt} (hp : p ∈ lay.data_qubit_coords) :
    lay.idx e.center ≠ lay.idx p := by
  intro h
  obtain ⟨h1, h2⟩ := center_class hv he
  obtain ⟨h3, h4⟩ := data_class hp
  rw [idx_inj hv h1 h3 h, h4] at h2
  have := cc_ne j
  revert h2
  cases dataQubitParity p <;> simp <;> intro h2 <;> omega

theorem dnear_of (hv : lay.Valid) {qs : List Nat} (hq : ∀ q ∈ qs, (lay.IsIn B) q) (h : Near qs F F') :
    ∃ ps : List Pt, ps.length = qs.length ∧ lay.DNear B ps F F' := by
  have hex : ∃ ps : List Pt, (∀ p ∈ ps, p ∈ lay.data_qubit_coords ∧ B p) ∧ ps.map lay.idx = qs := by
    clear h
    induction qs with
    | nil => exact ⟨[], by simp, rfl⟩
    | cons q qs ih =>
      obtain ⟨ps, h1, h2⟩ := ih fun q hm => hq q (List.mem_cons_of_mem _ hm)
      obtain ⟨p, hp, hb, e⟩ := hq q List.mem_cons_self
      refine ⟨p :: ps, fun x hx => ?_, by rw [List.map_cons, e, h2]⟩
      rcases List.mem_cons.1 hx with rfl | hx
      · exact ⟨hp, hb⟩
      · exact h1 x hx
  obtain ⟨ps, h1, h2⟩ := hex
  refine ⟨ps, by rw [← h2, List.length_map], fun q hq hn => h _ ?_, fun j e he => h _ ?_, fun p hp => (h1 p hp).2⟩
  · rw [← h2]
    intro hm
    obtain ⟨p, hp, e⟩ := List.mem_map.1 hm
    rw [idx_inj hv (data_class (h1 p hp).1).1 (data_class hq).1 e] at hp
    exact hn hp
  · rw [← h2]
    intro hm
    obtain ⟨p, hp, e'⟩ := List.mem_map.1 hm
    exact center_not_data hv he (h1 p hp).1 e'.symm

/-- The faults of a stretch of circuit moved to its ends. -/
theorem segment (hv : lay.Valid) {cs : List Nat} {l : List Instr} (hb : lay.Budget cs l) (h : FaultyRuns (lay.IsIn B) F l rec F' n) :
    ∃ (ps1 ps2 : List Pt) (F1 F2 : Frame), lay.DNear B ps1 F F1 ∧ Runs F1 (actions l) rec F2 ∧ lay.DNear B ps2 F2 F' ∧ ps1.length + ps2.length = n := by
  obtain ⟨qs1, qs2, F1, F2, n1, hr, n2, s1, s2, hn⟩ := h.normal (hb.once.imp fun h q hq => h q hq.data)
  obtain ⟨ps1, l1, d1⟩ := dnear_of hv s1 n1
  obtain ⟨ps2, l2, d2⟩ := dnear_of hv s2 n2
  exact ⟨ps1, ps2, F1, F2, d1, hr, d2, by omega⟩

/-! ## EM3 -/

theorem budget_em3 (hv : lay.Valid) (he : lay.isEM3 = true) (k : Nat) : lay.Budget [0, 1] (lay.em3Emit k) := by
  have h2 : lay.Budget [] (lay.emitMD k ++ [.tick]) := by
    refine Budget.idle_left ?_ budget_tick
    rw [emitMD, emitMeas, if_pos he, List.nil_append]
    exact budget_marks (emitAnn_marks k)
  rw [em3Emit, List.append_assoc]
  refine Budget.idle_right ⟨by simp [Once], fun i _ p hp _ => ?_⟩ h2
  rw [(data_class hp).2]
  cases dataQubitParity p <;> simp

theorem FRun.bump' {F0 : PauliOp} {k n : Nat} {c : Edge → ZMod 2} {R : List (ZMod 2)} {ps : List Pt} {S S' : Frame} (h : lay.FRun B F0 k c R (lay.pos S) n)
    (hd : lay.DNear B ps S S') : lay.FRun B F0 k c R (lay.pos S') (n + ps.length) :=
  h.bump ps hd.sub _ hd.data

theorem em3_frun (hv : lay.Valid) (he : lay.isEM3 = true) (hp : lay.isPC3 = false) {N : Nat} (h : FaultyRuns (lay.IsIn B) F (lay.em3All N) rec F' n) :
    ∃ c, lay.FRun B (lay.pos F) N c rec (lay.pos F') n := by
  induction N generalizing rec F' n with
  | zero =>
    obtain ⟨ps1, ps2, F1, F2, d1, g, d2, rfl⟩ := segment hv budget_nil h
    obtain ⟨rfl, rfl⟩ := runs_nil g
    have := (FRun.start.bump' d1).bump' d2
    rw [Nat.zero_add] at this
    exact ⟨_, this⟩
  | succ N ih =>
    rw [em3All, range_succ_flatMap] at h
    obtain ⟨r1, r2, G1, n1, n2, h1, h2, rfl, rfl⟩ := h.append
    obtain ⟨c, ih⟩ := ih h1
    obtain ⟨ps1, ps2, F1, F2, d1, g, d2, rfl⟩ := segment hv (budget_em3 hv he N) h2
    obtain ⟨e, hs⟩ := em3_step hv he g
    rw [e]
    obtain ⟨c', hc⟩ := (ih.bump' d1).step' hp _ hs
    have := hc.bump' d2
    rw [Nat.add_assoc] at this
    exact ⟨c', this⟩

/-! ## SI1000 -/

theorem SiLink.perturb {a b : Int} {S S' : Frame} {G : PauliOp} {ps : List Pt} (hl : lay.SiLink a b S G) (hd : lay.DNear B ps S S') :
    ∃ G' : PauliOp, lay.SiLink a b S' G' ∧ ∀ q ∈ lay.data_qubit_coords, q ∉ ps → G' q = G q := by
  refine ⟨fun q => if dataQubitParity q then rotN (-b) (S' (lay.idx q)) else rotN (-a) (S' (lay.idx q)), ⟨?_, ?_⟩, ?_⟩
  · intro q hq hp
    simp only [hp, Bool.false_eq_true, if_false]
    rw [rotN_inv]
  · intro q hq hp
    simp only [hp, if_true]
    rw [rotN_inv]
  · intro q hq hn
    beta_reduce
    rw [hd.data q hq hn]
    rcases hp : dataQubitParity q with _ | _
    · simp only [Bool.false_eq_true, if_false]
      rw [hl.left q hq hp, rotN_rotN, rotN_zero (by omega)]
    · simp only [if_true]
      rw [hl.right q hq hp, rotN_rotN, rotN_zero (by omega)]

/-- The start of a cycle up to the first layer. -/
def siPre (lay : HoneycombLayout) (j : Nat) : List Instr :=
  ((if 0 < j then [.on .R lay.measure_qubit_indices, .tick] else [])
    ++ [.on .C_ZYX lay.data_qubit_indices_1st, .on .H lay.measure_qubit_indices, .tick]) ++ lay.si1000Layer 0

/-- The end of a cycle from the last layer. -/
def siPost (lay : HoneycombLayout) (j : Nat) : List Instr :=
  lay.si1000Layer 2 ++ ([.on .H lay.measure_qubit_indices, .tick] ++ (lay.emitMD (3 * j) ++ (lay.emitMD (3 * j + 1) ++ lay.emitMD (3 * j + 2))) ++ [.tick])

theorem si_split (j : Nat) : lay.si1000Emit j = lay.siPre j ++ (lay.si1000Layer 1 ++ lay.siPost j) := by
  have h3 : pyRange 3 = [0, 1, 2] := by decide
  rw [si1000Emit, siPre, siPost, h3]
  simp only [List.range_succ, List.range_zero, List.nil_append, List.flatMap_cons, List.flatMap_nil, List.append_nil, List.append_assoc, List.flatMap_append,
    Nat.add_zero]

theorem budget_layer (hv : lay.Valid) (k : Int) : lay.Budget [0, 1] (lay.si1000Layer k) := by
  have hl : lay.Budget [0] [.on .CZ (lay.leftTargets (lay.round_edges k))] :=
    (budget_on hv (by simp) (covers_left hv k)).mono (by have := cc_ne k; simp [this])
  have hr : lay.Budget [1] [.on .CZ (lay.rightTargets (lay.round_edges k))] :=
    (budget_on hv (by simp) (covers_right hv k)).mono (by have := cc_ne k; simp [this])
  have h1 : lay.Budget [] [.on .C_ZYX lay.data_qubit_indices_1st] := budget_clifford (actions_C_ZYX _)
  have h2 : lay.Budget [] [.on .C_ZYX lay.data_qubit_indices_2nd] := budget_clifford (actions_C_ZYX _)
  have hm : lay.Budget [] (if k < 2 then [.on .C_ZYX lay.data_qubit_indices_1st] else []) := by
    split_ifs
    · exact h1
    · exact budget_nil
  rw [si1000Layer]
  exact (((h2.idle_left (hl.idle_right budget_tick)).idle_right hm)).append (hr.idle_right budget_tick) (by simp)

theorem budget_ancillas (hv : lay.Valid) {g : Gate} (hg : g ≠ .MPP) : lay.Budget [] [.on g lay.measure_qubit_indices] :=
  (budget_on hv hg (covers_measure hv)).mono (by simp)

theorem budget_md (hv : lay.Valid) (he : lay.isEM3 = false) (k : Nat) : lay.Budget [] (lay.emitMD k) := by
  rw [emitMD, emitMeas, if_neg (by simp [he])]
  refine Budget.idle_left ?_ (budget_marks (emitAnn_marks k))
  exact (budget_on hv (by simp) (covers_centers hv k)).mono (by have := cc_ne k; simp [this])

theorem budget_siPre (hv : lay.Valid) (j : Nat) : lay.Budget [0, 1] (lay.siPre j) := by
  rw [siPre]
  refine Budget.idle_left (Budget.idle_left ?_ ?_) (budget_layer hv 0)
  · split_ifs
    · exact (budget_ancillas hv (by simp)).idle_left budget_tick
    · exact budget_nil
  · exact (budget_clifford (actions_C_ZYX _)).idle_left ((budget_ancillas hv (by simp)).idle_left budget_tick)

theorem budget_siPost (hv : lay.Valid) (he : lay.isEM3 = false) (j : Nat) : lay.Budget [0, 1] (lay.siPost j) := by
  rw [siPost]
  exact (budget_layer hv 2).idle_right ((Budget.idle_left ((budget_ancillas hv (by simp)).idle_left budget_tick)
    ((budget_md hv he _).idle_left ((budget_md hv he _).idle_left (budget_md hv he _)))).idle_left budget_tick)

theorem si_pre (hv : lay.Valid) {j : Nat} {S S' : Frame} {G : PauliOp} (hl : lay.SiLink 0 0 S G)
    (h0 : j = 0 → ∀ i, ∀ e ∈ lay.round_edges i, (S (lay.idx e.center)).1 = 0) (h : Runs S (actions (lay.siPre j)) rec S') :
    rec = [] ∧ ∃ G' : PauliOp, lay.SiLink 2 1 S' G' ∧
      (∀ e ∈ lay.round_edges 0, ∃ r : ZMod 2, G' e.left = G e.left + r • (Basis.ofIdx 0).pauli ∧ G' e.right = G e.right + r • (Basis.ofIdx 0).pauli) ∧
      (∀ e ∈ lay.round_edges 0, (S' (lay.idx e.center)).2 = par G 0 e) ∧ ∀ i : Int, i % 3 ≠ 0 → ∀ e ∈ lay.round_edges i, (S' (lay.idx e.center)).2 = 0 := by
  rw [siPre] at h
  obtain ⟨r4, rl, S4, g4, hL, rfl⟩ := runs_append_actions h
  obtain ⟨r5, rc, S5, g5, hc, rfl⟩ := runs_append_actions g4
  have hstart : r5 = [] ∧ (∀ b, lay.SameD S S5 b) ∧ ∀ i, ∀ e ∈ lay.round_edges i, (S5 (lay.idx e.center)).1 = 0 := by
    split_ifs at g5 with hj
    · obtain ⟨ra, rb, Sa, k1, k2, rfl⟩ := runs_append_actions (a := [_]) (b := [_]) g5
      obtain ⟨rfl, rfl⟩ := runs_tick k2
      obtain ⟨rfl, e1, e2⟩ := eff_resetAll hv k1
      exact ⟨rfl, e2, e1⟩
    · obtain ⟨rfl, rfl⟩ := runs_nil g5
      exact ⟨rfl, fun _ _ _ _ => rfl, h0 (by omega)⟩
  obtain ⟨rfl, s1, s2⟩ := hstart
  obtain ⟨ra, rb, Sa, k1, k2, rfl⟩ := runs_append_actions (a := [_]) (b := [_, _]) hc
  obtain ⟨rb1, rb2, Sb, k3, k4, rfl⟩ := runs_append_actions (a := [_]) (b := [_]) k2
  obtain ⟨rfl, rfl⟩ := runs_tick k4
  obtain ⟨rfl, a1, a2, a3⟩ := eff_1st hv k1
  obtain ⟨rfl, b1, b2⟩ := eff_H hv k3
  have l0 : lay.SiLink (0 + 1) 0 S4 G := by
    constructor
    · intro q hq hq'
      rw [b1 false q hq hq', a1 q hq hq', s1 false q hq hq', hl.left q hq hq', rot_rotN]
    · intro q hq hq'
      rw [b1 true q hq hq', a2 q hq hq', s1 true q hq hq', hl.right q hq hq']
  have z0 : ∀ i, ∀ e ∈ lay.round_edges i, (S4 (lay.idx e.center)).2 = 0 := by
    intro i e he
    rw [b2 i e he]
    simp only
    rw [a3 i e he]
    exact s2 i e he
  obtain ⟨rfl, G1, l1, st1, v1, c1⟩ := si_layer hv (le_refl 0) l0 (z0 0) hL
  exact ⟨rfl, G1, l1, st1, v1, fun i hi e he => by rw [c1 i (by omega) e he]; exact z0 i e he⟩

theorem si_post (hv : lay.Valid) (he : lay.isEM3 = false) {j : Nat} {S S' : Frame} {G : PauliOp} (hl : lay.SiLink 3 2 S G)
    (h0 : ∀ e ∈ lay.round_edges 2, (S (lay.idx e.center)).2 = 0) (h : Runs S (actions (lay.siPost j)) rec S') :
    rec = (lay.round_edges 0).map (fun e => (S (lay.idx e.center)).2) ++ ((lay.round_edges 1).map (fun e => (S (lay.idx e.center)).2) ++
      (lay.round_edges 2).map (par G 2)) ∧ ∃ G' : PauliOp, lay.SiLink 0 0 S' G' ∧
      (∀ e ∈ lay.round_edges 2, ∃ r : ZMod 2, G' e.left = G e.left + r • (Basis.ofIdx 2).pauli ∧ G' e.right = G e.right + r • (Basis.ofIdx 2).pauli) := by
  rw [siPost] at h
  obtain ⟨r1, rt, S1, hL, g1, rfl⟩ := runs_append_actions h
  obtain ⟨r2, rt', S2, g2, ht, rfl⟩ := runs_append_actions g1
  obtain ⟨rfl, rfl⟩ := runs_tick ht
  obtain ⟨r3, rm, S3, hH, hm, rfl⟩ := runs_append_actions g2
  obtain ⟨rfl, G3, l3, st3, v3, c3⟩ := si_layer hv (c := 2) (by omega) hl h0 hL
  obtain ⟨ra, rb, Sc, k5, k6, rfl⟩ := runs_append_actions (a := [_]) (b := [_]) hH
  obtain ⟨rfl, rfl⟩ := runs_tick k6
  obtain ⟨rfl, d1, d2⟩ := eff_H hv k5
  obtain ⟨n0, n', U1, k7, hm', rfl⟩ := runs_append_actions hm
  obtain ⟨n1, n2, U2, k8, k9, rfl⟩ := runs_append_actions hm'
  obtain ⟨e0, q0, x0, _⟩ := eff_md hv he k7
  obtain ⟨e1, q1, x1, _⟩ := eff_md hv he k8
  obtain ⟨e2, q2, x2, _⟩ := eff_md hv he k9
  have cg : ∀ i : Nat, lay.round_edges ((3 * j + i : Nat) : Int) = lay.round_edges (i : Int) := fun i => round_edges_congr lay (by omega)
  have f0 : n0 = (lay.round_edges 0).map (fun e => (S (lay.idx e.center)).2) := by
    rw [e0, show lay.round_edges ((3 * j : Nat) : Int) = lay.round_edges 0 from cg 0]
    refine List.map_congr_left fun e hm => ?_
    rw [d2 0 e hm]
    simp only
    rw [c3 0 (by omega) e hm]
  have f1 : n1 = (lay.round_edges 1).map (fun e => (S (lay.idx e.center)).2) := by
    rw [e1, show lay.round_edges ((3 * j + 1 : Nat) : Int) = lay.round_edges 1 from cg 1]
    refine List.map_congr_left fun e hm => ?_
    rw [x0, d2 1 e hm]
    simp only
    rw [c3 1 (by omega) e hm]
  have f2 : n2 = (lay.round_edges 2).map (par G 2) := by
    rw [e2, show lay.round_edges ((3 * j + 2 : Nat) : Int) = lay.round_edges 2 from cg 2]
    refine List.map_congr_left fun e hm => ?_
    rw [x1, x0, d2 2 e hm]
    simp only
    rw [v3 e hm]
  refine ⟨by rw [f0, f1, f2]; simp, G3, ⟨?_, ?_⟩, st3⟩
  · intro q hq hq'
    rw [q2 false q hq hq', q1 false q hq hq', q0 false q hq hq', d1 false q hq hq', l3.left q hq hq']
    exact rotN_congr (by norm_num) _
  · intro q hq hq'
    rw [q2 true q hq hq', q1 true q hq hq', q0 true q hq hq', d1 true q hq hq', l3.right q hq hq']
    exact rotN_congr (by norm_num) _

theorem si_fcycle (hv : lay.Valid) (he : lay.isEM3 = false) (hp : lay.isPC3 = false) {j m : Nat} {S S' : Frame} {F0 G : PauliOp} {c : Edge → ZMod 2}
    {R : List (ZMod 2)} (hl : lay.SiLink 0 0 S G) (h0 : j = 0 → ∀ i, ∀ e ∈ lay.round_edges i, (S (lay.idx e.center)).1 = 0)
    (ha : lay.FRun B F0 (3 * j) c R G m) (h : FaultyRuns (lay.IsIn B) S (lay.si1000Emit j) rec S' n) :
    ∃ c' G', lay.FRun B F0 (3 * (j + 1)) c' (R ++ rec) G' (m + n) ∧ lay.SiLink 0 0 S' G' := by
  rw [si_split] at h
  obtain ⟨r1, r', T1, n1, n', h1, h', rfl, rfl⟩ := h.append
  obtain ⟨r2, r3, T2, n2, n3, h2, h3, rfl, rfl⟩ := h'.append
  obtain ⟨p1, p2, A1, A2, d1, g1, d2, rfl⟩ := segment hv (budget_siPre hv j) h1
  obtain ⟨p3, p4, B1, B2, d3, g2, d4, rfl⟩ := segment hv (budget_layer hv 1) h2
  obtain ⟨p5, p6, C1, C2, d5, g3, d6, rfl⟩ := segment hv (budget_siPost hv he j) h3
  have cg : ∀ i : Nat, lay.round_edges ((3 * j + i : Nat) : Int) = lay.round_edges (i : Int) := fun i => round_edges_congr lay (by omega)
  -- the first layer
  obtain ⟨Ga, la, ea⟩ := hl.perturb d1
  obtain ⟨rfl, Gb, lb, st0, v0, z0⟩ := si_pre hv la (fun hj i e hm => by rw [d1.centers i e hm]; exact h0 hj i e hm) g1
  obtain ⟨ca, ra⟩ := (ha.bump p1 d1.sub Ga ea).step' hp Gb (by
    intro e hm
    have hm : e ∈ lay.round_edges ((3 * j + 0 : Nat) : Int) := hm
    rw [cg 0] at hm; obtain ⟨r, z1, z2⟩ := st0 e hm
    rw [ofIdx_congr (k := ((3 * j : Nat) : Int)) (k' := 0) (by omega)]; exact ⟨r, z1, z2⟩)
  -- the second layer
  obtain ⟨Gc, lc, ec⟩ := lb.perturb d2
  obtain ⟨Gd, ld, ed⟩ := lc.perturb d3
  obtain ⟨rfl, Ge, le, st1, v1, c1⟩ := si_layer hv (c := 1) (by omega) ld
    (fun e he => by rw [d3.centers 1 e he, d2.centers 1 e he]; exact z0 1 (by omega) e he) g2
  obtain ⟨cb, rb⟩ := ((ra.bump p2 d2.sub Gc ec).bump p3 d3.sub Gd ed).step' hp Ge (by
    intro e hm; rw [cg 1] at hm; obtain ⟨r, z1, z2⟩ := st1 e hm
    rw [ofIdx_congr (k := ((3 * j + 1 : Nat) : Int)) (k' := 1) (by omega)]; exact ⟨r, z1, z2⟩)
  -- the third layer
  obtain ⟨Gf, lf, ef⟩ := le.perturb d4
  obtain ⟨Gg, lg, eg⟩ := lf.perturb d5
  obtain ⟨er, Gh, lh, st2⟩ := si_post hv he lg (fun e he => by
    rw [d5.centers 2 e he, d4.centers 2 e he, c1 2 (by omega) e he, d3.centers 2 e he, d2.centers 2 e he]; exact z0 2 (by omega) e he) g3
  obtain ⟨cc, rc⟩ := ((rb.bump p4 d4.sub Gf ef).bump p5 d5.sub Gg eg).step' hp Gh (by
    intro e hm
    have hm : e ∈ lay.round_edges ((3 * j + 2 : Nat) : Int) := hm
    rw [cg 2] at hm; obtain ⟨r, z1, z2⟩ := st2 e hm
    rw [ofIdx_congr (k := ((3 * j + 1 + 1 : Nat) : Int)) (k' := 2) (by omega)]; exact ⟨r, z1, z2⟩)
  obtain ⟨Gi, li, ei⟩ := lh.perturb d6
  have hf := rc.bump p6 d6.sub Gi ei
  refine ⟨cc, Gi, ?_, li⟩
  have e0 : (lay.round_edges ((3 * j : Nat) : Int)).map (par Ga ((3 * j : Nat) : Int)) = (lay.round_edges 0).map fun e => (C1 (lay.idx e.center)).2 := by
    rw [show lay.round_edges ((3 * j : Nat) : Int) = lay.round_edges 0 from cg 0]
    refine List.map_congr_left fun e hm => ?_
    rw [d5.centers 0 e hm, d4.centers 0 e hm, c1 0 (by omega) e hm, d3.centers 0 e hm, d2.centers 0 e hm, v0 e hm]
    exact par_congr (by omega) _ _
  have e1 : (lay.round_edges ((3 * j + 1 : Nat) : Int)).map (par Gd ((3 * j + 1 : Nat) : Int)) = (lay.round_edges 1).map fun e => (C1 (lay.idx e.center)).2 := by
    rw [show lay.round_edges ((3 * j + 1 : Nat) : Int) = lay.round_edges 1 from cg 1]
    refine List.map_congr_left fun e hm => ?_
    rw [d5.centers 1 e hm, d4.centers 1 e hm, v1 e hm]
    exact par_congr (by omega) _ _
  have e2 : (lay.round_edges ((3 * j + 1 + 1 : Nat) : Int)).map (par Gg ((3 * j + 1 + 1 : Nat) : Int)) = (lay.round_edges 2).map (par Gg 2) := by
    rw [show lay.round_edges ((3 * j + 1 + 1 : Nat) : Int) = lay.round_edges 2 from cg 2]
    exact List.map_congr_left fun e hm => par_congr (by omega) _ _
  rw [e0, e1, e2, List.append_assoc, List.append_assoc, ← er] at hf
  convert hf using 1
  all_goals first | omega | simp

theorem si_frun (hv : lay.Valid) (he : lay.isEM3 = false) (hp : lay.isPC3 = false) {M : Nat} {S S' : Frame}
    (h0 : ∀ i, ∀ e ∈ lay.round_edges i, (S (lay.idx e.center)).1 = 0)
    (h : FaultyRuns (lay.IsIn B) S ((List.range M).flatMap lay.si1000Emit) rec S' n) :
    ∃ c G, lay.FRun B (lay.pos S) (3 * M) c rec G n ∧ lay.SiLink 0 0 S' G := by
  induction M generalizing rec S' n with
  | zero =>
    obtain ⟨ps1, ps2, F1, F2, d1, g, d2, rfl⟩ := segment hv budget_nil h
    obtain ⟨rfl, rfl⟩ := runs_nil g
    have := (FRun.start.bump' d1).bump' d2
    rw [Nat.zero_add] at this
    exact ⟨_, _, this, fun q _ _ => by rw [rotN_zero (by omega)]; rfl, fun q _ _ => by rw [rotN_zero (by omega)]; rfl⟩
  | succ M ih =>
    rw [range_succ_flatMap] at h
    obtain ⟨r1, r2, F1, n1, n2, h1, h2, rfl, rfl⟩ := h.append
    obtain ⟨c, G, a, l⟩ := ih h1
    refine si_fcycle hv he hp l (fun hM => ?_) a h2
    subst hM
    obtain ⟨ps1, ps2, F2, F3, d1, g, d2, rfl⟩ := segment hv budget_nil h1
    obtain ⟨_, rfl⟩ := runs_nil g
    exact fun i e hm => by rw [d2.centers i e hm, d1.centers i e hm]; exact h0 i e hm

end HoneycombLayout
end Honeycomb
