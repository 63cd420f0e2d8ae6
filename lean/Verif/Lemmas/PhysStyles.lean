import Verif.Lemmas.Physical

/-! Each style performs the sub-rounds' edge measurements. -/

namespace Honeycomb
namespace HoneycombLayout
variable {lay : HoneycombLayout} {F F' : Frame} {rec : List (ZMod 2)}

/-- The frame by position. -/
def pos (lay : HoneycombLayout) (F : Frame) : PauliOp := fun q => F (lay.idx q)

theorem range_succ_flatMap {α : Type} (n : Nat) (f : Nat → List α) : (List.range (n + 1)).flatMap f = (List.range n).flatMap f ++ f n := by
  rw [List.range_succ, List.flatMap_append]; simp

theorem runs_append_actions {a b : List Instr} (h : Runs F (actions (a ++ b)) rec F') :
    ∃ r1 r2 F1, Runs F (actions a) r1 F1 ∧ Runs F1 (actions b) r2 F' ∧ rec = r1 ++ r2 := by
  rw [actions_append] at h; exact runs_append.1 h

theorem RunFrom.step' {k0 : Nat} {c0 : Edge → ZMod 2} {R0 : List (ZMod 2)} {F0 : PauliOp} {k : Nat} {c : Edge → ZMod 2} {R : List (ZMod 2)} {G : PauliOp} (hp : lay.isPC3 = false) (h : lay.RunFrom k0 c0 R0 F0 k c R G)
    (G' : PauliOp) (hG : ∀ e ∈ lay.round_edges k, ∃ r : ZMod 2, G' e.left = G e.left + r • (Basis.ofIdx k).pauli ∧
      G' e.right = G e.right + r • (Basis.ofIdx k).pauli) : ∃ c', lay.RunFrom k0 c0 R0 F0 (k + 1) c' (R ++ (lay.round_edges k).map (par G k)) G' := by
  have := h.step G' hG
  simp only [hp, Bool.false_eq_true, if_false] at this
  exact ⟨_, this⟩

/-! ## EM3 -/

theorem em3_step (hv : lay.Valid) (he : lay.isEM3 = true) {k : Nat} (h : Runs F (actions (lay.em3Emit k)) rec F') :
    rec = (lay.round_edges k).map (par (lay.pos F) k) ∧
    ∀ e ∈ lay.round_edges k, ∃ r : ZMod 2, lay.pos F' e.left = lay.pos F e.left + r • (Basis.ofIdx k).pauli ∧
      lay.pos F' e.right = lay.pos F e.right + r • (Basis.ofIdx k).pauli := by
  rw [em3Emit] at h
  obtain ⟨ra, r3, F2, h', h3, rfl⟩ := runs_append_actions h
  obtain ⟨r1, r2, F1, h1, h2, rfl⟩ := runs_append_actions h'
  obtain ⟨rfl, rfl⟩ := runs_tick h3
  have hmd : actions (lay.emitMD k) = [] := by
    rw [emitMD, emitMeas, if_pos he, List.nil_append]; exact actions_nil_of_marks (emitAnn_marks k)
  rw [hmd] at h2
  obtain ⟨rfl, rfl⟩ := runs_nil h2
  have hm := measured_groups he k
  simp only [measured, List.flatMap_cons, List.flatMap_nil, List.append_nil, roundMeas, he, if_true] at hm
  have ha : actions [({ gate := .MPP, targets := (lay.round_edges k).flatMap fun e =>
      [.pauli (sub_round_edge_basis k) (lay.idx e.left), .comb, .pauli (sub_round_edge_basis k) (lay.idx e.right)] } : Instr)] =
      ((lay.round_edges k).map fun e => (lay.idx e.left, lay.idx e.right)).map fun x =>
        .measure [(Basis.ofIdx k, x.1), (Basis.ofIdx k, x.2)] := by
    rw [actions, List.flatMap_cons, List.flatMap_nil, List.append_nil, Instr.actions]
    simp only
    rw [hm, List.map_map, List.map_map]; rfl
  rw [ha] at h1
  obtain ⟨e1, e2, e3⟩ := runs_measure_pairs (by rw [List.flatMap_map]; exact (covers_ends hv k).1) h1
  refine ⟨by rw [e1, List.append_nil, List.append_nil, List.map_map]; rfl, fun e hm => ?_⟩
  exact e2 (lay.idx e.left, lay.idx e.right) (List.mem_map.2 ⟨e, hm, rfl⟩)

theorem em3_run (hv : lay.Valid) (he : lay.isEM3 = true) (hp : lay.isPC3 = false) {N : Nat} (h : Runs F (actions (lay.em3All N)) rec F') :
    ∃ c, lay.AbsRun (lay.pos F) N c rec (lay.pos F') := by
  induction N generalizing rec F' with
  | zero =>
    obtain ⟨rfl, rfl⟩ := runs_nil h
    exact ⟨_, .start⟩
  | succ N ih =>
    rw [em3All, range_succ_flatMap] at h
    obtain ⟨r1, r2, F1, h1, h2, rfl⟩ := runs_append_actions h
    obtain ⟨c, ih⟩ := ih h1
    obtain ⟨e, hs⟩ := em3_step hv he h2
    rw [e]
    exact ih.step' hp _ hs

/-! ## SI1000 -/

theorem left_facts (hv : lay.Valid) {k : Int} {e : Edge} (he : e ∈ lay.round_edges k) :
    e.left ∈ lay.data_qubit_coords ∧ dataQubitParity e.left = false :=
  ⟨(edge_ends_data hv (round_edges_subset_all he)).1, (edge_parity hv (round_edges_subset_all he)).1⟩

theorem right_facts (hv : lay.Valid) {k : Int} {e : Edge} (he : e ∈ lay.round_edges k) :
    e.right ∈ lay.data_qubit_coords ∧ dataQubitParity e.right = true :=
  ⟨(edge_ends_data hv (round_edges_subset_all he)).2, (edge_parity hv (round_edges_subset_all he)).2⟩

/-- Every first-half data qubit is the left end of an edge of the sub-round. -/
theorem exists_left (hv : lay.Valid) {q : Pt} (hq : q ∈ lay.data_qubit_coords) (hp : dataQubitParity q = false) (k : Int) :
    ∃ e ∈ lay.round_edges k, e.left = q := by
  obtain ⟨e, he, h⟩ := exists_edge hv hq k
  rcases h with rfl | rfl
  · exact ⟨e, he, rfl⟩
  · have := (right_facts hv he).2; simp_all

theorem exists_right (hv : lay.Valid) {q : Pt} (hq : q ∈ lay.data_qubit_coords) (hp : dataQubitParity q = true) (k : Int) :
    ∃ e ∈ lay.round_edges k, e.right = q := by
  obtain ⟨e, he, h⟩ := exists_edge hv hq k
  rcases h with rfl | rfl
  · have := (left_facts hv he).2; simp_all
  · exact ⟨e, he, rfl⟩

/-- Between the layers of an SI1000 cycle: the first half of the data qubits has been rotated `a` times, the second half `b` times. -/
structure SiLink (lay : HoneycombLayout) (a b : Int) (S : Frame) (G : PauliOp) : Prop where
  left : ∀ q ∈ lay.data_qubit_coords, dataQubitParity q = false → S (lay.idx q) = rotN a (G q)
  right : ∀ q ∈ lay.data_qubit_coords, dataQubitParity q = true → S (lay.idx q) = rotN b (G q)

theorem si_layer (hv : lay.Valid) {c : Int} (hc : 0 ≤ c) {S S' : Frame} {G : PauliOp} (hl : lay.SiLink (c + 1) c S G)
    (h0 : ∀ e ∈ lay.round_edges c, (S (lay.idx e.center)).2 = 0)
    (h : Runs S (actions (lay.si1000Layer c)) rec S') :
    rec = [] ∧ ∃ G' : PauliOp, lay.SiLink (if c < 2 then c + 2 else c + 1) (c + 1) S' G' ∧
      (∀ e ∈ lay.round_edges c, ∃ r : ZMod 2, G' e.left = G e.left + r • (Basis.ofIdx c).pauli ∧ G' e.right = G e.right + r • (Basis.ofIdx c).pauli) ∧
      (∀ e ∈ lay.round_edges c, (S' (lay.idx e.center)).2 = par G c e) ∧ ∀ j, j % 3 ≠ c % 3 → lay.SameC S S' j := by
  rw [si1000Layer] at h
  obtain ⟨ra, rb, S4, g1, hz, rfl⟩ := runs_append_actions h
  obtain ⟨rc, rd, S3, g2, hy, rfl⟩ := runs_append_actions g1
  obtain ⟨re, rf, S1, h1, g3, rfl⟩ := runs_append_actions (a := [_]) (b := [_, _]) g2
  obtain ⟨rg, rh, S2, h2, h3, rfl⟩ := runs_append_actions (a := [_]) (b := [_]) g3
  obtain ⟨rfl, rfl⟩ := runs_tick h3
  obtain ⟨ri, rj, S5', h4, h5, rfl⟩ := runs_append_actions (a := [_]) (b := [_]) hz
  obtain ⟨rfl, rfl⟩ := runs_tick h5
  obtain ⟨rfl, a1, a2, a3⟩ := eff_2nd hv h1
  obtain ⟨rfl, b1, b2, b3⟩ := eff_left hv (Or.inl ⟨rfl, rfl, rfl⟩) h2
  obtain ⟨rfl, d1, d2, d3⟩ := eff_right hv (Or.inl ⟨rfl, rfl, rfl⟩) h4
  have hmid : rd = [] ∧ (∀ q ∈ lay.data_qubit_coords, dataQubitParity q = false → S4 (lay.idx q) = rotN (if c < 2 then 1 else 0) (S3 (lay.idx q))) ∧
      lay.SameD S3 S4 true ∧ ∀ j, lay.SameC S3 S4 j := by
    split_ifs at hy ⊢
    · obtain ⟨e, c1, c2, c3⟩ := eff_1st hv hy
      exact ⟨e, c1, c2, c3⟩
    · obtain ⟨rfl, rfl⟩ := runs_nil hy
      exact ⟨rfl, fun q _ _ => by rw [rotN_zero (by omega)], fun _ _ _ => rfl, fun _ _ _ => rfl⟩
  obtain ⟨rfl, c1, c2, c3⟩ := hmid
  -- the values after the layer
  have el : ∀ e ∈ lay.round_edges c, S3 (lay.idx e.left) = rotN (c + 1) (G e.left + (S (lay.idx e.center)).1 • (Basis.ofIdx c).pauli) := by
    intro e he
    obtain ⟨f1, f2⟩ := left_facts hv he
    rw [(b1 e he).1, a2 _ f1 f2, hl.left _ f1 f2, a3 c e he, anti_Z, rotN_add]
  have er : ∀ e ∈ lay.round_edges c, S' (lay.idx e.right) = rotN (c + 1) (G e.right + (S (lay.idx e.center)).1 • (Basis.ofIdx c).pauli) := by
    intro e he
    obtain ⟨f1, f2⟩ := right_facts hv he
    obtain ⟨f3, f4⟩ := left_facts hv he
    rw [(d1 e he).1, c2 _ f1 f2, b2 _ f1 f2, a1 _ f1 f2, hl.right _ f1 f2, rot_rotN, c3 c e he, (b1 e he).2, a3 c e he, anti_Z, ← rotN_add]
    simp only [Prod.fst_add, smul_Z_fst, add_zero]
  refine ⟨rfl, fun q => rotN (-(c + 1)) (if dataQubitParity q then S' (lay.idx q) else S3 (lay.idx q)), ⟨?_, ?_⟩, ?_, ?_, ?_⟩
  · intro q hq hp
    simp only [hp, Bool.false_eq_true, if_false]
    rw [d2 q hq hp, c1 q hq hp, rotN_rotN]
    split_ifs with hc2
    · exact rotN_congr (by omega) _
    · exact rotN_congr (by omega) _
  · intro q hq hp
    simp only [hp, if_true]
    rw [rotN_inv]
  · intro e he
    refine ⟨(S (lay.idx e.center)).1, ?_, ?_⟩
    · obtain ⟨f1, f2⟩ := left_facts hv he
      simp only [f2, Bool.false_eq_true, if_false]
      rw [el e he, rotN_rotN, rotN_zero (by omega)]
    · obtain ⟨f1, f2⟩ := right_facts hv he
      simp only [f2, if_true]
      rw [er e he, rotN_rotN, rotN_zero (by omega)]
  · intro e he
    obtain ⟨f1, f2⟩ := right_facts hv he
    obtain ⟨f3, f4⟩ := left_facts hv he
    have hz2 : ∀ r : ZMod 2, (r • Basis.Z.pauli : Pauli).2 = r := by decide
    rw [(d1 e he).2, Prod.snd_add, hz2, c3 c e he, (b1 e he).2, Prod.snd_add, hz2, a3 c e he, h0 e he, zero_add, a2 _ f3 f4, hl.left _ f3 f4, anti_Z, anti_Z,
      c2 _ f1 f2, b2 _ f1 f2, a1 _ f1 f2, hl.right _ f1 f2, rot_rotN, rotN_fst, rotN_fst, par]
  · intro j hj e he
    rw [d3 j hj e he, c3 j e he, b3 j hj e he, a3 j e he]

theorem par_congr {k k' : Int} (h : k % 3 = k' % 3) (G : PauliOp) (e : Edge) : par G k e = par G k' e := by
  rw [par, par, ofIdx_congr h]

/-- The SI1000 cycle `j` up to the controlled gates of its last sub-round. -/
def si1000Front (lay : HoneycombLayout) (j : Nat) : List Instr :=
  (if 0 < j then [.on .R lay.measure_qubit_indices, .tick] else [])
    ++ [.on .C_ZYX lay.data_qubit_indices_1st, .on .H lay.measure_qubit_indices, .tick]
    ++ (pyRange 3).flatMap lay.si1000Layer

/-- The measurements of the SI1000 cycle `j`. -/
def si1000Back (lay : HoneycombLayout) (j : Nat) : List Instr :=
  [.on .H lay.measure_qubit_indices, .tick] ++ (List.range 3).flatMap (fun i => lay.emitMD (3 * j + i)) ++ [.tick]

theorem si1000Emit_parts {j : Nat} : lay.si1000Emit j = lay.si1000Front j ++ lay.si1000Back j := by
  simp only [si1000Emit, si1000Front, si1000Back, List.append_assoc]

/-- The first part of a cycle: up to the controlled gates of its last sub-round. -/
theorem si_front (hv : lay.Valid) {j : Nat} {S S' : Frame} {G : PauliOp}
    (hl : lay.SiLink 0 0 S G) (h0 : j = 0 → ∀ i, ∀ e ∈ lay.round_edges i, (S (lay.idx e.center)).1 = 0)
    (h : Runs S (actions (lay.si1000Front j)) rec S') :
    rec = [] ∧ ∃ G1 G2 G3 : PauliOp,
      (∀ e ∈ lay.round_edges 0, ∃ r : ZMod 2, G1 e.left = G e.left + r • (Basis.ofIdx 0).pauli ∧ G1 e.right = G e.right + r • (Basis.ofIdx 0).pauli) ∧
      (∀ e ∈ lay.round_edges 1, ∃ r : ZMod 2, G2 e.left = G1 e.left + r • (Basis.ofIdx 1).pauli ∧ G2 e.right = G1 e.right + r • (Basis.ofIdx 1).pauli) ∧
      (∀ e ∈ lay.round_edges 2, ∃ r : ZMod 2, G3 e.left = G2 e.left + r • (Basis.ofIdx 2).pauli ∧ G3 e.right = G2 e.right + r • (Basis.ofIdx 2).pauli) ∧
      (∀ e ∈ lay.round_edges 0, (S' (lay.idx e.center)).2 = par G 0 e) ∧ (∀ e ∈ lay.round_edges 1, (S' (lay.idx e.center)).2 = par G1 1 e) ∧
      (∀ e ∈ lay.round_edges 2, (S' (lay.idx e.center)).2 = par G2 2 e) ∧ lay.SiLink 0 0 S' G3 := by
  rw [si1000Front] at h
  obtain ⟨r4, rl, S4, g4, hL, rfl⟩ := runs_append_actions h
  obtain ⟨r5, rc, S5, g5, hc, rfl⟩ := runs_append_actions g4
  -- the resets
  have hstart : r5 = [] ∧ (∀ b, lay.SameD S S5 b) ∧ ∀ i, ∀ e ∈ lay.round_edges i, (S5 (lay.idx e.center)).1 = 0 := by
    split_ifs at g5 with hj
    · obtain ⟨ra, rb, Sa, k1, k2, rfl⟩ := runs_append_actions (a := [_]) (b := [_]) g5
      obtain ⟨rfl, rfl⟩ := runs_tick k2
      obtain ⟨rfl, e1, e2⟩ := eff_resetAll hv k1
      exact ⟨rfl, e2, e1⟩
    · obtain ⟨rfl, rfl⟩ := runs_nil g5
      exact ⟨rfl, fun _ _ _ _ => rfl, h0 (by omega)⟩
  obtain ⟨rfl, s1, s2⟩ := hstart
  obtain ⟨ra, rb, Sa, k1, k2, rfl⟩ := runs_append_actions (a := [_]) (b := [_, _]) hc
  obtain ⟨rb1, rb2, Sb, k3, k4, rfl⟩ := runs_append_actions (a := [_]) (b := [_]) k2
  obtain ⟨rfl, rfl⟩ := runs_tick k4
  obtain ⟨rfl, a1, a2, a3⟩ := eff_1st hv k1
  obtain ⟨rfl, b1, b2⟩ := eff_H hv k3
  have l0 : lay.SiLink (0 + 1) 0 S4 G := by
    constructor
    · intro q hq hq'
      rw [b1 false q hq hq', a1 q hq hq', s1 false q hq hq', hl.left q hq hq', rot_rotN]
    · intro q hq hq'
      rw [b1 true q hq hq', a2 q hq hq', s1 true q hq hq', hl.right q hq hq']
  have z0 : ∀ i, ∀ e ∈ lay.round_edges i, (S4 (lay.idx e.center)).2 = 0 := by
    intro i e he
    rw [b2 i e he]
    simp only
    rw [a3 i e he]
    exact s2 i e he
  -- the layers
  have h3 : pyRange 3 = [0, 1, 2] := by decide
  rw [h3] at hL
  simp only [List.flatMap_cons, List.flatMap_nil, List.append_nil] at hL
  obtain ⟨rl0, rl', T1, m1, hL', rfl⟩ := runs_append_actions hL
  obtain ⟨rl1, rl'', T2, m2, hL'', rfl⟩ := runs_append_actions hL'
  obtain ⟨rfl, G1, l1, st1, v1, c1⟩ := si_layer hv (le_refl 0) l0 (z0 0) m1
  obtain ⟨rfl, G2, l2, st2, v2, c2⟩ := si_layer hv (c := 1) (by omega) l1 (fun e he => by rw [c1 1 (by omega) e he]; exact z0 1 e he) m2
  obtain ⟨rfl, G3, l3, st3, v3, c3⟩ := si_layer hv (c := 2) (by omega) l2
    (fun e he => by rw [c2 2 (by omega) e he, c1 2 (by omega) e he]; exact z0 2 e he) hL''
  refine ⟨rfl, G1, G2, G3, st1, st2, st3, fun e hm => ?_, fun e hm => ?_, v3, fun q hq hq' => ?_, fun q hq hq' => ?_⟩
  · rw [c3 0 (by omega) e hm, c2 0 (by omega) e hm, v1 e hm]
  · rw [c3 1 (by omega) e hm, v2 e hm]
  · rw [l3.left q hq hq']
    exact rotN_congr (by norm_num) _
  · rw [l3.right q hq hq']
    exact rotN_congr (by norm_num) _

/-- The second part of a cycle: its measurements. -/
theorem si_back (hv : lay.Valid) (he : lay.isEM3 = false) {j : Nat} {S S' : Frame} {G : PauliOp} (hl : lay.SiLink 0 0 S G)
    (h : Runs S (actions (lay.si1000Back j)) rec S') :
    rec = (lay.round_edges 0).map (fun e => (S (lay.idx e.center)).2) ++ (lay.round_edges 1).map (fun e => (S (lay.idx e.center)).2) ++
      (lay.round_edges 2).map (fun e => (S (lay.idx e.center)).2) ∧ lay.SiLink 0 0 S' G := by
  rw [si1000Back] at h
  obtain ⟨r1, rt, S1, g1, ht, rfl⟩ := runs_append_actions h
  obtain ⟨rfl, rfl⟩ := runs_tick ht
  obtain ⟨rh, rm, S2, hH, hm, rfl⟩ := runs_append_actions g1
  obtain ⟨ra, rb, Sc, k5, k6, rfl⟩ := runs_append_actions (a := [_]) (b := [_]) hH
  obtain ⟨rfl, rfl⟩ := runs_tick k6
  obtain ⟨rfl, d1, d2⟩ := eff_H hv k5
  simp only [List.range_succ, List.range_zero, List.nil_append, List.cons_append, List.flatMap_cons, List.flatMap_nil, List.append_nil] at hm
  obtain ⟨n0, n', U1, k7, hm', rfl⟩ := runs_append_actions hm
  obtain ⟨n1, n2, U2, k8, k9, rfl⟩ := runs_append_actions hm'
  obtain ⟨e0, q0, x0, _⟩ := eff_md hv he k7
  obtain ⟨e1, q1, x1, _⟩ := eff_md hv he k8
  obtain ⟨e2, q2, x2, _⟩ := eff_md hv he k9
  have cg : ∀ i : Nat, lay.round_edges ((3 * j + i : Nat) : Int) = lay.round_edges (i : Int) := fun i => round_edges_congr lay (by omega)
  have f0 : n0 = (lay.round_edges 0).map fun e => (S (lay.idx e.center)).2 := by
    rw [e0, cg 0]
    refine List.map_congr_left fun e hm => ?_
    rw [d2 0 e hm]
  have f1 : n1 = (lay.round_edges 1).map fun e => (S (lay.idx e.center)).2 := by
    rw [e1, cg 1]
    refine List.map_congr_left fun e hm => ?_
    rw [x0, d2 1 e hm]
  have f2 : n2 = (lay.round_edges 2).map fun e => (S (lay.idx e.center)).2 := by
    rw [e2, cg 2]
    refine List.map_congr_left fun e hm => ?_
    rw [x1, x0, d2 2 e hm]
  refine ⟨?_, fun q hq hq' => ?_, fun q hq hq' => ?_⟩
  · simp only [List.nil_append, List.append_nil]
    rw [f0, f1, f2, ← List.append_assoc]
  · rw [q2 false q hq hq', q1 false q hq hq', q0 false q hq hq', d1 false q hq hq', hl.left q hq hq']
  · rw [q2 true q hq hq', q1 true q hq hq', q0 true q hq hq', d1 true q hq hq', hl.right q hq hq']

theorem si_cycle (hv : lay.Valid) (he : lay.isEM3 = false) (hp : lay.isPC3 = false) {j : Nat} {S S' : Frame} {F0 G : PauliOp} {c : Edge → ZMod 2}
    {R : List (ZMod 2)} (hl : lay.SiLink 0 0 S G) (h0 : j = 0 → ∀ i, ∀ e ∈ lay.round_edges i, (S (lay.idx e.center)).1 = 0)
    (ha : lay.RunFrom k0 c0 R0 F0 (3 * j) c R G) (h : Runs S (actions (lay.si1000Emit j)) rec S') :
    ∃ c' G', lay.RunFrom k0 c0 R0 F0 (3 * (j + 1)) c' (R ++ rec) G' ∧ lay.SiLink 0 0 S' G' := by
  rw [si1000Emit_parts] at h
  obtain ⟨r1, r2, S1, g1, g2, rfl⟩ := runs_append_actions h
  obtain ⟨rfl, G1, G2, G3, st1, st2, st3, v0, v1, v2, l⟩ := si_front hv hl h0 g1
  obtain ⟨e, l'⟩ := si_back hv he l g2
  have cg : ∀ i : Nat, lay.round_edges ((3 * j + i : Nat) : Int) = lay.round_edges (i : Int) := fun i => round_edges_congr lay (by omega)
  have f0 : (lay.round_edges 0).map (fun e => (S1 (lay.idx e.center)).2) = (lay.round_edges ((3 * j : Nat) : Int)).map (par G ((3 * j : Nat) : Int)) := by
    rw [show lay.round_edges ((3 * j : Nat) : Int) = lay.round_edges 0 from cg 0]
    exact List.map_congr_left fun e hm => by rw [v0 e hm]; exact par_congr (by omega) _ _
  have f1 : (lay.round_edges 1).map (fun e => (S1 (lay.idx e.center)).2) = (lay.round_edges ((3 * j + 1 : Nat) : Int)).map (par G1 ((3 * j + 1 : Nat) : Int)) := by
    rw [show lay.round_edges ((3 * j + 1 : Nat) : Int) = lay.round_edges 1 from cg 1]
    exact List.map_congr_left fun e hm => by rw [v1 e hm]; exact par_congr (by omega) _ _
  have f2 : (lay.round_edges 2).map (fun e => (S1 (lay.idx e.center)).2) = (lay.round_edges ((3 * j + 2 : Nat) : Int)).map (par G2 ((3 * j + 2 : Nat) : Int)) := by
    rw [show lay.round_edges ((3 * j + 2 : Nat) : Int) = lay.round_edges 2 from cg 2]
    exact List.map_congr_left fun e hm => by rw [v2 e hm]; exact par_congr (by omega) _ _
  obtain ⟨ca, ra1⟩ := ha.step' hp G1 (by
    intro e hm
    have hm : e ∈ lay.round_edges ((3 * j + 0 : Nat) : Int) := hm
    rw [cg 0] at hm; obtain ⟨r, z1, z2⟩ := st1 e hm
    rw [ofIdx_congr (k := ((3 * j : Nat) : Int)) (k' := 0) (by omega)]; exact ⟨r, z1, z2⟩)
  obtain ⟨cb, ra2⟩ := ra1.step' hp G2 (by
    intro e hm; rw [cg 1] at hm; obtain ⟨r, z1, z2⟩ := st2 e hm
    rw [ofIdx_congr (k := ((3 * j + 1 : Nat) : Int)) (k' := 1) (by omega)]; exact ⟨r, z1, z2⟩)
  obtain ⟨cd, ra3⟩ := ra2.step' hp G3 (by
    intro e hm
    have hm : e ∈ lay.round_edges ((3 * j + 2 : Nat) : Int) := hm
    rw [cg 2] at hm; obtain ⟨r, z1, z2⟩ := st3 e hm
    rw [ofIdx_congr (k := ((3 * j + 1 + 1 : Nat) : Int)) (k' := 2) (by omega)]; exact ⟨r, z1, z2⟩)
  refine ⟨cd, G3, ?_, l'⟩
  rw [List.nil_append, e, f0, f1, f2, ← List.append_assoc, ← List.append_assoc]
  exact ra3

theorem si_run (hv : lay.Valid) (he : lay.isEM3 = false) (hp : lay.isPC3 = false) {M : Nat} {S S' : Frame}
    (h0 : ∀ i, ∀ e ∈ lay.round_edges i, (S (lay.idx e.center)).1 = 0)
    (h : Runs S (actions ((List.range M).flatMap lay.si1000Emit)) rec S') :
    ∃ c G, lay.AbsRun (lay.pos S) (3 * M) c rec G ∧ lay.SiLink 0 0 S' G := by
  induction M generalizing rec S' with
  | zero =>
    obtain ⟨rfl, rfl⟩ := runs_nil h
    exact ⟨_, _, .start, fun q _ _ => by rw [rotN_zero (by omega)]; rfl, fun q _ _ => by rw [rotN_zero (by omega)]; rfl⟩
  | succ M ih =>
    rw [range_succ_flatMap] at h
    obtain ⟨r1, r2, F1, h1, h2, rfl⟩ := runs_append_actions h
    obtain ⟨c, G, a, l⟩ := ih h1
    refine si_cycle hv he hp l (fun hM => ?_) a h2
    subst hM
    obtain ⟨_, rfl⟩ := runs_nil h1
    exact h0

theorem SiLink.eq {S : Frame} {G : PauliOp} (h : lay.SiLink 0 0 S G) : ∀ q ∈ lay.data_qubit_coords, S (lay.idx q) = G q := by
  intro q hq
  rcases hp : dataQubitParity q with _ | _
  · rw [h.left q hq hp, rotN_zero (by omega)]
  · rw [h.right q hq hp, rotN_zero (by omega)]

end HoneycombLayout
end Honeycomb
