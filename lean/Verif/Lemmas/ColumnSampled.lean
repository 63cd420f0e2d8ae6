import Verif.Lemmas.ColumnRun

/-! The errors on the column are drawn from the channel after the controlled gates of sub-round 2. -/

namespace Honeycomb
namespace HoneycombLayout
variable {lay : HoneycombLayout} {F F' : Frame} {rec : List (ZMod 2)} {N D : Nat}

/-! ## The errors -/

theorem sum_at {α : Type} (f : α → Frame) (x : Nat) (l : List α) : (l.map f).sum x = (l.map fun a => f a x).sum := by
  induction l with
  | nil => rfl
  | cons a l ih => rw [List.map_cons, List.sum_cons, List.map_cons, List.sum_cons, Pi.add_apply, ih]

theorem sum_zero {α : Type} (f : α → Pauli) (l : List α) (h : ∀ a ∈ l, f a = 0) : (l.map f).sum = 0 := by
  induction l with
  | nil => rfl
  | cons a l ih => rw [List.map_cons, List.sum_cons, h a (by simp), ih fun b hb => h b (by simp [hb]), add_zero]

theorem sum_one {α : Type} (f : α → Pauli) (l : List α) (hl : l.Nodup) {a : α} (ha : a ∈ l) (h : ∀ b ∈ l, b ≠ a → f b = 0) : (l.map f).sum = f a := by
  induction l with
  | nil => simp at ha
  | cons b l ih =>
    rw [List.map_cons, List.sum_cons]
    rw [List.nodup_cons] at hl
    by_cases hb : b = a
    · subst hb
      rw [sum_zero f l fun c hc => h c (by simp [hc]) fun e => hl.1 (e ▸ hc), add_zero]
    · rw [h b (by simp) hb, zero_add]
      refine ih hl.2 ?_ fun c hc => h c (by simp [hc])
      exact (List.mem_cons.1 ha).resolve_left fun e => hb e.symm

/-- The edges of sub-round 2 whose right end is on the column. -/
def colEdges (lay : HoneycombLayout) : List Edge := (lay.round_edges 2).filter fun e => e.right.x = 2

/-- The error of an edge. -/
def colPair (lay : HoneycombLayout) (φ : ZMod 2 → Pauli) (e : Edge) : Frame :=
  Frame.mul (Frame.mul (fun _ => 0) (lay.idx e.right) (column colError e.right)) (lay.idx e.center) (φ (colFlip e))

theorem mem_colEdges {e : Edge} : e ∈ lay.colEdges ↔ e ∈ lay.round_edges 2 ∧ e.right.x = 2 := by
  rw [colEdges, List.mem_filter, decide_eq_true_eq]

theorem colPair_right (hv : lay.Valid) {φ : ZMod 2 → Pauli} {e : Edge} (he : e ∈ lay.round_edges 2) :
    lay.colPair φ e (lay.idx e.right) = column colError e.right := by
  have := center_not_data hv he (edge_ends_data hv (round_edges_subset_all he)).2
  rw [colPair, Frame.mul, Frame.mul, if_neg this.symm, if_pos rfl, zero_add]

theorem colPair_center (hv : lay.Valid) {φ : ZMod 2 → Pauli} {e : Edge} (he : e ∈ lay.round_edges 2) :
    lay.colPair φ e (lay.idx e.center) = φ (colFlip e) := by
  have := center_not_data hv he (edge_ends_data hv (round_edges_subset_all he)).2
  rw [colPair, Frame.mul, if_pos rfl, Frame.mul, if_neg this, zero_add]

theorem colPair_else {φ : ZMod 2 → Pauli} {e : Edge} {x : Nat} (h1 : x ≠ lay.idx e.right) (h2 : x ≠ lay.idx e.center) : lay.colPair φ e x = 0 := by
  rw [colPair, Frame.mul, if_neg h2, Frame.mul, if_neg h1]

theorem colFlip_off (hv : lay.Valid) {e : Edge} (he : e ∈ lay.round_edges 2) (hx : e.right.x ≠ 2) : colFlip e = 0 := by
  obtain ⟨hc, hl, -⟩ := edge_column hv he
  rw [colFlip, par, column, column, if_neg hx]
  have z : anti 0 (Basis.ofIdx 2).pauli = 0 := by decide
  rcases hc with ⟨h, -⟩ | ⟨-, -, h⟩
  · rw [if_neg (h ▸ hx), z, add_zero]
  · split_ifs with h2
    · have := hl h2
      have h0 : ∀ r ∈ ([0, 2, 4] : List Int), (r - 2) % 3 = 0 → anti (gap2 r) (Basis.ofIdx 2).pauli = 0 := by decide
      rw [h0 _ this h, z, add_zero]
    · rw [z, add_zero]

theorem colErr_sum (hv : lay.Valid) {φ : ZMod 2 → Pauli} (hφ : φ 0 = 0) : lay.ColErr φ (lay.colEdges.map (lay.colPair φ)).sum := by
  have hnd : lay.colEdges.Nodup := (nodup_round_edges hv 2).filter _
  have hright : ∀ {a b : Edge}, a ∈ lay.round_edges 2 → b ∈ lay.round_edges 2 → b ≠ a → lay.idx a.right ≠ lay.idx b.right := fun ha hb hne h =>
    hne (right_inj hv ha hb (idx_inj hv (data_class (edge_ends_data hv (round_edges_subset_all ha)).2).1
      (data_class (edge_ends_data hv (round_edges_subset_all hb)).2).1 h)).symm
  have hcen : ∀ {j : Int} {a b : Edge}, a ∈ lay.round_edges j → b ∈ lay.round_edges 2 → b ≠ a → lay.idx a.center ≠ lay.idx b.center := fun ha hb hne h =>
    hne (edge_center_inj hv (round_edges_subset_all ha) (round_edges_subset_all hb) (idx_inj hv (center_class hv ha).1 (center_class hv hb).1 h)).symm
  constructor
  · intro q hq
    rw [sum_at]
    rcases hp : dataQubitParity q with _ | _
    · have h0 : column colError q = 0 := by
        obtain ⟨e, he, h⟩ := exists_edge hv hq 0
        rcases h with rfl | rfl
        · exact colError_left hv he
        · have := (right_facts hv he).2
          simp_all
      rw [h0]
      refine sum_zero _ _ fun e he => colPair_else (fun h => ?_) fun h => center_not_data hv (mem_colEdges.1 he).1 hq h.symm
      have hf := right_facts hv (mem_colEdges.1 he).1
      rw [← idx_inj hv (data_class hq).1 (data_class hf.1).1 h, hp] at hf
      exact absurd hf.2 (by decide)
    · obtain ⟨e, he, rfl⟩ := exists_right hv hq hp 2
      by_cases hx : e.right.x = 2
      · rw [sum_one _ _ hnd (mem_colEdges.2 ⟨he, hx⟩) fun b hb hne => colPair_else (hright he (mem_colEdges.1 hb).1 hne) fun h =>
          center_not_data hv (mem_colEdges.1 hb).1 hq h.symm, colPair_right hv he]
      · rw [sum_zero _ _ fun b hb => colPair_else (hright he (mem_colEdges.1 hb).1 fun h => hx (h ▸ (mem_colEdges.1 hb).2)) fun h =>
          center_not_data hv (mem_colEdges.1 hb).1 hq h.symm, column, if_neg hx]
  · intro e he
    rw [sum_at]
    by_cases hx : e.right.x = 2
    · rw [sum_one _ _ hnd (mem_colEdges.2 ⟨he, hx⟩) fun b hb hne => colPair_else
        (center_not_data hv he (edge_ends_data hv (round_edges_subset_all (mem_colEdges.1 hb).1)).2) (hcen he (mem_colEdges.1 hb).1 hne), colPair_center hv he]
    · rw [colFlip_off hv he hx, hφ]
      exact sum_zero _ _ fun b hb => colPair_else (center_not_data hv he (edge_ends_data hv (round_edges_subset_all (mem_colEdges.1 hb).1)).2)
        (hcen he (mem_colEdges.1 hb).1 fun h => hx (h ▸ (mem_colEdges.1 hb).2))
  · intro j hj e he
    rw [sum_at]
    exact sum_zero _ _ fun b hb => colPair_else (center_not_data hv he (edge_ends_data hv (round_edges_subset_all (mem_colEdges.1 hb).1)).2)
      (hcen he (mem_colEdges.1 hb).1 fun h => hj (round_edges_disjoint hv (h ▸ he) (mem_colEdges.1 hb).1))

theorem colError_right (hv : lay.Valid) {e : Edge} (he : e ∈ lay.colEdges) : column colError e.right ≠ 0 := by
  obtain ⟨h1, h2⟩ := mem_colEdges.1 he
  obtain ⟨-, -, hr⟩ := edge_column hv h1
  rw [column, if_pos h2]
  have h0 : ∀ r ∈ ([1, 3, 5] : List Int), colError r ≠ 0 := by decide
  exact h0 _ (hr h2)

theorem colEdges_length (hv : lay.Valid) : 2 * (lay.colEdges.length : Int) = lay.data_height := by
  have hw := Valid.tw_pos hv
  have hh := Valid.th_pos hv
  have hdh := Valid.dh hv
  have hp : (lay.colEdges.map Edge.right).Perm ((List.range (lay.data_height / 2).toNat).map fun i : Nat => (⟨2, 4 * i + 2⟩ : Pt)) := by
    refine (List.perm_ext_iff_of_nodup (List.Nodup.map_on (fun a ha b hb h => right_inj hv (mem_colEdges.1 ha).1 (mem_colEdges.1 hb).1 h)
      ((nodup_round_edges hv 2).filter _)) (List.Nodup.map ?_ List.nodup_range)).2 fun q => ?_
    · intro i j h
      have := congrArg Pt.y h
      simp only at this
      omega
    · simp only [List.mem_map, List.mem_range]
      constructor
      · rintro ⟨e, he, rfl⟩
        obtain ⟨h1, h2⟩ := mem_colEdges.1 he
        obtain ⟨f1, f2⟩ := right_facts hv h1
        obtain ⟨⟨a, b, c, d⟩, e', f⟩ := (mem_data_qubit_coords hv).1 f1
        simp only [dataQubitParity, decide_eq_true_eq] at f2
        refine ⟨(e.right.y / 4).toNat, by omega, ?_⟩
        have hy : (4 * ((e.right.y / 4).toNat : Int) + 2) = e.right.y := by omega
        rw [hy, ← h2]
      · rintro ⟨i, hi, rfl⟩
        have hm : (⟨2, 4 * i + 2⟩ : Pt) ∈ lay.data_qubit_coords := by
          rw [mem_data_qubit_coords hv]
          refine ⟨⟨?_, ?_, ?_, ?_⟩, ?_, ?_⟩ <;> dsimp only <;> omega
        obtain ⟨e, he, h⟩ := exists_right hv hm (by simp only [dataQubitParity, decide_eq_true_eq]; omega) 2
        exact ⟨e, mem_colEdges.2 ⟨he, by rw [h]⟩, h⟩
  have := hp.length_eq
  rw [List.length_map, List.length_map, List.length_range] at this
  omega

/-! ## The end of a run -/

/-- The part of the circuit after the sub-rounds. -/
def epilogue (lay : HoneycombLayout) (N : Nat) : List Instr :=
  lay.basisChange (lay.obsAt N).1 ++ [.on .M lay.data_qubit_indices] ++ lay.emitFinal N N

theorem end_run (hv : lay.Valid) {F0 G : PauliOp} {c : Edge → ZMod 2} {R : List (ZMod 2)} (ha : lay.AbsRun F0 N c R G)
    (hG : ∀ q ∈ lay.data_qubit_coords, F (lay.idx q) = G q) (h : Runs F (actions (lay.epilogue N)) rec F') :
    ∃ Fs, Fs 0 = F0 ∧ (∀ k : Nat, k < N → ∀ e ∈ lay.round_edges k, ∃ r : ZMod 2, Fs (k + 1) e.left = Fs k e.left + r • (Basis.ofIdx k).pauli ∧
        Fs (k + 1) e.right = Fs k e.right + r • (Basis.ofIdx k).pauli) ∧
      lay.Recorded N Fs (recAt (R ++ rec)) ∧ (R ++ rec).length = N * lay.perRound + lay.data_qubit_coords.length := by
  rw [epilogue] at h
  obtain ⟨r11, r12, S6, g11, g12, rfl⟩ := runs_append_actions h
  rw [actions_nil_of_marks emitFinal_marks] at g12
  obtain ⟨rfl, rfl⟩ := runs_nil g12
  obtain ⟨r13, r14, S5, g13, g14, rfl⟩ := runs_append_actions g11
  obtain ⟨rfl, _, d2, _⟩ := eff_basisChange hv g13
  have hM : actions [Instr.on .M lay.data_qubit_indices] = lay.data_qubit_indices.map fun q => .measure [(.Z, q)] := by
    rw [actions, List.flatMap_cons, List.flatMap_nil, List.append_nil, Instr.actions]
    simp only [Instr.on, Instr.measures]
    rw [show (Instr.qubits ⟨.M, lay.data_qubit_indices.map .q, []⟩) = lay.data_qubit_indices from qubits_on .M _, List.map_map]
    rfl
  rw [hM] at g14
  obtain ⟨e1, _, _⟩ := runs_measure_Z g14
  have := ha.recorded_from hv (D := r14) (by
    rw [e1, data_qubit_indices, List.map_map]
    exact List.map_congr_left fun q hq => by rw [Function.comp, d2 q hq, hG q hq])
  simpa only [List.nil_append, List.append_nil] using this

theorem gap0_line (hO : lay.obs = "H") {q : Pt} (hq : q ∈ lay.data_qubit_coords) : column gap0 q = lay.lineFault q := by
  have hV : ¬ lay.obs = "V" := by rw [hO]; decide
  rw [column, lineFault, lineQubits, if_neg hV, if_neg hV]
  simp only [List.mem_filter, hq, true_and, decide_eq_true_eq, gap0]
  by_cases hx : q.x = 2
  · simp only [hx, if_true, true_and]
    refine if_congr ?_ rfl rfl
    omega
  · simp [hx]

/-- What the errors on the column do, in a circuit whose sub-rounds are `A ++ T`. -/
theorem column_end (hv : lay.Valid) (hs : lay.Supported) (hN : lay.sub_rounds = N) (hO : lay.obs = "H") (hE : lay.isEM3 = false) {d : Circuit}
    (hd : lay.makeCircuit = .ok d) {A T : List Instr} {E : Frame}
    (hrun : ∀ {S S1 S' : Frame} {r1 r2 : List (ZMod 2)}, (∀ j, ∀ e ∈ lay.round_edges j, (S (lay.idx e.center)).1 = 0) → Runs S (actions A) r1 S1 →
      Runs (S1 + E) (actions T) r2 S' → ∃ c G, lay.AbsRun (lay.pos S + column gap0) N c (r1 ++ r2) G ∧ ∀ q ∈ lay.data_qubit_coords, S' (lay.idx q) = G q)
    {G0 Ga Gb Gc : Frame} {ra rb rc : List (ZMod 2)} (ka : Runs G0 (actions lay.prologue) ra Ga) (kb : Runs Ga (actions A) rb Gb)
    (kc : Runs (Gb + E) (actions (T ++ lay.epilogue N)) rc Gc) :
    (∀ v ∈ detectorValues d.flatten (ra ++ rb ++ rc), v = some 0) ∧ observableValue lay.obsI d.flatten (ra ++ rb ++ rc) = some 1 := by
  obtain ⟨rfl, a1, a2⟩ := prologue_run hv ka
  obtain ⟨r1, r2, S', kt, ke, rfl⟩ := runs_append_actions kc
  obtain ⟨c, G, ha, hG⟩ := hrun (a2 hE) kb kt
  obtain ⟨Fs, e0, hst, hr, hl⟩ := end_run hv ha hG ke
  have h0 : ∀ q ∈ lay.data_qubit_coords, ∃ r : ZMod 2, Fs 0 q = r • (lay.obsAt 0).1.pauli + lay.lineFault q := by
    intro q hq
    obtain ⟨r, hr⟩ := a1 q hq
    exact ⟨r, by rw [e0, Pi.add_apply, gap0_line hO hq, pos, hr]⟩
  have h1 := closed_detectors hv hs hN (line_calm hv h0 hst) hr hl
  have h2 := closed_obs_value hv hs hN hr hl
  rw [line_value hv h0 hst] at h2
  rw [List.nil_append, ← List.append_assoc]
  refine ⟨fun v hvm => ?_, ?_⟩
  · obtain ⟨x, hx, rfl⟩ := List.mem_map.1 hvm
    rw [(noisy_run hv hs hN hd).1, List.mem_filter] at hx
    exact h1 x hx.1 (by simpa using hx.2)
  · rw [observableValue, ← (noisy_run hv hs hN hd).1] at h2
    exact h2

/-! ## The channel -/

theorem column_sampled (hv : lay.Valid) (hs : lay.Supported) (hN : lay.sub_rounds = N) (hO : lay.obs = "H") (hE : lay.isEM3 = false)
    {d : Circuit} (hd : lay.makeCircuit = .ok d) {A ops T : List Instr} {g : Gate} {φ : ZMod 2 → Pauli} (hφ : φ 0 = 0)
    (hhead : ∀ c, lay.generateNoiseless = .ok c → ∃ c3, c = Circuit.append (.ofList (lay.prologue ++ A ++ (ops ++ [.tick]))) c3)
    (hA : ∃ l, lay.prologue ++ A = l ++ [.tick]) (hnt : ∀ i ∈ ops, i.gate ≠ .TICK) (hg : .on g (lay.rightTargets (lay.round_edges 2)) ∈ ops)
    (hk : kind g = .clifford2) (hrate : ∀ nm, lay.noise_model = .ok nm → 0 < (nm.rate g).getD 0)
    (hall : lay.allRounds N = A ++ ops ++ [.tick] ++ T)
    (hrun : ∀ {S S1 S' E : Frame} {r1 r2 : List (ZMod 2)}, lay.ColErr φ E → (∀ j, ∀ e ∈ lay.round_edges j, (S (lay.idx e.center)).1 = 0) →
      Runs S (actions (A ++ ops)) r1 S1 → Runs (S1 + E) (actions T) r2 S' →
      ∃ c G, lay.AbsRun (lay.pos S + column gap0) N c (r1 ++ r2) G ∧ ∀ q ∈ lay.data_qubit_coords, S' (lay.idx q) = G q) :
    ∃ rec, CanSample lay.colEdges.length d.flatten rec ∧ (∀ v ∈ detectorValues d.flatten rec, v = some 0) ∧
      observableValue lay.obsI d.flatten rec = some 1 := by
  obtain ⟨c, nm, idle, hc, hnm, htk, hf, -, ht, hi, e⟩ := noisy_form hv hs hN hd
  have hi1 := fun ops i h => (hi ops i h).1
  obtain ⟨c3, rfl⟩ := hhead c hc
  obtain ⟨D, hD⟩ : ∃ D, lay.num_qubits.toNat = D := ⟨_, rfl⟩
  rw [hD] at ht e
  obtain ⟨l, hl⟩ := hA
  have hrest3 : c3.flatten = T ++ lay.epilogue N := by
    have h := (Circuit.flatten_append (.ofList (lay.prologue ++ A ++ (ops ++ [.tick]))) c3)
    rw [show (Circuit.ofList (lay.prologue ++ A ++ (ops ++ [.tick])) ++ c3).flatten = _ from hf, Circuit.flatten_ofList, closed_split, mainPart, hall] at h
    have h' : (lay.prologue ++ A ++ (ops ++ [.tick])) ++ (T ++ lay.epilogue N) = (lay.prologue ++ A ++ (ops ++ [.tick])) ++ c3.flatten := by
      rw [← h, epilogue]
      simp only [List.append_assoc]
    exact (List.append_cancel_left h').symm
  rw [ofList_append, hl] at ht e htk
  have hops : ∀ i ∈ l ++ [.tick] ++ ((ops ++ [.tick]) ++ c3.ops), lay.Tame D i ∧ lay.GoodI i := fun i him => ht i (by
    rw [ops_ofList_append, ops_ofList_append]; exact him)
  have htk3 : TickOK c3 := fun i him => htk i (by rw [ops_ofList_append, ops_ofList_append]; simp [him])
  have htick : lay.SimN D [.tick] [.tick] := .core rfl rfl .nil (fun P hP => by simp [Instr.measures, Instr.tick] at hP)
  obtain ⟨a, ha⟩ : ∃ a, (Circuit.append (.ofList (l ++ [.tick])) (Circuit.append (.ofList (ops ++ [.tick])) c3)).num_qubits = a := ⟨_, rfl⟩
  rw [ha] at e
  obtain ⟨p, ep, hsp⟩ := perStep_split (R := fun l l' => lay.SimN D l l') (fun a b a' b' h1 h2 => h1.append h2) htick (lay.Tame D)
    (f := fun _ ops => noisyOps nm D ops ++ idle ops) (fun _ ops ho => simN_ops ho (hi1 ops))
    (Circuit.append (.ofList (ops ++ [.tick])) c3) l a [] (fun i him =>
      ⟨(hops i (by simp [him])).1, htk i (by rw [ops_ofList_append]; simp [him])⟩) (by simp)
  rw [ep, perStep_tick c3 _ _ _ hnt, List.nil_append] at e
  rw [List.nil_append, ← hl] at hsp
  have hrest := perStep_rel (R := fun l l' => lay.SimN D l l') .nil (fun a b a' b' h1 h2 => h1.append h2) htick (lay.Tame D)
    (f := fun _ ops => noisyOps nm D ops ++ idle ops) (g := fun _ ops => ops)
    (fun _ ops ho => simN_ops ho (hi1 ops)) c3 (fun i hm => (hops i (by simp [hm])).1) a [] (by simp)
  rw [perStep_flatten c3 htk3, List.nil_append, hrest3] at hrest
  obtain ⟨Q, hQ⟩ : ∃ Q, perStep (fun _ ops => noisyOps nm D ops ++ idle ops) c3 a [] = Q := ⟨_, rfl⟩
  rw [hQ] at e hrest
  beta_reduce at e
  -- the channel
  obtain ⟨o1, o2, ho⟩ := List.append_of_mem hg
  obtain ⟨w, hw⟩ : ∃ w, (nm.rate g).getD 0 = w := ⟨_, rfl⟩
  have hwp : 0 < w := hw ▸ hrate nm hnm
  obtain ⟨B1, hB1⟩ : ∃ B1, (ops.flatMap fun i => noiseBefore nm i ((nm.rate i.gate).getD 0)) ++
      (ops.flatMap fun i => noisyCore nm D i ((nm.rate i.gate).getD 0)) ++ (o1.flatMap fun i => noiseAfter i ((nm.rate i.gate).getD 0)) = B1 := ⟨_, rfl⟩
  obtain ⟨B2, hB2⟩ : ∃ B2, (o2.flatMap fun i => noiseAfter i ((nm.rate i.gate).getD 0)) ++ idle ops = B2 := ⟨_, rfl⟩
  obtain ⟨ch, hch⟩ : ∃ ch, channel .DEPOLARIZE2 ((lay.rightTargets (lay.round_edges 2)).map .q) w = ch := ⟨_, rfl⟩
  have hform : noisyOps nm D ops ++ idle ops = B1 ++ ch :: B2 := by
    have hcha : noiseAfter (.on g (lay.rightTargets (lay.round_edges 2))) ((nm.rate (Instr.on g (lay.rightTargets (lay.round_edges 2))).gate).getD 0) = [ch] := by
      rw [noiseAfter, show (Instr.on g (lay.rightTargets (lay.round_edges 2))).gate = g from rfl, hw, if_neg (not_le.2 hwp), hk]
      simp only
      rw [← hch]
      rfl
    rw [← hB1, ← hB2, noisyOps]
    conv_lhs => rw [show (ops.flatMap fun i => noiseAfter i ((nm.rate i.gate).getD 0)) =
      (o1.flatMap fun i => noiseAfter i ((nm.rate i.gate).getD 0)) ++ (ch :: o2.flatMap fun i => noiseAfter i ((nm.rate i.gate).getD 0)) by
        rw [ho, List.flatMap_append, List.flatMap_cons, hcha]; rfl]
    simp only [List.append_assoc, List.cons_append]
  have hcha0 : actions [ch] = [] := by rw [← hch]; rfl
  have hB20 : actions B2 = [] := actions_eq_nil fun i hm => by
    rw [← hB2] at hm
    rcases List.mem_append.1 hm with hm | hm
    · obtain ⟨j, _, hj⟩ := List.mem_flatMap.1 hm
      exact noiseAfter_noise i hj
    · rw [(hi ops i hm).2]; rfl
  have hsB := (simN_ops (nm := nm) (D := D) (ops := ops) (idle := idle ops) (fun i him => (hops i (by simp [him])).1) (hi1 ops)).sim
  rw [hform, show B1 ++ ch :: B2 = B1 ++ ([ch] ++ B2) from rfl, actions_append, actions_append, hcha0, hB20, List.append_nil, List.append_nil] at hsB
  -- the run
  obtain ⟨E, hEE⟩ : ∃ E, (lay.colEdges.map (lay.colPair φ)).sum = E := ⟨_, rfl⟩
  have hcol : lay.ColErr φ E := hEE ▸ colErr_sum hv hφ
  obtain ⟨r1, F1, h1⟩ := runs_exists (fun _ => 0) (actions p)
  obtain ⟨r2, F2, h2⟩ := runs_exists F1 (actions B1)
  obtain ⟨r3, F3, h3⟩ := runs_exists (F2 + E) (actions Q)
  obtain ⟨G1, k1, q1⟩ := hsp.sim _ _ _ _ (fun _ _ => rfl : Off D (fun _ => 0) (fun _ => 0)) h1
  obtain ⟨G2, k2, q2⟩ := hsB _ G1 _ _ q1 h2
  obtain ⟨G3, k3, q3⟩ := hrest.sim _ (G2 + E) _ _ (fun x hx => by simp only [Pi.add_apply, q2 x hx]) h3
  obtain ⟨ra, rb, Ga, ka, kb, rfl⟩ := runs_append_actions k1
  have hend := column_end hv hs hN hO hE hd (A := A ++ ops) (T := T) (E := E) (fun hx ha hb => hrun hcol hx ha hb) ka
    (rb := rb ++ r2) (Gb := G2) (by rw [actions_append]; exact runs_append.2 ⟨_, _, _, kb, k2, rfl⟩) k3
  refine ⟨_, ⟨fun _ => 0, F3, fun _ => rfl, ?_⟩, hend⟩
  have herr := NoisyRuns.errors (F := F2) (F' := F3) (rec := r3) (n := 0) (l := B2 ++ [.tick] ++ Q) (i := ch) (lay.colEdges.map (lay.colPair φ)) (fun P hP => by
    obtain ⟨x, hx, rfl⟩ := List.mem_map.1 hP
    rw [← hch]
    refine ⟨⟨_, List.mem_singleton_self _, hwp⟩, (lay.idx x.right, lay.idx x.center), ?_, column colError x.right, φ (colFlip x), .inl (colError_right hv hx), rfl⟩
    show _ ∈ pairs (Instr.qubits (.on .DEPOLARIZE2 (lay.rightTargets (lay.round_edges 2))))
    rw [qubits_on, rightTargets, pairs_targets]
    exact List.mem_map.2 ⟨x, (mem_colEdges.1 hx).1, rfl⟩) (by
      rw [hEE]
      refine noisy_of_runs ?_
      rw [show ch :: (B2 ++ [.tick] ++ Q) = [ch] ++ (B2 ++ [.tick] ++ Q) from rfl, actions_append, hcha0, List.nil_append, actions_append, actions_append, hB20,
        show actions [Instr.tick] = [] from rfl]
      exact h3)
  have := (noisy_of_runs h1).join ((noisy_of_runs h2).join herr)
  rw [Nat.zero_add, Nat.zero_add, Nat.zero_add, List.length_map] at this
  rw [e, hform]
  simpa only [List.append_assoc, List.cons_append] using this

/-! ## The three styles -/

theorem head_of_rounds (hv : lay.Valid) (hs : lay.Supported) {c : Circuit} (hc : lay.generateNoiseless = .ok c) {Hd : List Instr}
    (h : ∀ m x, lay.Snap (lay.obsAt 0).1 0 m → lay.generateRounds m = .ok x → ∃ c1, x.1 = Circuit.append (.ofList Hd) c1) :
    ∃ c', c = Circuit.append (.ofList (lay.prologue ++ Hd)) c' := by
  obtain ⟨m, hm, hsn⟩ := init_ok hv hs.2.1
  simp only [generateNoiseless, hm, bind, Except.bind, pure, Except.pure] at hc
  cases h1 : lay.generateRounds m with
  | error e => rw [h1] at hc; cases hc
  | ok x =>
    rw [h1] at hc
    simp only at hc
    cases h2 : lay.faultTolerantMeasurement x.2 with
    | error e => rw [h2] at hc; cases hc
    | ok y =>
      rw [h2] at hc
      simp only [Except.ok.injEq] at hc
      obtain ⟨c1, h3⟩ := h m x hsn h1
      refine ⟨Circuit.append c1 (.ofList y.1), ?_⟩
      rw [← hc, h3, ofList_append]
      show Circuit.append (Circuit.append (.ofList lay.prologue) (Circuit.append _ _)) _ = _
      rw [circuit_append_assoc, circuit_append_assoc]

theorem head_of_more {c : Circuit} {a b : List Instr} (h : ∃ c', c = Circuit.append (.ofList (a ++ b)) c') : ∃ c', c = Circuit.append (.ofList a) c' := by
  obtain ⟨c', rfl⟩ := h
  exact ⟨_, ofList_append _ _ _⟩

theorem sd6_head (hv : lay.Valid) (hs : lay.Supported) (hst : lay.style = "SD6") (hN : lay.sub_rounds = N) (h6 : 6 ≤ N) {m : MT} {x : Circuit × MT}
    (hm : lay.Snap (lay.obsAt 0).1 0 m) (hx : lay.generateRounds m = .ok x) :
    ∃ c1, x.1 = Circuit.append (.ofList (lay.sd6Start ++ (List.range 4).flatMap lay.sd6Emit)) c1 := by
  obtain ⟨m1, f1, s1⟩ := forRounds_ok (good_sd6 hv hs.2.1 N) 4 (k := 0) (i := 0) hm (by simp) (by omega)
  have f1' : forRounds lay.sd6PipelineStep m (roundsFrom 0 4) = .ok ((List.range 4).flatMap lay.sd6Emit, m1) := by
    simpa using f1
  have enx : max (0 : Int) (min 4 ((N : Int) - 2)) = 4 := by omega
  rw [generateRounds, if_pos hst, generateRoundsSd6, hN] at hx
  simp only [enx, pyRange_eq, show (4 : Int).toNat = 4 from rfl, f1', bind, Except.bind, pure, Except.pure] at hx
  rw [if_neg (by omega), if_neg (by omega)] at hx
  repeat' split at hx
  all_goals first
    | exact ⟨_, (congrArg Prod.fst (Except.ok.inj hx)).symm.trans (circuit_append_assoc _ _ _)⟩
    | cases hx

theorem pc3_head (hv : lay.Valid) (hs : lay.Supported) (hst : lay.style = "PC3") (hN : lay.sub_rounds = N) (h6 : 6 ≤ N) {m : MT} {x : Circuit × MT}
    (hm : lay.Snap (lay.obsAt 0).1 0 m) (hx : lay.generateRounds m = .ok x) :
    ∃ c1, x.1 = Circuit.append (.ofList ((List.range 4).flatMap (lay.pc3Emit N))) c1 := by
  rw [generateRounds, if_neg (by rw [hst]; decide), if_pos hst, generateRoundsPc3, hN, if_neg (by omega)] at hx
  cases h3 : momentLoop lay.pc3Moment N (N + 2) 12 0 [] m with
  | error e => rw [h3] at hx; cases hx
  | ok z =>
    rw [h3] at hx
    simp only [bind, Except.bind, pure, Except.pure] at hx
    split at hx
    · cases hx
    · obtain ⟨m1, e1, -⟩ := momentLoop_steps (n := (N : Int)) (at_ := 12) (good_pc3 hv hs.2.1 hN) 4 (k := 0) (i := 0) hm (by simp) (by omega)
        (fun i hi h => by have := h.1; omega) []
      have e1' : momentLoop lay.pc3Moment N (N + 2) 12 0 [] m = _ := e1
      rw [h3] at e1'
      obtain ⟨t, ht⟩ := momentLoop_prefix (pre := (List.range 4).map fun i => .ofList (lay.pc3Emit N i)) (by rw [List.length_map, List.length_range]; omega)
        _ _ _ _ _ _ (le_refl _) e1'.symm (by simp) (fun _ => by simp)
      rw [← Except.ok.inj hx]
      simp only
      rw [← ht, joinMoments_prefix]
      exact ⟨_, circuit_append_assoc _ _ _⟩

theorem si_head (hv : lay.Valid) (hs : lay.Supported) (hst : lay.style = "SI1000") {m : MT} {x : Circuit × MT}
    (hm : lay.Snap (lay.obsAt 0).1 0 m) (hx : lay.generateRounds m = .ok x) :
    ∃ c1, x.1 = Circuit.append (.ofList (lay.si1000Emit 0)) c1 := by
  obtain ⟨m1, h1, -⟩ := si1000_cycle hv hs.2.1 (j := 0) hm
  have h1' : lay.generateCycleSI1000 m 0 = .ok (lay.si1000Emit 0, m1) := h1
  have hE : lay.isEM3 = false := by rw [isEM3, hst]; rfl
  rw [generateRounds, if_neg (by rw [hst]; decide), if_neg (by rw [hst]; decide), if_neg (by rw [hE]; decide), if_pos hst, generateRoundsSI1000] at hx
  simp only [h1', bind, Except.bind, pure, Except.pure] at hx
  rw [if_neg (by have := hs.2.2.1; omega), if_neg (by have := hs.2.2.2 hst; omega)] at hx
  repeat' split at hx
  all_goals first
    | exact ⟨_, (congrArg Prod.fst (Except.ok.inj hx)).symm.trans (ofList_append _ _ _)⟩
    | cases hx

theorem emitMD_no_tick (k : Nat) : ∀ i ∈ lay.emitMD k, i.gate ≠ .TICK := by
  intro i hi
  rw [emitMD, List.mem_append] at hi
  rcases hi with hi | hi
  · rw [emitMeas] at hi
    split_ifs at hi
    · simp at hi
    · rw [List.mem_singleton] at hi
      subst hi
      exact (by decide : Gate.M ≠ .TICK)
  · rcases (isMark_iff i).1 (emitAnn_marks k i hi) with h | h | h <;> rw [h] <;> decide

/-- Half as many errors as there are rows of data qubits flip the horizontal observable and no detector. -/
theorem column_drawn (hv : lay.Valid) (hs : lay.Supported) (hN : lay.sub_rounds = N) (h6 : 6 ≤ N) (hO : lay.obs = "H")
    (hst : lay.style ∈ ["SD6", "PC3", "SI1000"]) (hp : 0 < lay.noise) {d : Circuit} (hd : lay.makeCircuit = .ok d) :
    ∃ rec, CanSample lay.colEdges.length d.flatten rec ∧ (∀ v ∈ detectorValues d.flatten rec, v = some 0) ∧
      observableValue lay.obsI d.flatten rec = some 1 := by
  obtain ⟨lp, hlp⟩ := prologue_tick lay
  simp only [List.mem_cons, List.not_mem_nil, or_false] at hst
  rcases hst with hst | hst | hst
  · obtain ⟨M, rfl⟩ : ∃ M, N = M + 6 := ⟨N - 6, by omega⟩
    have hE : lay.isEM3 = false := by rw [isEM3, hst]; rfl
    have hP : lay.isPC3 = false := by rw [isPC3, hst]; rfl
    refine column_sampled hv hs hN hO hE hd (A := lay.sd6Start ++ (List.range 2).flatMap lay.sd6Emit)
      (ops := (lay.subRound2qOps ((2 : Nat) + 1)).1 ++ (lay.subRound2qOps (2 : Nat)).2)
      (T := (lay.subRoundResets (((2 : Nat) : Int) + 2) ++ lay.cycleData true true ++ lay.emitMD 2 ++ [.tick]) ++ lay.sd6Emit 3 ++
        (List.range M).flatMap (fun i => lay.sd6Emit (4 + i)) ++ lay.sd6EndEmit (M + 6) ++ lay.sd6Realign)
      (g := .CX) (φ := fun r => (r, 0)) rfl ?_ ?_ ?_ ?_ rfl ?_ ?_ ?_
    · intro c hc
      have h := head_of_rounds hv hs hc (fun m x hm hx => sd6_head hv hs hst hN h6 hm hx)
      refine head_of_more (b := (lay.subRoundResets (((2 : Nat) : Int) + 2) ++ lay.cycleData true true ++ lay.emitMD 2 ++ [.tick]) ++ lay.sd6Emit 3) ?_
      convert h using 5
      simp only [List.range_succ, List.range_zero, List.nil_append, List.flatMap_append, List.flatMap_cons, List.flatMap_nil, List.append_nil,
        show lay.sd6Emit 2 = (lay.subRound2qOps ((2 : Nat) + 1)).1 ++ (lay.subRound2qOps (2 : Nat)).2 ++ [.tick] ++ lay.subRoundResets (((2 : Nat) : Int) + 2) ++
          lay.cycleData true true ++ lay.emitMD 2 ++ [.tick] from rfl, List.append_assoc]
    · refine ⟨lay.prologue ++ (lay.sd6Start ++ lay.sd6Emit 0 ++ ((lay.subRound2qOps ((1 : Nat) + 1)).1 ++ (lay.subRound2qOps (1 : Nat)).2 ++ [.tick] ++
        lay.subRoundResets (((1 : Nat) : Int) + 2) ++ lay.cycleData true true ++ lay.emitMD 1)), ?_⟩
      simp only [List.range_succ, List.range_zero, List.nil_append, List.flatMap_append, List.flatMap_cons, List.flatMap_nil, List.append_nil,
        show lay.sd6Emit 1 = (lay.subRound2qOps ((1 : Nat) + 1)).1 ++ (lay.subRound2qOps (1 : Nat)).2 ++ [.tick] ++ lay.subRoundResets (((1 : Nat) : Int) + 2) ++
          lay.cycleData true true ++ lay.emitMD 1 ++ [.tick] from rfl, List.append_assoc]
    · intro i hi
      simp only [subRound2qOps, List.cons_append, List.nil_append, List.mem_cons, List.not_mem_nil, or_false] at hi
      rcases hi with rfl | rfl <;> exact (by decide : Gate.CX ≠ .TICK)
    · simp only [subRound2qOps, List.cons_append, List.nil_append, List.mem_cons, List.not_mem_nil, or_false]
      exact .inr rfl
    · intro nm hnm
      simp [noise_model, hst] at hnm
      subst hnm
      simp [NoiseModel.rate, NoiseModel.SD6, hp]
    · rw [allRounds, if_pos hst, sd6All, if_neg (by omega), show M + 6 - 2 = 4 + M by omega, List.range_add, List.flatMap_append, List.flatMap_map]
      simp only [List.range_succ (n := 3), List.range_succ (n := 2), List.flatMap_append, List.flatMap_cons, List.flatMap_nil, List.append_nil,
        show lay.sd6Emit 2 = (lay.subRound2qOps ((2 : Nat) + 1)).1 ++ (lay.subRound2qOps (2 : Nat)).2 ++ [.tick] ++ lay.subRoundResets (((2 : Nat) : Int) + 2) ++
          lay.cycleData true true ++ lay.emitMD 2 ++ [.tick] from rfl, List.append_assoc]
    · intro S S1 S' E r1 r2 hEE _ h1 h2
      refine sd6_column hv hE hP hN hEE (S1 := S1) h1 ?_
      rw [sd6Tail]
      simp only [List.append_assoc] at h2 ⊢
      exact h2
  · obtain ⟨M, rfl⟩ : ∃ M, N = M + 5 := ⟨N - 5, by omega⟩
    have hE : lay.isEM3 = false := by rw [isEM3, hst]; rfl
    have hP : lay.isPC3 = true := by rw [isPC3, hst]; rfl
    obtain ⟨ops, hops⟩ : ∃ ops, (if 3 < M + 5 then [Instr.on (basisCX (sub_round_edge_basis (3 : Nat))) (lay.leftTargets (lay.round_edges (3 : Nat)))] else []) ++
      (if 1 ≤ 3 ∧ 3 - 1 < M + 5 then
        [Instr.on (basisCX (sub_round_edge_basis (((3 : Nat) : Int) - 1))) (lay.rightTargets (lay.round_edges (((3 : Nat) : Int) - 1)))] else []) ++
      lay.emitMD 1 = ops := ⟨_, rfl⟩
    have he3 : lay.pc3Emit (M + 5) 3 = ops ++ [.tick] := by rw [← hops, pc3Emit]; rfl
    have hops2 : ops = .on (basisCX (sub_round_edge_basis (3 : Nat))) (lay.leftTargets (lay.round_edges (3 : Nat))) ::
        .on .CX (lay.rightTargets (lay.round_edges 2)) :: lay.emitMD 1 := by
      rw [← hops, if_pos (by omega), if_pos (by omega)]; rfl
    refine column_sampled hv hs hN hO hE hd (A := (List.range 3).flatMap (lay.pc3Emit (M + 5))) (ops := ops) (T := lay.pc3Tail M)
      (g := .CX) (φ := fun r => (r, 0)) rfl ?_ ?_ ?_ ?_ rfl ?_ ?_ ?_
    · intro c hc
      have h := head_of_rounds hv hs hc (fun m x hm hx => pc3_head hv hs hst hN h6 hm hx)
      rw [List.range_succ, List.flatMap_append, List.flatMap_cons, List.flatMap_nil, List.append_nil, he3, ← List.append_assoc] at h
      exact h
    · refine ⟨lay.prologue ++ (lay.pc3Emit (M + 5) 0 ++ lay.pc3Emit (M + 5) 1 ++ ((if 2 < M + 5 then [Instr.on (basisCX (sub_round_edge_basis (2 : Nat))) (lay.leftTargets (lay.round_edges (2 : Nat)))] else []) ++
        (if 1 ≤ 2 ∧ 2 - 1 < M + 5 then
          [Instr.on (basisCX (sub_round_edge_basis (((2 : Nat) : Int) - 1))) (lay.rightTargets (lay.round_edges (((2 : Nat) : Int) - 1)))] else []) ++
        lay.emitMD 0)), ?_⟩
      have he2 : lay.pc3Emit (M + 5) 2 = ((if 2 < M + 5 then [Instr.on (basisCX (sub_round_edge_basis (2 : Nat))) (lay.leftTargets (lay.round_edges (2 : Nat)))] else []) ++
        (if 1 ≤ 2 ∧ 2 - 1 < M + 5 then
          [Instr.on (basisCX (sub_round_edge_basis (((2 : Nat) : Int) - 1))) (lay.rightTargets (lay.round_edges (((2 : Nat) : Int) - 1)))] else []) ++
        lay.emitMD 0) ++ [.tick] := by rw [pc3Emit]; rfl
      rw [List.range_succ, List.flatMap_append, List.flatMap_cons, List.flatMap_nil, List.append_nil, he2]
      simp only [List.range_succ, List.range_zero, List.nil_append, List.flatMap_append, List.flatMap_cons, List.flatMap_nil, List.append_nil, List.append_assoc]
    · intro i hi
      rw [hops2] at hi
      rcases List.mem_cons.1 hi with rfl | hi
      · exact (fun b => by cases b <;> decide : ∀ b : Basis, basisCX b ≠ .TICK) (sub_round_edge_basis (3 : Nat))
      · rcases List.mem_cons.1 hi with rfl | hi
        · exact (by decide : Gate.CX ≠ .TICK)
        · exact emitMD_no_tick 1 i hi
    · rw [hops2]; simp
    · intro nm hnm
      simp [noise_model, hst] at hnm
      subst hnm
      simp [NoiseModel.rate, NoiseModel.PC3, hp, kind]
    · rw [allRounds, if_neg (by rw [hst]; decide), if_pos hst, pc3All, show M + 5 + 2 = 5 + M + 1 + 1 by omega, List.range_succ, List.range_succ, List.range_add,
        pc3Tail]
      simp only [List.range_succ (n := 4), List.range_succ (n := 3), List.flatMap_append, List.flatMap_cons, List.flatMap_nil, List.append_nil, List.flatMap_map,
        he3, List.append_assoc, show 5 + M = M + 5 by omega, show 5 + M + 1 = M + 5 + 1 by omega]
    · intro S S1 S' E r1 r2 hEE hx h1 h2
      refine pc3_column hv hE hP hx hEE (S1 := S1) ?_ h2
      rw [pc3Head, List.range_succ, List.flatMap_append, List.flatMap_cons, List.flatMap_nil, List.append_nil, he3, ← List.append_assoc, actions_append,
        show actions [Instr.tick] = [] from rfl, List.append_nil]
      exact h1
  · have hE : lay.isEM3 = false := by rw [isEM3, hst]; rfl
    have hP : lay.isPC3 = false := by rw [isPC3, hst]; rfl
    have h3 := hs.2.2.2 hst
    obtain ⟨M, rfl⟩ : ∃ M, N = 3 * (2 + M) := ⟨N / 3 - 2, by omega⟩
    obtain ⟨A, hA⟩ : ∃ A, [Instr.on .C_ZYX lay.data_qubit_indices_1st, .on .H lay.measure_qubit_indices, .tick] ++ (lay.si1000Layer 0 ++ lay.si1000Layer 1 ++
      [Instr.on .C_ZYX lay.data_qubit_indices_2nd, .on .CZ (lay.leftTargets (lay.round_edges 2)), .tick]) = A := ⟨_, rfl⟩
    have hfr : lay.si1000Front 0 = A ++ ([.on .CZ (lay.rightTargets (lay.round_edges 2))] ++ [.tick]) := by
      rw [← hA, si1000Front]
      simp [pyRange, List.range_succ, si1000Layer]
    refine column_sampled hv hs hN hO hE hd (A := A) (ops := [.on .CZ (lay.rightTargets (lay.round_edges 2))]) (T := lay.si1000Tail M)
      (g := .CZ) (φ := fun r => (0, r)) rfl ?_ ?_ ?_ (by simp) rfl ?_ ?_ ?_
    · intro c hc
      have h := head_of_rounds hv hs hc (fun m x hm hx => si_head hv hs hst hm hx)
      rw [si1000Emit_parts, hfr, ← List.append_assoc, ← List.append_assoc] at h
      exact head_of_more h
    · refine ⟨lay.prologue ++ ([Instr.on .C_ZYX lay.data_qubit_indices_1st, .on .H lay.measure_qubit_indices, .tick] ++ (lay.si1000Layer 0 ++ lay.si1000Layer 1 ++
        [Instr.on .C_ZYX lay.data_qubit_indices_2nd, .on .CZ (lay.leftTargets (lay.round_edges 2))])), ?_⟩
      rw [← hA]
      simp
    · intro i hi
      rw [List.mem_singleton] at hi
      subst hi
      exact (by decide : Gate.CZ ≠ .TICK)
    · intro nm hnm
      simp [noise_model, hst] at hnm
      subst hnm
      simp [NoiseModel.rate, NoiseModel.SI1000, hp]
    · rw [allRounds, if_neg (by rw [hst]; decide), if_neg (by rw [hst]; decide), if_neg (by rw [hE]; decide), si1000All, show 3 * (2 + M) / 3 = 2 + M by omega,
        List.range_add, List.flatMap_append, List.flatMap_map, si1000Tail]
      simp only [List.range_succ, List.range_zero, List.nil_append, List.flatMap_append, List.flatMap_cons, List.flatMap_nil, List.append_nil, List.append_assoc,
        si1000Emit_parts (j := 0), hfr]
    · intro S S1 S' E r1 r2 hEE hx h1 h2
      refine si_column hv hE hP hx hEE (S1 := S1) ?_ h2
      rw [hfr, ← List.append_assoc, actions_append, show actions [Instr.tick] = [] from rfl, List.append_nil]
      exact h1

end HoneycombLayout
end Honeycomb
