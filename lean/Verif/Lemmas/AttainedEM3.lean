import Verif.Lemmas.Attained

/-! # Errors of the parity measurements that cause an undetected flip of the observable (EM3 and EM3_v2) -/

namespace Honeycomb
namespace HoneycombLayout
variable {lay : HoneycombLayout} {F F' : Frame} {rec : List (ZMod 2)} {N D : Nat}

/-! ## The first moments are not in a loop -/

theorem momentLoop_prefix {step : MT → Int → Except PyErr (List Instr × MT)} {n stop at_ : Int} {pre : List Circuit} (hpre : (pre.length : Int) + 3 ≤ at_)
    (w : Nat) : ∀ (k : Int) (moments : List Circuit) (m : MT) (ms : List Circuit) (m' : MT), (stop - k).toNat ≤ w →
      momentLoop step n stop at_ k moments m = .ok (ms, m') → pre <+: moments → (k < at_ → (moments.length : Int) = k) → pre <+: ms := by
  induction w with
  | zero =>
    intro k moments m ms m' hw h hp _
    rw [momentLoop_done (by omega)] at h
    cases h
    exact hp
  | succ w ih =>
    intro k moments m ms m' hw h hp hk
    by_cases hlt : k < stop
    · rw [momentLoop, dif_pos hlt] at h
      cases hst : step m k with
      | error e => rw [hst] at h; cases h
      | ok x =>
        rw [hst] at h
        simp only at h
        have hp' : pre <+: moments ++ [.ofList x.1] := hp.trans (List.prefix_append _ _)
        split_ifs at h with hi
        · refine ih _ _ _ _ _ (by omega) h ?_ (fun hc => by omega)
          rw [foldLast3]
          refine List.IsPrefix.trans ?_ (List.prefix_append _ _)
          rw [List.prefix_take_iff]
          refine ⟨hp', ?_⟩
          have := hk (by omega)
          rw [List.length_append, List.length_singleton]
          omega
        · refine ih _ _ _ _ _ (by omega) h hp' (fun hc => ?_)
          rw [List.length_append, List.length_singleton]
          have := hk (by omega)
          omega
    · rw [momentLoop_done (by omega)] at h
      cases h
      exact hp

theorem foldl_append_circuit (l : List Circuit) : ∀ c : Circuit, l.foldl (· ++ ·) c = Circuit.append c (joinMoments l) := by
  induction l with
  | nil =>
    intro c
    rw [joinMoments, List.foldl_nil, List.foldl_nil]
    induction c with
    | nil => rfl
    | op i c ih => rw [Circuit.append, ← ih]
    | rep n b c _ ih => rw [Circuit.append, ← ih]
  | cons a l ih =>
    intro c
    have h : joinMoments (a :: l) = Circuit.append a (joinMoments l) := by
      rw [← ih a]
      rfl
    rw [List.foldl_cons, ih, h]
    exact circuit_append_assoc c a (joinMoments l)

theorem joinMoments_prefix (f : Nat → List Instr) (l : List Nat) (y : List Circuit) :
    joinMoments (l.map (fun i => .ofList (f i)) ++ y) = Circuit.append (.ofList (l.flatMap f)) (joinMoments y) := by
  induction l with
  | nil => rfl
  | cons a l ih =>
    rw [List.map_cons, List.cons_append, joinMoments, List.foldl_cons, foldl_append_circuit, ih, List.flatMap_cons, ofList_append]
    rfl

theorem em3_head (hv : lay.Valid) (hs : lay.Supported) (hE : lay.isEM3 = true) (hN : lay.sub_rounds = N) {c : Circuit} (hc : lay.generateNoiseless = .ok c)
    {j : Nat} (hj : j ≤ N) (hj4 : j ≤ 4) : ∃ c', c = Circuit.append (.ofList (lay.prologue ++ (List.range j).flatMap lay.em3Emit)) c' := by
  obtain ⟨m, hm, hsn⟩ := init_ok hv hs.2.1
  simp only [generateNoiseless, hm, bind, Except.bind, pure, Except.pure] at hc
  cases h1 : lay.generateRounds m with
  | error e => rw [h1] at hc; cases hc
  | ok x =>
    rw [h1] at hc
    simp only at hc
    cases h2 : lay.faultTolerantMeasurement x.2 with
    | error e => rw [h2] at hc; cases hc
    | ok y =>
      rw [h2] at hc
      simp only [Except.ok.injEq] at hc
      have hstyle : lay.style = "EM3" ∨ lay.style = "EM3_v2" := by simpa [isEM3] using hE
      have hr : lay.generateRounds m = lay.generateRoundsEm3 m := by
        rw [generateRounds, if_neg (by rcases hstyle with h | h <;> rw [h] <;> decide), if_neg (by rcases hstyle with h | h <;> rw [h] <;> decide), if_pos hE]
      rw [hr, generateRoundsEm3, hN] at h1
      have h1N := hs.2.2.1
      rw [if_neg (by omega)] at h1
      cases h3 : momentLoop lay.em3Moment N N 7 0 [] m with
      | error e => rw [h3] at h1; cases h1
      | ok z =>
        rw [h3] at h1
        simp only [bind, Except.bind, pure, Except.pure, Except.ok.injEq] at h1
        obtain ⟨m1, e1, -⟩ := momentLoop_steps (n := (N : Int)) (at_ := 7) (good_em3 hv hs.2.1 N) j (k := 0) (i := 0) hsn (by simp) (by omega)
          (fun i hi h => by have := h.1; omega) []
        have e1' : momentLoop lay.em3Moment N N 7 0 [] m = _ := e1
        rw [h3] at e1'
        obtain ⟨t, ht⟩ := momentLoop_prefix (pre := (List.range j).map fun i => .ofList (lay.em3Emit i)) (by rw [List.length_map, List.length_range]; omega)
          _ _ _ _ _ _ (le_refl _) e1'.symm (by simp) (fun _ => by simp)
        refine ⟨Circuit.append (joinMoments t) (.ofList y.1), ?_⟩
        rw [← hc, ← h1]
        simp only
        rw [← ht, joinMoments_prefix]
        rw [ofList_append]
        show Circuit.append (Circuit.append (.ofList lay.prologue) (Circuit.append _ _)) _ = _
        rw [circuit_append_assoc, circuit_append_assoc]

/-! ## Errors of one parity measurement instruction -/

/-- The parity measurement of sub-round `k`. -/
def mppOf (lay : HoneycombLayout) (k : Nat) : Instr :=
  { gate := .MPP, targets := (lay.round_edges k).flatMap fun e =>
    [.pauli (sub_round_edge_basis k) (lay.idx e.left), .comb, .pauli (sub_round_edge_basis k) (lay.idx e.right)] }

theorem em3Emit_eq (k : Nat) : lay.em3Emit k = lay.mppOf k :: lay.emitMD k ++ [.tick] := rfl

theorem mpp_targets (k : Nat) : (lay.mppOf k).targets =
    pairTargets ((lay.round_edges k).map fun e => ((sub_round_edge_basis k, lay.idx e.left), (sub_round_edge_basis k, lay.idx e.right))) := by
  rw [pairTargets, List.flatMap_map]
  rfl

theorem mpp_qubits (k : Nat) : (lay.mppOf k).qubits = (lay.round_edges k).flatMap fun e => [lay.idx e.left, lay.idx e.right] := by
  rw [Instr.qubits, mpp_targets, pairTargets_qubits, List.flatMap_map]

theorem mpp_actions (k : Nat) : (lay.mppOf k).actions =
    ((lay.round_edges k).map fun e => [(sub_round_edge_basis k, lay.idx e.left), (sub_round_edge_basis k, lay.idx e.right)]).map .measure := by
  have h : (lay.mppOf k).actions = (lay.mppOf k).measures.map .measure := rfl
  have h2 : (lay.mppOf k).measures = mppGroups (lay.mppOf k).targets := rfl
  rw [h, h2, mpp_targets, mppGroups_pair, List.map_map, List.map_map, List.map_map]
  rfl

theorem mpp_errors (hv : lay.Valid) {nm : NoiseModel} {k : Nat} {md T : List Instr} {c : Basis} (χ : Nat × Nat → Bool) (hp : 0 < (nm.rate .MPP).getD 0)
    (hD : ∀ q ∈ lay.data_qubit_coords, lay.idx q ≠ D)
    (h : Runs (F + onQubits c.pauli ((((lay.round_edges k).map fun e => (lay.idx e.left, lay.idx e.right)).filter χ).flatMap fun g => [g.1, g.2]))
      (actions (noisyOps nm D (lay.mppOf k :: md) ++ T)) rec F') :
    NoisyRuns F (noisyOps nm D (lay.mppOf k :: md) ++ T) rec F' (((lay.round_edges k).map fun e => (lay.idx e.left, lay.idx e.right)).filter χ).length := by
  obtain ⟨gs, hgs⟩ : ∃ gs, ((lay.round_edges k).map fun e => (lay.idx e.left, lay.idx e.right)) = gs := ⟨_, rfl⟩
  have hn : (gs.flatMap fun g => [g.1, g.2]).Nodup := by
    rw [← hgs, List.flatMap_map]
    exact (covers_ends hv k).1
  have hnf : ((gs.filter χ).flatMap fun g => [g.1, g.2]).Nodup :=
    hn.sublist (List.filter_sublist.flatMap _)
  have hne : ∀ g ∈ gs, g.1 ≠ g.2 := by
    intro g hg
    have := (List.nodup_flatMap.1 hn).1 g hg
    simpa using this
  have hgD : ∀ g ∈ gs, g.1 ≠ D ∧ g.2 ≠ D := by
    intro g hg
    rw [← hgs] at hg
    obtain ⟨e, he, rfl⟩ := List.mem_map.1 hg
    have := edge_ends_data hv (round_edges_subset_all he)
    exact ⟨hD _ this.1, hD _ this.2⟩
  rw [hgs] at h ⊢
  cases hc : nm.use_correlated_parity_measurement_errors with
  | false =>
    have hb : noiseBefore nm (lay.mppOf k) ((nm.rate .MPP).getD 0) = [channel .DEPOLARIZE2 ((lay.mppOf k).qubits.map .q) ((nm.rate .MPP).getD 0)] := by
      rw [noiseBefore, if_neg (not_le.2 hp)]
      simp only [mppOf, kind, hc, Bool.false_eq_true, if_false]
    obtain ⟨X, hX⟩ : ∃ X, noisyOps nm D (lay.mppOf k :: md) ++ T = channel .DEPOLARIZE2 ((lay.mppOf k).qubits.map .q) ((nm.rate .MPP).getD 0) :: X := by
      have hb' : noiseBefore nm (lay.mppOf k) ((nm.rate (lay.mppOf k).gate).getD 0) = _ := hb
      rw [noisyOps, List.flatMap_cons, hb']
      simp only [List.cons_append, List.nil_append]
      exact ⟨_, rfl⟩
    rw [hX] at h ⊢
    have hsum : ((gs.filter χ).map fun g => Frame.mul (Frame.mul (fun _ => 0) g.1 c.pauli) g.2 c.pauli).sum =
        onQubits c.pauli ((gs.filter χ).flatMap fun g => [g.1, g.2]) := by
      rw [onQubits_flatMap _ _ _ hnf]
      congr 1
      exact List.map_congr_left fun g hg => pair_eq _ (hne g (List.mem_filter.1 hg).1)
    have := NoisyRuns.errors (F := F) (F' := F') (rec := rec) (n := 0) (l := X) (i := channel .DEPOLARIZE2 ((lay.mppOf k).qubits.map .q) ((nm.rate .MPP).getD 0))
      ((gs.filter χ).map fun g => Frame.mul (Frame.mul (fun _ => 0) g.1 c.pauli) g.2 c.pauli) (fun P hP => by
        obtain ⟨g, hg, rfl⟩ := List.mem_map.1 hP
        refine ⟨⟨_, List.mem_singleton_self _, hp⟩, g, ?_, c.pauli, c.pauli, .inl (by cases c <;> decide), rfl⟩
        show g ∈ pairs (Instr.qubits (.on .DEPOLARIZE2 (lay.mppOf k).qubits))
        rw [qubits_on, mpp_qubits, pairs_targets (lay.round_edges k) (fun e => lay.idx e.left) (fun e => lay.idx e.right), hgs]
        exact (List.mem_filter.1 hg).1) (by rw [hsum]; exact noisy_of_runs h)
    rwa [List.length_map, Nat.zero_add] at this
  | true =>
    have hcore : noisyCore nm D (lay.mppOf k) ((nm.rate .MPP).getD 0) =
        gs.flatMap fun g => parityMeasurementWithCorrelatedNoise (sub_round_edge_basis k) g.1 (sub_round_edge_basis k) g.2 D ((nm.rate .MPP).getD 0) := by
      rw [noisyCore, if_neg (not_le.2 hp)]
      have hk : kind (lay.mppOf k).gate = .parity := rfl
      simp only [hk, hc, if_true]
      rw [mpp_targets, mppGroups_pair, List.map_map, List.flatMap_map, ← hgs, List.flatMap_map]
      rfl
    obtain ⟨B, X, hB, hX⟩ : ∃ B X, actions B = [] ∧ noisyOps nm D (lay.mppOf k :: md) ++ T = B ++ (noisyCore nm D (lay.mppOf k) ((nm.rate .MPP).getD 0) ++ X) := by
      rw [noisyOps, List.flatMap_cons (f := fun i => noisyCore nm D i ((nm.rate i.gate).getD 0))]
      simp only [List.append_assoc]
      exact ⟨(lay.mppOf k :: md).flatMap fun i => noiseBefore nm i ((nm.rate i.gate).getD 0), _, actions_eq_nil fun i hm => by
        obtain ⟨j, _, hj⟩ := List.mem_flatMap.1 hm
        exact noiseBefore_noise i hj, rfl⟩
    rw [hX, hcore] at h ⊢
    rw [actions_append, hB, List.nil_append, actions_append] at h
    obtain ⟨r1, r2, F1, h1, h2, rfl⟩ := runs_append.1 h
    have e0 : NoisyRuns F B [] F 0 := noisy_of_runs (by rw [hB]; exact .nil F)
    have := e0.join ((gadgets_errors hp χ gs hn hgD h1).join (noisy_of_runs h2))
    rwa [Nat.zero_add, Nat.add_zero, List.nil_append] at this

/-! ## The edges of the line -/

/-- The sub-round whose edges pair the line. -/
def lineRound (lay : HoneycombLayout) : Nat := if lay.obs = "V" then 1 else 0

theorem line_edge (hv : lay.Valid) {e : Edge} (he : e ∈ lay.round_edges lay.lineRound) : e.left ∈ lay.lineQubits ↔ e.right ∈ lay.lineQubits := by
  have hd := edge_ends_data hv (round_edges_subset_all he)
  have key : ∀ q ∈ lay.data_qubit_coords, q ∈ lay.lineQubits ↔ lay.lineFault q ≠ 0 := by
    intro q _
    rw [lineFault]
    split_ifs with h1 h2
    · simp [h1, Basis.pauli]
    · simp [h1, Basis.pauli]
    · simp [h1]
  rw [key _ hd.1, key _ hd.2, lineFault_loop hv hd.1, lineFault_loop hv hd.2]
  rw [lineRound] at he
  by_cases hV : lay.obs = "V"
  · rw [if_pos hV] at he
    rw [if_pos hV, if_pos hV, (isLoop_zig hv 0).edge 1 e he]
  · rw [if_neg hV] at he
    rw [if_neg hV, if_neg hV, (isLoop_col hv 2).edge 0 e he]

/-- The edges of the line, by the indices of their ends. -/
def lineEdges (lay : HoneycombLayout) : List (Nat × Nat) :=
  ((lay.round_edges lay.lineRound).map fun e => (lay.idx e.left, lay.idx e.right)).filter fun g => decide (g.1 ∈ lay.lineQubits.map lay.idx)

theorem idx_line (hv : lay.Valid) {q : Pt} (hq : q ∈ lay.data_qubit_coords) : lay.idx q ∈ lay.lineQubits.map lay.idx ↔ q ∈ lay.lineQubits := by
  refine ⟨fun h => ?_, fun h => List.mem_map_of_mem h⟩
  obtain ⟨y, hy, e⟩ := List.mem_map.1 h
  exact idx_inj hv (data_class (lineQubits_data hy)).1 (data_class hq).1 e ▸ hy

theorem lineEdges_ends (hv : lay.Valid) : (lay.lineEdges.flatMap fun g => [g.1, g.2]).Perm (lay.lineQubits.map lay.idx) := by
  refine (List.perm_ext_iff_of_nodup ?_ (lineQubits_nodup hv)).2 fun i => ⟨fun h => ?_, fun h => ?_⟩
  · have hn := (covers_ends hv lay.lineRound).1
    rw [← List.flatMap_map (f := fun e : Edge => (lay.idx e.left, lay.idx e.right)) (g := fun g : Nat × Nat => [g.1, g.2])] at hn
    exact hn.sublist (List.filter_sublist.flatMap _)
  · obtain ⟨g, hg, hi⟩ := List.mem_flatMap.1 h
    rw [lineEdges, List.mem_filter, decide_eq_true_eq] at hg
    obtain ⟨hg, hl⟩ := hg
    obtain ⟨e, he, rfl⟩ := List.mem_map.1 hg
    have hd := edge_ends_data hv (round_edges_subset_all he)
    simp only [List.mem_cons, List.not_mem_nil, or_false] at hi
    rcases hi with rfl | rfl
    · exact hl
    · exact (idx_line hv hd.2).2 ((line_edge hv he).1 ((idx_line hv hd.1).1 hl))
  · obtain ⟨q, hq, rfl⟩ := List.mem_map.1 h
    obtain ⟨e, he, ht⟩ := exists_edge hv (lineQubits_data hq) lay.lineRound
    have hl : e.left ∈ lay.lineQubits := by
      rcases ht with h | h
      · rwa [h]
      · rw [line_edge hv he, h]; exact hq
    refine List.mem_flatMap.2 ⟨(lay.idx e.left, lay.idx e.right), ?_, ?_⟩
    · rw [lineEdges, List.mem_filter, decide_eq_true_eq]
      exact ⟨List.mem_map.2 ⟨e, he, rfl⟩, List.mem_map_of_mem hl⟩
    · rcases ht with h | h <;> simp [h]

theorem lineEdges_length (hv : lay.Valid) : 2 * lay.lineEdges.length = lay.lineQubits.length := by
  have := (lineEdges_ends hv).length_eq
  rw [List.length_map, List.length_flatMap] at this
  simp only [List.length_cons, List.length_nil, List.map_const', List.sum_replicate, smul_eq_mul] at this
  omega

theorem onQubits_perm {p : Pauli} {a b : List Nat} (h : a.Perm b) : onQubits p a = onQubits p b := by
  funext i
  simp only [onQubits, h.mem_iff]

/-! ## The record -/

theorem rate_mpp (hE : lay.isEM3 = true) (hp : 0 < lay.noise) {nm : NoiseModel} (hnm : lay.noise_model = .ok nm) : 0 < (nm.rate .MPP).getD 0 := by
  have hstyle : lay.style = "EM3" ∨ lay.style = "EM3_v2" := by simpa [isEM3] using hE
  rcases hstyle with h | h <;> simp [noise_model, h] at hnm <;> subst hnm <;>
    simp [NoiseModel.rate, NoiseModel.EM3_v1, NoiseModel.EM3_v2, hp]

/-- X on the line passes the measurements of sub-round 0. -/
theorem line_passes (hE : lay.isEM3 = true) : ∃ s, Runs (onQubits lay.lineBasis.pauli (lay.lineQubits.map lay.idx))
      (actions ((List.range lay.lineRound).flatMap lay.em3Emit)) s (onQubits lay.lineBasis.pauli (lay.lineQubits.map lay.idx)) ∧ (∀ x ∈ s, x = 0) ∧
      Plain (actions ((List.range lay.lineRound).flatMap lay.em3Emit)) := by
  rw [lineRound, lineBasis]
  by_cases hV : lay.obs = "V"
  · have ha : actions ((List.range 1).flatMap lay.em3Emit) =
        ((lay.round_edges 0).map fun e => [(.X, lay.idx e.left), (.X, lay.idx e.right)]).map .measure := by
      have hm : actions (lay.emitMD 0) = [] := by
        rw [emitMD, emitMeas, if_pos hE, List.nil_append]
        exact actions_nil_of_marks (emitAnn_marks 0)
      rw [show (List.range 1).flatMap lay.em3Emit = [lay.mppOf 0] ++ lay.emitMD 0 ++ [.tick] by simp [em3Emit_eq], actions_append, actions_append, hm, List.append_nil,
        show actions [Instr.tick] = [] from rfl, List.append_nil, actions, List.flatMap_cons, List.flatMap_nil, List.append_nil, mpp_actions]
      rfl
    simp only [hV, if_true, ha]
    obtain ⟨s, h1, h2⟩ := runs_commuting (G := onQubits Basis.X.pauli (lay.lineQubits.map lay.idx))
      (ms := (lay.round_edges 0).map fun e => [(.X, lay.idx e.left), (.X, lay.idx e.right)]) (fun P hP => by
        obtain ⟨e, _, rfl⟩ := List.mem_map.1 hP
        have h0 : ∀ i, anti (onQubits Basis.X.pauli (lay.lineQubits.map lay.idx) i) Basis.X.pauli = 0 := by
          intro i
          rw [onQubits]
          split_ifs <;> decide
        simp [Frame.flips, h0])
    exact ⟨s, h1, h2, fun f q hm => by simp at hm⟩
  · simp only [hV, if_false, List.range_zero, List.flatMap_nil]
    exact ⟨[], .nil _, by simp, fun f q hm => by simp [actions] at hm⟩

theorem edges_sampled (hv : lay.Valid) (hs : lay.Supported) (hE : lay.isEM3 = true) (hN : lay.sub_rounds = N) (hp : 0 < lay.noise) (hN2 : lay.lineRound < N)
    {d : Circuit} (hd : lay.makeCircuit = .ok d) :
    ∃ rec, CanSample lay.lineEdges.length d.flatten rec ∧ (∀ v ∈ detectorValues d.flatten rec, v = some 0) ∧
      observableValue lay.obsI d.flatten rec = some 1 := by
  obtain ⟨c, nm, idle, hc, hnm, htk, hf, -, ht, hi, e⟩ := noisy_form hv hs hN hd
  replace hi := fun ops i h => (hi ops i h).1
  obtain ⟨c3, rfl⟩ := em3_head hv hs hE hN hc (j := lay.lineRound + 1) (by omega) (by rw [lineRound]; split_ifs <;> omega)
  obtain ⟨D, hD⟩ : ∃ D, lay.num_qubits.toNat = D := ⟨_, rfl⟩
  rw [hD] at ht e
  obtain ⟨j, hj⟩ : ∃ j, lay.lineRound = j := ⟨_, rfl⟩
  rw [hj] at ht e htk hf hc hN2
  have hpl : lay.prologue ++ (List.range (j + 1)).flatMap lay.em3Emit =
      (lay.prologue ++ (List.range j).flatMap lay.em3Emit) ++ (lay.mppOf j :: lay.emitMD j ++ [.tick]) := by
    rw [List.range_succ, List.flatMap_append, List.flatMap_cons, List.flatMap_nil, List.append_nil, ← List.append_assoc, em3Emit_eq]
  have hpre : ∃ l, lay.prologue ++ (List.range j).flatMap lay.em3Emit = l ++ [.tick] := by
    rcases Nat.eq_zero_or_pos j with h0 | h0
    · rw [h0]
      obtain ⟨l, hl⟩ := prologue_tick lay
      exact ⟨l, by simp [hl]⟩
    · obtain ⟨i, rfl⟩ : ∃ i, j = i + 1 := ⟨j - 1, by omega⟩
      refine ⟨lay.prologue ++ (List.range i).flatMap lay.em3Emit ++ (lay.mppOf i :: lay.emitMD i), ?_⟩
      rw [List.range_succ, List.flatMap_append, List.flatMap_cons, List.flatMap_nil, List.append_nil, em3Emit_eq]
      simp
  obtain ⟨l, hl⟩ := hpre
  have hmain : lay.mainPart N = (List.range j).flatMap lay.em3Emit ++ ((lay.mppOf j :: lay.emitMD j) ++ [.tick] ++ c3.flatten) := by
    have h := (Circuit.flatten_append (.ofList (lay.prologue ++ (List.range (j + 1)).flatMap lay.em3Emit)) c3)
    rw [show (Circuit.ofList (lay.prologue ++ (List.range (j + 1)).flatMap lay.em3Emit) ++ c3).flatten = _ from hf, Circuit.flatten_ofList, closed_split, hpl] at h
    rw [List.append_assoc, List.append_assoc] at h
    exact List.append_cancel_left h
  rw [hpl, ofList_append, hl] at ht e htk
  have hops : ∀ i ∈ l ++ [.tick] ++ ((lay.mppOf j :: lay.emitMD j ++ [.tick]) ++ c3.ops), lay.Tame D i ∧ lay.GoodI i := fun i him => ht i (by
    rw [ops_ofList_append, ops_ofList_append]; exact him)
  have htk3 : TickOK c3 := fun i him => htk i (by rw [ops_ofList_append, ops_ofList_append]; simp [him])
  have hmd : ∀ i ∈ lay.mppOf j :: lay.emitMD j, i.gate ≠ .TICK := by
    intro i him
    rcases List.mem_cons.1 him with rfl | him
    · simp [mppOf]
    · rw [emitMD, emitMeas, if_pos hE, List.nil_append] at him
      rcases (isMark_iff i).1 (emitAnn_marks j i him) with h | h | h <;> rw [h] <;> decide
  have htick : lay.SimN D [.tick] [.tick] := .core rfl rfl .nil (fun P hP => by simp [Instr.measures, Instr.tick] at hP)
  obtain ⟨a, ha⟩ : ∃ a, (Circuit.append (.ofList (l ++ [.tick])) (Circuit.append (.ofList (lay.mppOf j :: lay.emitMD j ++ [.tick])) c3)).num_qubits = a := ⟨_, rfl⟩
  rw [ha] at e
  obtain ⟨p, ep, hsp⟩ := perStep_split (R := fun l l' => lay.SimN D l l') (fun a b a' b' h1 h2 => h1.append h2) htick (lay.Tame D)
    (f := fun _ ops => noisyOps nm D ops ++ idle ops) (fun _ ops ho => simN_ops ho (hi ops))
    (Circuit.append (.ofList (lay.mppOf j :: lay.emitMD j ++ [.tick])) c3) l a [] (fun i him =>
      ⟨(hops i (by simp [him])).1, htk i (by rw [ops_ofList_append]; simp [him])⟩) (by simp)
  rw [ep, perStep_tick c3 _ _ _ hmd, List.nil_append] at e
  rw [List.nil_append, ← hl] at hsp
  have hrest := perStep_rel (R := fun l l' => lay.SimN D l l') .nil (fun a b a' b' h1 h2 => h1.append h2) htick (lay.Tame D)
    (f := fun _ ops => noisyOps nm D ops ++ idle ops) (g := fun _ ops => ops)
    (fun _ ops ho => simN_ops ho (hi ops)) c3 (fun i hm => (hops i (by simp [hm])).1) a [] (by simp)
  rw [perStep_flatten c3 htk3, List.nil_append] at hrest
  obtain ⟨Q, hQ⟩ : ∃ Q, perStep (fun _ ops => noisyOps nm D ops ++ idle ops) c3 a [] = Q := ⟨_, rfl⟩
  rw [hQ] at e hrest
  beta_reduce at e
  have hq := (((simN_ops (nm := nm) (D := D) (ops := lay.mppOf j :: lay.emitMD j) (idle := idle (lay.mppOf j :: lay.emitMD j))
    (fun i him => (hops i (by simp at him ⊢; tauto)).1) (hi _)).append htick).append hrest).sim
  -- the run
  obtain ⟨L, hL⟩ : ∃ L, onQubits lay.lineBasis.pauli (lay.lineQubits.map lay.idx) = L := ⟨_, rfl⟩
  obtain ⟨r1, F1, h1⟩ := runs_exists (fun _ => 0) (actions p)
  obtain ⟨r2, F2, h2⟩ := runs_exists (F1 + L) (actions (noisyOps nm D (lay.mppOf j :: lay.emitMD j) ++ idle (lay.mppOf j :: lay.emitMD j) ++ [.tick] ++ Q))
  obtain ⟨G1, k1, o1⟩ := hsp.sim _ _ _ _ (fun _ _ => rfl : Off D (fun _ => 0) (fun _ => 0)) h1
  obtain ⟨G2, k2, o2⟩ := hq _ (G1 + L) _ _ (fun x hx => by simp only [Pi.add_apply, o1 x hx]) h2
  obtain ⟨ra, rb, Ga, ka, kb, rfl⟩ := runs_append_actions k1
  obtain ⟨s, hs1, hs2, hs3⟩ := line_passes hE
  rw [hL, hj] at hs1
  rw [hj] at hs3
  have kc := kb.add hs3 hs1 hs2
  have hend := line_generated hv hs hN hd ka (r2 := rb ++ r2) (show Runs (lay.hit Ga) (actions (lay.mainPart N)) _ G2 by
    rw [hit_eq, hL, hmain, actions_append]
    exact runs_append.2 ⟨_, _, _, kc, k2, rfl⟩)
  rw [← List.append_assoc] at hend
  refine ⟨ra ++ rb ++ r2, ⟨fun _ => 0, F2, fun _ => rfl, ?_⟩, hend⟩
  have hDn : ∀ q ∈ lay.data_qubit_coords, lay.idx q ≠ D := by
    intro q hq h
    have hm : Instr.on .M lay.data_qubit_indices ∈ lay.closedCircuit N := by rw [closedCircuit]; simp
    have := closed_qubits hv hs hN hm (q := lay.idx q) (by rw [qubits_on]; exact List.mem_map_of_mem hq)
    rw [hD] at this
    omega
  have herr := mpp_errors (F := F1) (F' := F2) (rec := r2) (D := D) (k := j) (md := lay.emitMD j) (T := idle (lay.mppOf j :: lay.emitMD j) ++ [.tick] ++ Q) (nm := nm)
    (c := lay.lineBasis) hv (fun g => decide (g.1 ∈ lay.lineQubits.map lay.idx)) (rate_mpp hE hp hnm) hDn (by
      have := onQubits_perm (p := lay.lineBasis.pauli) (lineEdges_ends hv)
      rw [lineEdges, hj, hL] at this
      rw [this]
      simpa only [List.append_assoc] using h2)
  have := (noisy_of_runs h1).join herr
  rw [Nat.zero_add] at this
  rw [e, lineEdges, hj]
  simpa only [List.append_assoc] using this

end HoneycombLayout
end Honeycomb
