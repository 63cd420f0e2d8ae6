import Verif.Lemmas.Logical

/-! The line of faults in a run of the generated circuit. -/

namespace Honeycomb

theorem removeNoise_split {l a b : List Instr} (h : removeNoise l = a ++ b) : ∃ p q, l = p ++ q ∧ removeNoise p = a ∧ removeNoise q = b := by
  rw [removeNoise, List.map_eq_append_iff] at h
  obtain ⟨a', b', h, rfl, rfl⟩ := h
  rw [List.filter_eq_append_iff] at h
  obtain ⟨p, q, rfl, rfl, rfl⟩ := h
  exact ⟨p, q, rfl, rfl, rfl⟩

/-- The first time steps of a circuit that starts with plain operations and a `TICK`. -/
theorem perStep_split {R : List Instr → List Instr → Prop} (ha : ∀ a b a' b', R a a' → R b b' → R (a ++ b) (a' ++ b')) (ht : R [.tick] [.tick])
    {f : Nat → List Instr → List Instr} (P : Instr → Prop) (hfg : ∀ a ops, (∀ i ∈ ops, P i) → R (f a ops) ops) (c : Circuit) :
    ∀ (l : List Instr) (a : Nat) (acc : List Instr), (∀ i ∈ l, P i ∧ (i.gate = .TICK → i = .tick)) → (∀ i ∈ acc, P i) →
      ∃ p, perStep f (Circuit.append (.ofList (l ++ [.tick])) c) a acc = p ++ perStep f c a [] ∧ R p (acc ++ l ++ [.tick])
  | [], a, acc, _, hacc => by
    refine ⟨f a acc ++ [.tick], ?_, ?_⟩
    · simp only [List.nil_append, Circuit.ofList, Circuit.append, perStep]
      rw [if_pos (show Instr.tick.gate = .TICK from rfl)]
    · rw [List.append_nil]
      exact ha _ _ _ _ (hfg a acc hacc) ht
  | i :: l, a, acc, hl, hacc => by
    have hl' : ∀ j ∈ l, P j ∧ (j.gate = .TICK → j = .tick) := fun j hj => hl j (by simp [hj])
    simp only [List.cons_append, Circuit.ofList, Circuit.append, perStep]
    by_cases hi : i.gate = .TICK
    · obtain ⟨p, e, hR⟩ := perStep_split ha ht P hfg c l a [] hl' (by simp)
      refine ⟨f a acc ++ [.tick] ++ p, ?_, ?_⟩
      · rw [if_pos hi, e]; simp
      · rw [(hl i (by simp)).2 hi, List.nil_append] at *
        have := ha _ _ _ _ (ha _ _ _ _ (hfg a acc hacc) ht) hR
        simpa using this
    · obtain ⟨p, e, hR⟩ := perStep_split ha ht P hfg c l a (acc ++ [i]) hl' (by
        intro j hj
        rcases List.mem_append.1 hj with hj | hj
        · exact hacc j hj
        · rw [List.mem_singleton.1 hj]; exact (hl i (by simp)).1)
      refine ⟨p, ?_, ?_⟩
      · rw [if_neg hi, e]
      · simpa using hR

namespace HoneycombLayout
variable {lay : HoneycombLayout} {F F' : Frame} {rec : List (ZMod 2)} {N : Nat}

/-- The part of the circuit that prepares the data qubits. -/
def prologue (lay : HoneycombLayout) : List Instr :=
  lay.qubitCoordOps ++ ([.on .R lay.used_qubit_indices, .tick] ++ lay.basisChange (lay.obsAt 0).1)

/-- The rest of the circuit. -/
def mainPart (lay : HoneycombLayout) (N : Nat) : List Instr :=
  lay.allRounds N ++ (lay.basisChange (lay.obsAt N).1 ++ [.on .M lay.data_qubit_indices] ++ lay.emitFinal N N)

theorem closed_split : lay.closedCircuit N = lay.prologue ++ lay.mainPart N := by
  rw [closedCircuit, prologue, mainPart]
  simp only [List.append_assoc]

theorem prologue_run (hv : lay.Valid) (h : Runs F (actions lay.prologue) rec F') :
    rec = [] ∧ (∀ q ∈ lay.data_qubit_coords, ∃ r : ZMod 2, F' (lay.idx q) = r • (lay.obsAt 0).1.pauli) ∧
    (lay.isEM3 = false → ∀ j, ∀ e ∈ lay.round_edges j, (F' (lay.idx e.center)).1 = 0) := by
  rw [prologue] at h
  obtain ⟨r5, r6, S0, g5, g6, rfl⟩ := runs_append_actions h
  have hq : actions lay.qubitCoordOps = [] := by
    rw [actions, qubitCoordOps, List.flatMap_eq_nil_iff]
    intro i hi
    obtain ⟨q, _, rfl⟩ := List.mem_map.1 hi
    rfl
  rw [hq] at g5
  obtain ⟨rfl, rfl⟩ := runs_nil g5
  rw [show ([.on .R lay.used_qubit_indices, .tick] : List Instr) = [.on .R lay.used_qubit_indices] ++ [.tick] from rfl] at g6
  obtain ⟨r7, r8, S2, g7, g8, rfl⟩ := runs_append_actions g6
  obtain ⟨r9, r10, S1, g9, g10, rfl⟩ := runs_append_actions g7
  obtain ⟨rfl, rfl⟩ := runs_tick g10
  rw [actions_R] at g9
  obtain ⟨rfl, a1, _⟩ := runs_reset g9
  obtain ⟨rfl, b1, _, b3⟩ := eff_basisChange hv g8
  refine ⟨rfl, fun q hq => ?_, fun he j e hm => ?_⟩
  · obtain ⟨r, hr⟩ := a1 _ (mem_used_data hv hq)
    exact ⟨r, b1 q hq r hr⟩
  · obtain ⟨r, hr⟩ := a1 _ (mem_used_center hv he hm)
    rw [b3 j e hm, hr, smul_Z_fst]

theorem main_run (hv : lay.Valid) (hs : lay.Supported) (hN : lay.sub_rounds = N)
    (hx : lay.isEM3 = false → ∀ j, ∀ e ∈ lay.round_edges j, (F (lay.idx e.center)).1 = 0) (h : Runs F (actions (lay.mainPart N)) rec F') :
    ∃ Fs, Fs 0 = lay.pos F ∧ (∀ k : Nat, k < N → ∀ e ∈ lay.round_edges k, ∃ r : ZMod 2, Fs (k + 1) e.left = Fs k e.left + r • (Basis.ofIdx k).pauli ∧
        Fs (k + 1) e.right = Fs k e.right + r • (Basis.ofIdx k).pauli) ∧
      lay.Recorded N Fs (recAt rec) ∧ rec.length = N * lay.perRound + lay.data_qubit_coords.length := by
  rw [mainPart] at h
  obtain ⟨r1, r2, S4, g4, g2, rfl⟩ := runs_append_actions h
  obtain ⟨c, G, ha, hG⟩ := rounds_run hv hs hN hx g4
  obtain ⟨r11, r12, S6, g11, g12, rfl⟩ := runs_append_actions g2
  rw [actions_nil_of_marks emitFinal_marks] at g12
  obtain ⟨rfl, rfl⟩ := runs_nil g12
  obtain ⟨r13, r14, S5, g13, g14, rfl⟩ := runs_append_actions g11
  obtain ⟨rfl, _, d2, _⟩ := eff_basisChange hv g13
  have hM : actions [Instr.on .M lay.data_qubit_indices] = lay.data_qubit_indices.map fun q => .measure [(.Z, q)] := by
    rw [actions, List.flatMap_cons, List.flatMap_nil, List.append_nil, Instr.actions]
    simp only [Instr.on, Instr.measures]
    rw [show (Instr.qubits ⟨.M, lay.data_qubit_indices.map .q, []⟩) = lay.data_qubit_indices from qubits_on .M _, List.map_map]
    rfl
  rw [hM] at g14
  obtain ⟨e1, _, _⟩ := runs_measure_Z g14
  have := ha.recorded_from hv (D := r14) (by
    rw [e1, data_qubit_indices, List.map_map]
    exact List.map_congr_left fun q hq => by rw [Function.comp, d2 q hq, hG q hq])
  simpa only [List.nil_append, List.append_nil] using this

theorem prologue_tick (lay : HoneycombLayout) : ∃ l, lay.prologue = l ++ [.tick] := by
  rw [prologue, basisChange]
  split_ifs
  · exact ⟨lay.qubitCoordOps ++ ([.on .R lay.used_qubit_indices, .tick] ++ [.on (toZGate (lay.obsAt 0).1) lay.data_qubit_indices]), by simp⟩
  · exact ⟨lay.qubitCoordOps ++ [.on .R lay.used_qubit_indices], by simp⟩

theorem circuit_append_assoc (a b c : Circuit) : Circuit.append (Circuit.append a b) c = Circuit.append a (Circuit.append b c) := by
  induction a with
  | nil => rfl
  | op i a ih => simp only [Circuit.append, ih]
  | rep n b a _ ih => simp only [Circuit.append, ih]

theorem generateNoiseless_head (hv : lay.Valid) (hs : lay.Supported) {c : Circuit} (hc : lay.generateNoiseless = .ok c) :
    ∃ c', c = Circuit.append (.ofList lay.prologue) c' := by
  obtain ⟨m, hm, -⟩ := init_ok hv hs.2.1
  simp only [generateNoiseless, hm, bind, Except.bind, pure, Except.pure] at hc
  cases h1 : lay.generateRounds m with
  | error e => rw [h1] at hc; cases hc
  | ok x =>
    rw [h1] at hc
    simp only at hc
    cases h2 : lay.faultTolerantMeasurement x.2 with
    | error e => rw [h2] at hc; cases hc
    | ok y =>
      rw [h2] at hc
      simp only [Except.ok.injEq] at hc
      exact ⟨Circuit.append x.1 (.ofList y.1), hc ▸ circuit_append_assoc _ _ _⟩

/-- The generated circuit splits into a part that prepares the data qubits and the rest. -/
theorem noisy_split (hv : lay.Valid) (hs : lay.Supported) (hN : lay.sub_rounds = N) {d : Circuit} (hd : lay.makeCircuit = .ok d) :
    ∃ D p q, ¬ lay.IsData D ∧ d.flatten = p ++ q ∧ Sim D (actions p) (actions lay.prologue) ∧ Sim D (actions q) (actions (lay.mainPart N)) := by
  obtain ⟨c, nm, d', hc, hf, hsh, hg, hno, htk, hpm, hnorm, hnm, hpre, hacc, hd', hm⟩ := makeCircuit_ok hv hs hN
  rw [hd] at hm
  obtain rfl : d = d' := Except.ok.inj hm
  by_cases hst : lay.style = "EM3_v2"
  · obtain ⟨c', d', D, hc', hm', hD, hlt, idle, hi, e⟩ := c33_ancilla lay hv hs hst
    rw [hc] at hc'
    obtain rfl : c = c' := Except.ok.inj hc'
    rw [hd] at hm'
    obtain rfl : d = d' := Except.ok.inj hm'
    have hsh2 : c.Shape fun r _ => 2 ≤ r := Shape.mono (fun _ _ h => h.1) hsh
    have hex : ∀ i ∈ c.ops, Expandable D i := fun i him => ⟨hlt i (Circuit.ops_flatten hsh2 him), (hno i him).1, (hg i him).mpp, fun hg' =>
      closed_nodup hv hs hN (hf ▸ Circuit.ops_flatten hsh2 him) (by rw [hg']; decide)⟩
    have hDS : ¬ lay.IsData D := by
      intro hm
      refine lt_irrefl D (hlt (.on .M lay.data_qubit_indices) ?_ D (by rw [qubits_on]; exact hm))
      rw [hf, closedCircuit]
      simp
    obtain ⟨c', rfl⟩ := generateNoiseless_head hv hs hc
    obtain ⟨l, hl⟩ := prologue_tick lay
    have hops : ∀ (l : List Instr) (c : Circuit), (Circuit.append (.ofList l) c).ops = l ++ c.ops := by
      intro l c
      induction l with
      | nil => rfl
      | cons i l ih => simp only [Circuit.ofList, Circuit.append, Circuit.ops, ih, List.cons_append]
    have hsplit : c'.flatten = lay.mainPart N := by
      have : (Circuit.append (.ofList lay.prologue) c').flatten = _ := Circuit.flatten_append _ _
      rw [Circuit.flatten_ofList, hf, closed_split] at this
      exact (List.append_cancel_left this).symm
    have hex' : ∀ i ∈ c'.ops, Expandable D i := fun i him => hex i (by rw [hops]; simp [him])
    have htk' : TickOK c' := fun i him => htk i (by rw [hops]; simp [him])
    obtain ⟨p, ep, hp⟩ := perStep_split (R := fun l l' => Sim D (actions l) (actions l'))
      (fun a b a' b' h1 h2 => by rw [actions_append, actions_append]; exact h1.append h2) .nil (Expandable D)
      (f := fun _ ops => noisyOps (.EM3_v2 lay.noise) D ops ++ idle ops)
      (fun _ ops ho => sim_ops rfl ho (fun i hm => (hi ops i hm).1)) c' l (Circuit.append (.ofList lay.prologue) c').num_qubits [] (fun i him =>
        ⟨hex i (by rw [hops, hl]; simp [him]), htk i (by rw [hops, hl]; simp [him])⟩) (by simp)
    have hq := perStep_rel (R := fun l l' => Sim D (actions l) (actions l')) .nil
      (fun a b a' b' h1 h2 => by rw [actions_append, actions_append]; exact h1.append h2) .nil (Expandable D)
      (f := fun _ ops => noisyOps (.EM3_v2 lay.noise) D ops ++ idle ops) (g := fun _ ops => ops)
      (fun _ ops ho => sim_ops rfl ho (fun i hm => (hi ops i hm).1)) c' hex' (Circuit.append (.ofList lay.prologue) c').num_qubits [] (by simp)
    rw [perStep_flatten c' htk', List.nil_append, hsplit] at hq
    rw [List.nil_append, ← hl] at hp
    rw [← hl] at ep
    exact ⟨D, _, _, hDS, by rw [e]; exact ep, hp, hq⟩
  · have hnc : nm.use_correlated_parity_measurement_errors = false := by
      rcases hs.1 with h | h | h | h | h
      all_goals first
        | (exact absurd h hst)
        | (simp [noise_model, h] at hnm; subst hnm; rfl)
    have hrm := c25_only_adds_noise nm hnc c d none hno htk hd'
    rw [hf, closed_split] at hrm
    obtain ⟨p, q, e, hp, hq⟩ := removeNoise_split hrm
    obtain ⟨D, hD⟩ := Infinite.exists_notMem_finset ((((actions lay.prologue).flatMap Action.qubits) ++ ((actions (lay.mainPart N)).flatMap Action.qubits) ++
      lay.data_qubit_indices).toFinset)
    simp only [List.mem_toFinset, List.mem_append, List.mem_flatMap, not_or, not_exists, not_and] at hD
    refine ⟨D, p, q, hD.2, e, ?_, ?_⟩
    · rw [← actions_removeNoise p, hp]
      exact Sim.refl fun a ha => hD.1.1 a ha
    · rw [← actions_removeNoise q, hq]
      exact Sim.refl fun a ha => hD.1.2 a ha

/-- The frame with the line of faults. -/
def hit (lay : HoneycombLayout) (F : Frame) : Frame := fun i =>
  if i ∈ lay.lineQubits.map lay.idx then F i + (if lay.obs = "V" then Basis.X.pauli else Basis.Z.pauli) else F i

theorem lineQubits_data {q : Pt} (h : q ∈ lay.lineQubits) : q ∈ lay.data_qubit_coords := by
  rw [lineQubits] at h
  split_ifs at h <;> exact (List.mem_filter.1 h).1

/-- The line of faults after the preparation, in the unrolled noiseless circuit. -/
theorem line_closed (hv : lay.Valid) (hs : lay.Supported) (hN : lay.sub_rounds = N) {r1 r2 : List (ZMod 2)} {G0 G1 G2 : Frame}
    (k1 : Runs G0 (actions lay.prologue) r1 G1) (k2 : Runs (lay.hit G1) (actions (lay.mainPart N)) r2 G2) :
    r1 = [] ∧ (∀ x ∈ timeline 0 (lay.closedCircuit N), x.1.gate = .DETECTOR → flipParity r2 x = some 0) ∧
      observableValue lay.obsI (lay.closedCircuit N) r2 = some 1 := by
  obtain ⟨rfl, a1, a2⟩ := prologue_run hv k1
  obtain ⟨Fs, e0, hst, hr, hl⟩ := main_run hv hs hN (F := lay.hit G1) (fun he j x hx => by
    rw [hit, if_neg, a2 he j x hx]
    intro hm
    obtain ⟨y, hy, hyx⟩ := List.mem_map.1 hm
    exact center_not_data hv hx (lineQubits_data hy) hyx.symm) k2
  have h0 : ∀ q ∈ lay.data_qubit_coords, ∃ r : ZMod 2, Fs 0 q = r • (lay.obsAt 0).1.pauli + lay.lineFault q := by
    intro q hq
    obtain ⟨r, hr⟩ := a1 q hq
    refine ⟨r, ?_⟩
    rw [e0, pos, hit, hr, lineFault]
    by_cases hm : q ∈ lay.lineQubits
    · rw [if_pos hm, if_pos (List.mem_map_of_mem hm)]
    · rw [if_neg hm, if_neg, add_zero]
      intro hm'
      obtain ⟨y, hy, hyx⟩ := List.mem_map.1 hm'
      exact hm (idx_inj hv (data_class (lineQubits_data hy)).1 (data_class hq).1 hyx ▸ hy)
  refine ⟨rfl, closed_detectors hv hs hN (line_calm hv h0 hst) hr hl, ?_⟩
  have := closed_obs_value hv hs hN hr hl
  rwa [line_value hv h0 hst] at this

/-- The same for the generated circuit. -/
theorem line_generated (hv : lay.Valid) (hs : lay.Supported) (hN : lay.sub_rounds = N) {d : Circuit} (hd : lay.makeCircuit = .ok d)
    {r1 r2 : List (ZMod 2)} {G0 G1 G2 : Frame}
    (k1 : Runs G0 (actions lay.prologue) r1 G1) (k2 : Runs (lay.hit G1) (actions (lay.mainPart N)) r2 G2) :
    (∀ v ∈ detectorValues d.flatten (r1 ++ r2), v = some 0) ∧ observableValue lay.obsI d.flatten (r1 ++ r2) = some 1 := by
  obtain ⟨rfl, h1, h2⟩ := line_closed hv hs hN k1 k2
  refine ⟨fun v hvm => ?_, ?_⟩
  · obtain ⟨x, hx, rfl⟩ := List.mem_map.1 hvm
    rw [(noisy_run hv hs hN hd).1, List.mem_filter] at hx
    exact h1 x hx.1 (by simpa using hx.2)
  · rw [observableValue, ← (noisy_run hv hs hN hd).1] at h2
    exact h2

theorem line_recorded (hv : lay.Valid) (hs : lay.Supported) (hN : lay.sub_rounds = N) {d : Circuit} (hd : lay.makeCircuit = .ok d) :
    ∃ rec, CanRecordWith lay.IsData lay.lineQubits.length d.flatten rec ∧ (∀ v ∈ detectorValues d.flatten rec, v = some 0) ∧
      observableValue lay.obsI d.flatten rec = some 1 := by
  obtain ⟨D, p, q, hD, e, hp, hq⟩ := noisy_split hv hs hN hd
  obtain ⟨r1, F1, h1⟩ := runs_exists (fun _ => 0) (actions p)
  obtain ⟨r2, F2, h2⟩ := runs_exists (lay.hit F1) (actions q)
  obtain ⟨G1, k1, o1⟩ := hp _ _ _ _ (fun _ _ => rfl : Off D (fun _ => 0) (fun _ => 0)) h1
  have o1' : Off D (lay.hit F1) (lay.hit G1) := by
    intro x hx
    simp only [hit, o1 x hx]
  obtain ⟨G2, k2, o2⟩ := hq _ _ _ _ o1' h2
  refine ⟨r1 ++ r2, ⟨fun _ => 0, F2, fun _ => rfl, ?_⟩, line_generated hv hs hN hd k1 k2⟩
  rw [e]
  have hn : Near (lay.lineQubits.map lay.idx) F1 (lay.hit F1) := fun x hx => if_neg hx
  have := (runs_to_faulty (S := lay.IsData) h1).join (FaultyRuns.near hn (fun x hx => by
    obtain ⟨y, hy, rfl⟩ := List.mem_map.1 hx
    exact List.mem_map_of_mem (lineQubits_data hy)) (runs_to_faulty h2))
  simpa using this

end HoneycombLayout
end Honeycomb
