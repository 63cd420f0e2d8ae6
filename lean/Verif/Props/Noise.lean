import Verif.Lemmas.Noise

/-!
# Noise model properties: C25 - C30

`removeNoise`, `rate`, `noiseBefore`, `noisyCore`, `noiseAfter`, `noisyOps`, `perStep`, `Touched`, ... are
defined in `Verif/Spec/Noise.lean`.
-/

namespace Honeycomb

/-- The qubits `noisy_circuit` considers for idling. -/
def trackedQubits (c : Circuit) (qs : Option (Finset Nat)) : Finset Nat := qs.getD (Finset.range c.num_qubits)

theorem noisyCircuit_tracked (nm : NoiseModel) (c : Circuit) (qs : Option (Finset Nat)) :
    nm.noisyCircuit c qs = nm.noisyCircuit c (some (trackedQubits c qs)) := by
  cases qs <;> rfl

/-- Noise models that give positive rates only to operations that have a noise channel (all predefined
ones). -/
def NoiseModel.Sensible (nm : NoiseModel) : Prop :=
  ∀ g p, nm.noisy_gates g = some p → 0 < p → kind g ≠ .annotation ∧ kind g ≠ .unknown

/-- The predefined noise models. -/
def predefined (p : Rat) : List NoiseModel :=
  [.SD6 p, .PC3 p, .EM3_v1 p, .EM3_v2 p, .SI1000 p]

theorem predefined_sensible (p : Rat) : ∀ nm ∈ predefined p, nm.Sensible := by
  intro nm hnm g q hq _
  simp only [predefined, List.mem_cons, List.not_mem_nil, or_false] at hnm
  rcases hnm with rfl | rfl | rfl | rfl | rfl <;>
    (revert hq; cases g <;> simp [NoiseModel.SD6, NoiseModel.PC3, NoiseModel.EM3_v1, NoiseModel.EM3_v2,
      NoiseModel.SI1000, kind])

/-- A circuit with a nested `REPEAT` block, annotations, a reset, a measurement, gates and parity
measurements. -/
def exampleCircuit : Circuit :=
  .op (.on .R [0, 1]) <| .op .tick <| .op (.on .H [0]) <| .op .tick <|
  .rep 3 (.op { gate := .MPP, targets := [.pauli .X 0, .comb, .pauli .Z 1] } <| .op .tick <|
    .rep 2 (.op (.on .H [1]) <| .op .tick .nil) <| .op (.shift [0, 0, 1]) .nil) <|
  .op (.on .M [0]) <| .op (.detector [-1] [0, 0, 0]) .nil

theorem exampleCircuit_ok : Noiseless exampleCircuit ∧ TickOK exampleCircuit ∧ PairMPP exampleCircuit ∧
    exampleCircuit.Normal := by
  refine ⟨?_, ?_, ?_, ?_⟩
  · intro i hi
    simp only [exampleCircuit, Circuit.ops, List.cons_append, List.nil_append, List.mem_cons, List.not_mem_nil,
      or_false] at hi
    rcases hi with rfl | rfl | rfl | rfl | rfl | rfl | rfl | rfl | rfl | rfl | rfl <;> decide
  · intro i hi
    simp only [exampleCircuit, Circuit.ops, List.cons_append, List.nil_append, List.mem_cons, List.not_mem_nil,
      or_false] at hi
    rcases hi with rfl | rfl | rfl | rfl | rfl | rfl | rfl | rfl | rfl | rfl | rfl <;> decide
  · intro i hi
    simp only [exampleCircuit, Circuit.ops, List.cons_append, List.nil_append, List.mem_cons, List.not_mem_nil,
      or_false] at hi
    rcases hi with rfl | rfl | rfl | rfl | rfl | rfl | rfl | rfl | rfl | rfl | rfl
    case inr.inr.inr.inr.inl => exact fun _ => ⟨[((.X, 0), (.Z, 1))], rfl⟩
    all_goals (intro h; exact absurd h (by decide))
  · simp [Circuit.Normal, exampleCircuit]

/-! ## C29: acceptance -/

/-- C29: on circuits whose parity measurements are Pauli pairs without a flip argument, `noisy_circuit`
raises NotImplementedError exactly when some operation at any depth has no rate, raises nothing else
and otherwise returns a circuit. -/
theorem c29_refused (nm : NoiseModel) (hs : nm.Sensible) (c : Circuit) (qs : Option (Finset Nat))
    (hp : PairMPP c) (hn : Noiseless c) :
    (nm.noisyCircuit c qs = .error .notImplemented ↔ ∃ i ∈ c.ops, nm.rate i.gate = none) ∧
    ((∃ d, nm.noisyCircuit c qs = .ok d) ↔ ∀ i ∈ c.ops, nm.rate i.gate ≠ none) := by
  rw [noisyCircuit_tracked]
  have hop : ∀ i ∈ c.ops, ∀ p a, nm.rate i.gate = some p → ∃ r, nm.noisyOp i p a = .ok r := by
    intro i hi p a hr
    unfold NoiseModel.noisyOp
    by_cases hpos : p > 0
    · rw [if_pos hpos]
      have hk : kind i.gate ≠ .annotation ∧ kind i.gate ≠ .unknown := by
        cases hng : nm.noisy_gates i.gate with
        | some p' =>
          have : p' = p := by
            simp only [NoiseModel.rate, hng] at hr
            simpa using hr
          exact hs _ _ hng (this ▸ hpos)
        | none =>
          simp only [NoiseModel.rate, hng] at hr
          cases hkg : kind i.gate <;> simp [hkg] at hr ⊢
          · exact absurd hpos (by simp [← hr])
      cases hg : i.gate <;> simp only [hg, kind, ne_eq, not_true_eq_false, and_false, false_and] at hk <;>
        simp [ANY_CLIFFORD_1_OPS, ANY_CLIFFORD_2_OPS, RESET_OPS, MEASURE_OPS]
      obtain ⟨gs, hgs⟩ := hp i hi hg
      have ht : i.targets = pairTargets gs := hgs
      rw [ht, mppTriples_pair, (hn i hi).2 hg, correlatedMPP_pair]
      by_cases hcc : nm.use_correlated_parity_measurement_errors <;> simp [hcc]
    · rw [if_neg hpos]; exact ⟨_, rfl⟩
  have hacc : ∀ i ∈ c.ops, (i.gate = .TICK ∨ Accepted nm 0 i) ↔ nm.rate i.gate ≠ none := by
    intro i hi
    constructor
    · rintro (h | ⟨p, r, hr, _⟩)
      · simp only [NoiseModel.rate, h, kind]
        cases nm.noisy_gates .TICK <;> simp
      · rw [hr]; simp
    · intro h
      obtain ⟨p, hr⟩ := Option.ne_none_iff_exists'.1 h
      obtain ⟨r, hn⟩ := hop i hi p 0 hr
      exact Or.inr ⟨p, r, hr, hn⟩
  have h2 : (∃ d, nm.noisyCircuit c (some (trackedQubits c qs)) = .ok d) ↔ ∀ i ∈ c.ops, nm.rate i.gate ≠ none := by
    rw [noisyCircuit_accepts]
    exact forall₂_congr hacc
  refine ⟨?_, h2⟩
  constructor
  · intro h
    by_contra hno
    obtain ⟨d, hd⟩ := h2.2 fun i hi hi' => hno ⟨i, hi, hi'⟩
    rw [h] at hd
    exact absurd hd (by simp)
  · rintro ⟨i, hi, hri⟩
    rcases hh : nm.noisyCircuit c (some (trackedQubits c qs)) with e | d
    · unfold NoiseModel.noisyCircuit at hh
      simp only at hh
      rcases hl : nm.loop (trackedQubits c qs) c c.num_qubits {} with e' | s
      · rw [hl] at hh
        simp only [Except.error.injEq] at hh
        subst hh
        rw [loop_error hop hl]
      · rw [hl] at hh; exact absurd hh (by simp)
    · exact absurd hri (h2.1 ⟨d, hh⟩ i hi)

/-- The predefined models support these operations, and no others. -/
theorem c29_supported (p : Rat) (g : Gate) :
    ((NoiseModel.SD6 p).rate g ≠ none ↔ kind g = .clifford1 ∨ kind g = .annotation ∨ g = .CX ∨ g = .R ∨ g = .M) ∧
    ((NoiseModel.PC3 p).rate g ≠ none ↔ kind g = .clifford1 ∨ kind g = .clifford2 ∨ kind g = .annotation ∨ g = .R ∨ g = .M) ∧
    ((NoiseModel.EM3_v1 p).rate g ≠ none ↔ kind g = .clifford1 ∨ kind g = .annotation ∨ g = .R ∨ g = .M ∨ g = .MPP) ∧
    ((NoiseModel.EM3_v2 p).rate g ≠ none ↔
      kind g = .clifford1 ∨ kind g = .clifford2 ∨ kind g = .annotation ∨ g = .R ∨ g = .M ∨ g = .MPP) ∧
    ((NoiseModel.SI1000 p).rate g ≠ none ↔ kind g = .clifford1 ∨ kind g = .annotation ∨ g = .CZ ∨ g = .R ∨ g = .M) := by
  cases g <;> simp [NoiseModel.rate, NoiseModel.SD6, NoiseModel.PC3, NoiseModel.EM3_v1, NoiseModel.EM3_v2,
    NoiseModel.SI1000, kind]

/-- Both outcomes of C29 occur. -/
example : (∃ d, (NoiseModel.EM3_v2 (1/100)).noisyCircuit exampleCircuit = .ok d) ∧
    (NoiseModel.SD6 (1/100)).noisyCircuit exampleCircuit = .error .notImplemented := by
  obtain ⟨h1, _, h3, _⟩ := exampleCircuit_ok
  constructor
  · refine ((c29_refused _ (predefined_sensible (1/100) _ (by simp [predefined])) _ none h3 h1).2).2 ?_
    intro i hi
    rw [(c29_supported (1/100) i.gate).2.2.2.1]
    simp only [exampleCircuit, Circuit.ops, List.cons_append, List.nil_append, List.mem_cons, List.not_mem_nil,
      or_false] at hi
    rcases hi with rfl | rfl | rfl | rfl | rfl | rfl | rfl | rfl | rfl | rfl | rfl <;> decide
  · refine ((c29_refused _ (predefined_sensible (1/100) _ (by simp [predefined])) _ none h3 h1).1).2 ?_
    exact ⟨{ gate := .MPP, targets := [.pauli .X 0, .comb, .pauli .Z 1] }, by decide, rfl⟩

/-! ## C25, C26 -/

/-- C25: for every model with independent noise, removing the noise from the unrolled result gives the unrolled
input, instruction for instruction. -/
theorem c25_only_adds_noise (nm : NoiseModel) (hnc : nm.use_correlated_parity_measurement_errors = false)
    (c d : Circuit) (qs : Option (Finset Nat)) (hn : Noiseless c) (ht : TickOK c)
    (h : nm.noisyCircuit c qs = .ok d) : removeNoise d.flatten = c.flatten := by
  rw [noisyCircuit_tracked] at h
  rw [noisyCircuit_ok h]
  rw [perStep_congr (g := fun _ ops => ops) removeNoise_append
    (fun i => isNoise i.gate = false ∧ (i.gate = .MPP → i.args = []))
    (fun a ops hi => by rw [removeNoise_step hnc _ a hi, removeNoise_self hi]) c
    (fun i hi _ => hn i hi) _ [] (by simp), perStep_flatten c ht]
  exact removeNoise_self fun i hi => hn i (Circuit.mem_flatten_ops (by simpa using hi))

/-- C25: order within a time step. The result is the unrolled input with each time step replaced by: noise
before measurements, the operations, noise after gates and resets, idle noise. The first and the last
two groups contain only noise channels. -/
theorem c25_noise_order (nm : NoiseModel) (c d : Circuit) (qs : Option (Finset Nat))
    (h : nm.noisyCircuit c qs = .ok d) :
    ∃ before after : List Instr → List Instr,
      (∀ ops, ∀ i ∈ before ops, isNoise i.gate = true) ∧ (∀ ops, ∀ i ∈ after ops, isNoise i.gate = true) ∧
      d.flatten = perStep (fun a ops => before ops ++
        (ops.flatMap fun i => noisyCore nm a i ((nm.rate i.gate).getD 0)) ++ after ops) c c.num_qubits [] := by
  rw [noisyCircuit_tracked] at h
  refine ⟨fun ops => ops.flatMap fun i => noiseBefore nm i ((nm.rate i.gate).getD 0),
    fun ops => (ops.flatMap fun i => noiseAfter i ((nm.rate i.gate).getD 0)) ++ idleOf nm (trackedQubits c qs) ops,
    ?_, ?_, ?_⟩
  · intro ops j hj
    obtain ⟨i, _, hj⟩ := List.mem_flatMap.1 hj
    exact noiseBefore_isNoise hj
  · intro ops j hj
    rcases List.mem_append.1 hj with hj | hj
    · obtain ⟨i, _, hj⟩ := List.mem_flatMap.1 hj
      exact noiseAfter_isNoise hj
    · exact idleOf_isNoise hj
  · rw [noisyCircuit_ok h]
    congr 1
    funext a ops
    simp only [stepOf, noisyOps, List.append_assoc]

/-- C26: at strength 0 every predefined model maps every supported circuit to itself. (Stim itself
rewrites `REPEAT 1` and directly nested blocks; circuits without those come back identical, all others
unroll to the same sequence.) -/
theorem c26_zero_noise (nm : NoiseModel) (hnm : nm ∈ predefined 0) (c : Circuit) (qs : Option (Finset Nat))
    (ht : TickOK c) (hsup : ∀ i ∈ c.ops, nm.rate i.gate ≠ none) :
    ∃ d, nm.noisyCircuit c qs = .ok d ∧ d.flatten = c.flatten ∧ (c.Normal → d = c) := by
  rw [noisyCircuit_tracked]
  have hz : (∀ g p, nm.rate g = some p → p ≤ 0) ∧ nm.idle ≤ 0 ∧ nm.measure_reset_idle ≤ 0 := by
    simp only [predefined, List.mem_cons, List.not_mem_nil, or_false] at hnm
    refine ⟨?_, ?_, ?_⟩
    · intro g p
      rcases hnm with rfl | rfl | rfl | rfl | rfl <;> cases g <;>
        simp [NoiseModel.rate, NoiseModel.SD6, NoiseModel.PC3, NoiseModel.EM3_v1, NoiseModel.EM3_v2,
          NoiseModel.SI1000, kind] <;> intro h <;> simp [← h]
    · rcases hnm with rfl | rfl | rfl | rfl | rfl <;> simp [NoiseModel.SD6, NoiseModel.PC3, NoiseModel.EM3_v1,
        NoiseModel.EM3_v2, NoiseModel.SI1000]
    · rcases hnm with rfl | rfl | rfl | rfl | rfl <;> simp [NoiseModel.SD6, NoiseModel.PC3, NoiseModel.EM3_v1,
        NoiseModel.EM3_v2, NoiseModel.SI1000]
  obtain ⟨hr, h1, h2⟩ := hz
  obtain ⟨d, hd⟩ : ∃ d, nm.noisyCircuit c (some (trackedQubits c qs)) = .ok d := by
    rw [noisyCircuit_accepts]
    intro i hi
    obtain ⟨p, hp⟩ := Option.ne_none_iff_exists'.1 (hsup i hi)
    refine Or.inr ⟨p, ([], [i], []), hp, ?_⟩
    unfold NoiseModel.noisyOp
    rw [if_neg (not_lt.2 (hr _ _ hp))]
  refine ⟨d, hd, ?_, ?_⟩
  · rw [noisyCircuit_ok hd]
    have : stepOf nm (trackedQubits c qs) = fun _ ops => ops := by
      funext a ops
      exact stepOf_zero hr h1 h2 a ops
    rw [this, perStep_flatten c ht]
    rfl
  · intro hn
    unfold NoiseModel.noisyCircuit at hd
    simp only at hd
    rcases hl : nm.loop (trackedQubits c qs) c c.num_qubits {} with e | s
    · rw [hl] at hd; exact absurd hd (by simp)
    · rw [hl] at hd
      simp only [Except.ok.injEq] at hd
      subst hd
      rw [loop_zero hr h1 h2 hn ht rfl rfl hl]
      rfl

/-- The hypotheses of C26 hold for the example circuit. -/
example : TickOK exampleCircuit ∧ exampleCircuit.Normal ∧ NoiseModel.EM3_v2 0 ∈ predefined 0 ∧
    ∀ i ∈ exampleCircuit.ops, (NoiseModel.EM3_v2 0).rate i.gate ≠ none := by
  refine ⟨exampleCircuit_ok.2.1, exampleCircuit_ok.2.2.2, by simp [predefined], ?_⟩
  intro i hi
  rw [(c29_supported 0 i.gate).2.2.2.1]
  simp only [exampleCircuit, Circuit.ops, List.cons_append, List.nil_append, List.mem_cons, List.not_mem_nil,
    or_false] at hi
  rcases hi with rfl | rfl | rfl | rfl | rfl | rfl | rfl | rfl | rfl | rfl | rfl <;> decide

/-- The hypotheses of C25 hold for the example circuit with an independent model. -/
example : ∃ d, (NoiseModel.EM3_v1 (1/100)).noisyCircuit exampleCircuit = .ok d := by
  obtain ⟨h1, _, h3, _⟩ := exampleCircuit_ok
  refine ((c29_refused _ (predefined_sensible (1/100) _ (by simp [predefined])) _ none h3 h1).2).2 ?_
  intro i hi
  rw [(c29_supported (1/100) i.gate).2.2.1]
  simp only [exampleCircuit, Circuit.ops, List.cons_append, List.nil_append, List.mem_cons, List.not_mem_nil,
    or_false] at hi
  rcases hi with rfl | rfl | rfl | rfl | rfl | rfl | rfl | rfl | rfl | rfl | rfl <;> decide

/-! ## C27, C28 -/

/-- C27: every operation gets exactly its own channel (tables `noiseBefore`, `noisyCore`, `noiseAfter`) with the
strength the model assigns to it; the only other noise is the single-qubit idle noise at the end of a
time step. -/
theorem c27_channels (nm : NoiseModel) (c d : Circuit) (qs : Option (Finset Nat))
    (h : nm.noisyCircuit c qs = .ok d) :
    ∃ idle : List Instr → List Instr, (∀ ops, ∀ i ∈ idle ops, i.gate = .DEPOLARIZE1) ∧
      d.flatten = perStep (fun a ops => noisyOps nm a ops ++ idle ops) c c.num_qubits [] := by
  rw [noisyCircuit_tracked] at h
  refine ⟨idleOf nm (trackedQubits c qs), ?_, noisyCircuit_ok h⟩
  intro ops i hi
  unfold idleOf NoiseModel.idleErrors at hi
  simp only [List.mem_append] at hi
  rcases hi with hi | hi <;> split_ifs at hi <;> simp at hi <;> subst hi <;> rfl

/-- C27: the strengths of the predefined models. -/
theorem c27_strengths (p : Rat) :
    (∀ g, (NoiseModel.SD6 p).rate g =
      if kind g = .clifford1 ∨ g = .CX ∨ g = .R ∨ g = .M then some p else if kind g = .annotation then some 0 else none) ∧
    (∀ g, (NoiseModel.PC3 p).rate g =
      if kind g = .clifford1 ∨ kind g = .clifford2 ∨ g = .R ∨ g = .M then some p
      else if kind g = .annotation then some 0 else none) ∧
    (∀ g, (NoiseModel.EM3_v1 p).rate g =
      if kind g = .clifford1 ∨ g = .R ∨ g = .M ∨ g = .MPP then some p
      else if kind g = .annotation then some 0 else none) ∧
    (∀ g, (NoiseModel.EM3_v2 p).rate g =
      if g = .R ∨ g = .M then some (p / 2) else if g = .MPP then some p
      else if kind g = .clifford1 ∨ kind g = .clifford2 ∨ kind g = .annotation then some 0 else none) ∧
    (∀ g, (NoiseModel.SI1000 p).rate g =
      if kind g = .clifford1 then some (p / 10) else if g = .CZ then some p else if g = .R then some (2 * p)
      else if g = .M then some (5 * p) else if kind g = .annotation then some 0 else none) := by
  refine ⟨?_, ?_, ?_, ?_, ?_⟩ <;> intro g <;> cases g <;>
    simp [NoiseModel.rate, NoiseModel.SD6, NoiseModel.PC3, NoiseModel.EM3_v1, NoiseModel.EM3_v2,
      NoiseModel.SI1000, kind]

/-- C28: the idle strengths of the predefined models. -/
theorem c28_strengths (p : Rat) :
    ((NoiseModel.SD6 p).idle = p ∧ (NoiseModel.SD6 p).measure_reset_idle = 0) ∧
    ((NoiseModel.PC3 p).idle = p ∧ (NoiseModel.PC3 p).measure_reset_idle = 0) ∧
    ((NoiseModel.EM3_v1 p).idle = p ∧ (NoiseModel.EM3_v1 p).measure_reset_idle = 0) ∧
    ((NoiseModel.EM3_v2 p).idle = p ∧ (NoiseModel.EM3_v2 p).measure_reset_idle = 0) ∧
    ((NoiseModel.SI1000 p).idle = p / 10 ∧ (NoiseModel.SI1000 p).measure_reset_idle = 2 * p) :=
  ⟨⟨rfl, rfl⟩, ⟨rfl, rfl⟩, ⟨rfl, rfl⟩, ⟨rfl, rfl⟩, ⟨rfl, rfl⟩⟩

/-- C28: in every time step (inside and outside `REPEAT` blocks) in which some qubit is touched, every tracked
qubit that is not touched gets exactly one idle depolarization of the idle strength and no other qubit
gets one; likewise for the measure/reset idle noise. -/
theorem c28_idle (nm : NoiseModel) (c d : Circuit) (qs : Option (Finset Nat))
    (h : nm.noisyCircuit c qs = .ok d) :
    ∃ idle1 idle2 : List Instr → List Instr,
      (∀ ops, DepolarizesExactly nm.idle
        (fun q => 0 < nm.idle ∧ (∃ q', Touched ops q') ∧ q ∈ trackedQubits c qs ∧ ¬ Touched ops q) (idle1 ops)) ∧
      (∀ ops, DepolarizesExactly nm.measure_reset_idle
        (fun q => 0 < nm.measure_reset_idle ∧ (∃ q', MeasuredOrReset ops q') ∧
          q ∈ trackedQubits c qs ∧ ¬ MeasuredOrReset ops q) (idle2 ops)) ∧
      d.flatten = perStep (fun a ops => noisyOps nm a ops ++ idle1 ops ++ idle2 ops) c c.num_qubits [] := by
  rw [noisyCircuit_tracked] at h
  refine ⟨fun ops => _, fun ops => _, fun ops => depolarizes_congr ?_ (idle_part nm.idle (trackedQubits c qs) (touchedSet ops)),
    fun ops => depolarizes_congr ?_ (idle_part nm.measure_reset_idle (trackedQubits c qs) (morSet ops)), ?_⟩
  · intro q
    simp only [Finset.Nonempty, mem_touchedSet]
  · intro q
    simp only [Finset.Nonempty, mem_morSet]
  · rw [noisyCircuit_ok h]
    congr 1
    funext a ops
    rw [List.append_assoc]
    rfl

/-- C28 is not vacuous: a step that touches qubit 0 of two tracked qubits leaves qubit 1 idle. -/
example : Touched [Instr.on .H [0], .detector [-1] []] 0 ∧ ¬ Touched [Instr.on .H [0], .detector [-1] []] 1 ∧
    MeasuredOrReset [Instr.on .M [0]] 0 := by
  refine ⟨⟨_, List.mem_cons_self, by decide, by decide⟩, ?_, ⟨_, List.mem_cons_self, Or.inl ⟨.X_ERROR, rfl⟩, by decide⟩⟩
  rintro ⟨i, hi, hk, hq⟩
  simp only [List.mem_cons, List.not_mem_nil, or_false] at hi
  rcases hi with rfl | rfl
  · exact absurd hq (by decide)
  · exact absurd rfl hk

/-! ## C30 -/

/-- C30: for every model (also with correlated parity noise) the noisy circuit has as many measurements and
detectors as the input, and the same detector and observable annotations in the same order, each after
the same number of measurements, so that record offsets refer to the same measurements. -/
theorem c30_record_preserved (nm : NoiseModel) (c d : Circuit) (qs : Option (Finset Nat)) (ht : TickOK c)
    (h : nm.noisyCircuit c qs = .ok d) :
    d.num_measurements = c.num_measurements ∧ d.num_detectors = c.num_detectors ∧
    recordUses 0 d.flatten = recordUses 0 c.flatten := by
  rw [noisyCircuit_tracked] at h
  have hacc := noisyCircuit_accepts.1 ⟨d, h⟩
  have htr : recordTrace d.flatten = recordTrace c.flatten := by
    rw [noisyCircuit_ok h, perStep_congr (g := fun _ ops => ops) recordTrace_append (Accepted nm 0)
      (fun a ops hi => recordTrace_step _ a hi) c
      (fun i hi hne => (hacc i hi).resolve_left hne) _ [] (by simp), perStep_flatten c ht]
    rfl
  rw [num_measurements_eq, num_measurements_eq, measureSum_eq, measureSum_eq, num_detectors_eq, num_detectors_eq,
    countDet_eq, countDet_eq, recordUses_eq, recordUses_eq, htr]
  exact ⟨rfl, rfl, rfl⟩

/-- The example circuit has three parity measurements, one measurement and a detector after them. -/
example : exampleCircuit.num_measurements = 4 ∧
    recordUses 0 exampleCircuit.flatten = [(.detector [-1] [0, 0, 0], 4)] := by
  constructor
  · decide
  · decide

end Honeycomb
