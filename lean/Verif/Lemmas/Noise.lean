import Verif.Spec.Noise
import Mathlib.Data.Finset.Sort
import Mathlib.Algebra.Order.Ring.Rat
import Mathlib.Tactic.Ring

/-! # Lemmas about the noise model -/

namespace Honeycomb

namespace Circuit

@[simp] theorem nil_append (d : Circuit) : Circuit.nil ++ d = d := rfl
@[simp] theorem op_append (i c d) : Circuit.op i c ++ d = .op i (c ++ d) := rfl
@[simp] theorem rep_append (n b c d) : Circuit.rep n b c ++ d = .rep n b (c ++ d) := rfl

@[simp] theorem append_nil (c : Circuit) : c ++ Circuit.nil = c := by
  induction c with
  | nil => rfl
  | op i c ih => rw [op_append, ih]
  | rep n b c _ ih => rw [rep_append, ih]

theorem append_assoc (a b c : Circuit) : a ++ b ++ c = a ++ (b ++ c) := by
  induction a with
  | nil => rfl
  | op i a ih => rw [op_append, op_append, op_append, ih]
  | rep n a' a _ ih => rw [rep_append, rep_append, rep_append, ih]

@[simp] theorem flatten_append (c d : Circuit) : (c ++ d).flatten = c.flatten ++ d.flatten := by
  induction c with
  | nil => rfl
  | op i c ih => simp [flatten, ih]
  | rep n b c _ ih => simp [flatten, ih]

@[simp] theorem flatten_ofList (l : List Instr) : (ofList l).flatten = l := by
  induction l with
  | nil => rfl
  | cons i l ih => simp [ofList, flatten, ih]

@[simp] theorem ofList_append (a b : List Instr) : ofList (a ++ b) = ofList a ++ ofList b := by
  induction a with
  | nil => rfl
  | cons i l ih => simp [ofList, ih]

@[simp] theorem flatten_nil : Circuit.nil.flatten = [] := rfl

theorem flatten_mul (c : Circuit) (n : Nat) : (c.mul n).flatten = (List.replicate n c.flatten).flatten := by
  unfold mul
  split_ifs with h0 h1
  · simp [h0]
  · simp [h1]
  · split
    · rename_i m b
      simp only [flatten, List.append_nil]
      rw [Nat.mul_comm]
      clear h0 h1
      induction n with
      | zero => simp
      | succ n ih => rw [Nat.succ_mul, List.replicate_add, List.flatten_append, ih, List.replicate_succ']; simp
    · simp [flatten]

theorem mem_flatten_ops {c : Circuit} {i : Instr} (h : i ∈ c.flatten) : i ∈ c.ops := by
  induction c with
  | nil => exact h
  | op j c ih =>
    rcases List.mem_cons.1 h with rfl | h
    · exact List.mem_cons_self
    · exact List.mem_cons_of_mem _ (ih h)
  | rep n b c ihb ihc =>
    rcases List.mem_append.1 h with h | h
    · obtain ⟨l, hl, hi⟩ := List.mem_flatten.1 h
      rw [List.eq_of_mem_replicate hl] at hi
      exact List.mem_append_left _ (ihb hi)
    · exact List.mem_append_right _ (ihc h)

end Circuit

theorem strength_eq (nm : NoiseModel) (g : Gate) :
    nm.strength g = match nm.rate g with
      | some p => .ok p
      | none => .error .notImplemented := by
  unfold NoiseModel.strength NoiseModel.rate
  cases nm.noisy_gates g with
  | some p => rfl
  | none =>
    cases h1 : nm.any_clifford_1 <;> cases h2 : nm.any_clifford_2 <;> cases g <;> rfl

/-- The targets of an `MPP` accepted by line 108, when it consists of Pauli pairs. -/
def pairTargets (gs : List ((Basis × Nat) × (Basis × Nat))) : List Target :=
  gs.flatMap fun g => [.pauli g.1.1 g.1.2, .comb, .pauli g.2.1 g.2.2]

theorem mppGroups_pair (gs) : mppGroups (pairTargets gs) = gs.map fun g => [g.1, g.2] := by
  induction gs with
  | nil => rfl
  | cons g gs ih =>
    obtain ⟨⟨b1, q1⟩, b2, q2⟩ := g
    have ih' : mppGroups (List.flatMap (fun g => [Target.pauli g.1.1 g.1.2, .comb, .pauli g.2.1 g.2.2]) gs)
      = gs.map fun g => [g.1, g.2] := ih
    cases gs with
    | nil => rfl
    | cons g' gs' =>
      simp only [pairTargets, List.flatMap_cons, List.cons_append, List.nil_append, mppGroups, List.map_cons] at ih' ⊢
      rw [ih']

theorem mppTriples_pair (gs) : mppTriples (pairTargets gs) = true := by
  induction gs with
  | nil => rfl
  | cons g gs ih => simpa [pairTargets, mppTriples] using ih

theorem correlatedMPP_pair (a p gs) : correlatedMPP a p (pairTargets gs) =
    .ok (gs.flatMap fun g => parityMeasurementWithCorrelatedNoise g.1.1 g.1.2 g.2.1 g.2.2 a p) := by
  induction gs with
  | nil => rfl
  | cons g gs ih =>
    have : pairTargets (g :: gs) = .pauli g.1.1 g.1.2 :: .comb :: .pauli g.2.1 g.2.2 :: pairTargets gs := rfl
    rw [this, correlatedMPP, ih]
    rfl

theorem correlatedMPP_ok {a p} : ∀ {ts l}, correlatedMPP a p ts = .ok l → ∃ gs, ts = pairTargets gs
  | [], _, _ => ⟨[], rfl⟩
  | .pauli b1 q1 :: .comb :: .pauli b2 q2 :: rest, l, h => by
    rw [correlatedMPP] at h
    rcases hr : correlatedMPP a p rest with e' | l'
    · rw [hr] at h; exact absurd h (by simp)
    · obtain ⟨gs, rfl⟩ := correlatedMPP_ok hr
      exact ⟨((b1, q1), (b2, q2)) :: gs, rfl⟩
  | [.pauli _ _], _, h | [.pauli _ _, .comb], _, h => by simp [correlatedMPP] at h
  | .q _ :: _, _, h | .record _ :: _, _, h | .comb :: _, _, h => by simp [correlatedMPP] at h
  | .pauli _ _ :: .q _ :: _, _, h | .pauli _ _ :: .record _ :: _, _, h | .pauli _ _ :: .pauli _ _ :: _, _, h => by
    simp [correlatedMPP] at h
  | .pauli _ _ :: .comb :: .q _ :: _, _, h | .pauli _ _ :: .comb :: .record _ :: _, _, h
  | .pauli _ _ :: .comb :: .comb :: _, _, h => by simp [correlatedMPP] at h

theorem correlatedMPP_core {a p ts l} (h : correlatedMPP a p ts = .ok l) :
    l = (mppGroups ts).flatMap fun
        | [(b1, q1), (b2, q2)] => parityMeasurementWithCorrelatedNoise b1 q1 b2 q2 a p
        | _ => [] := by
  obtain ⟨gs, rfl⟩ := correlatedMPP_ok h
  rw [correlatedMPP_pair, Except.ok.injEq] at h
  rw [← h, mppGroups_pair, List.flatMap_map]

/-- What `noisy_op` does, in terms of the specification. -/
theorem noisyOp_ok {nm : NoiseModel} {op : Instr} {p : Rat} {a : Nat} {pre mid post : List Instr}
    (h : nm.noisyOp op p a = .ok (pre, mid, post)) :
    pre = noiseBefore nm op p ∧ mid = noisyCore nm a op p ∧ post = noiseAfter op p := by
  unfold NoiseModel.noisyOp at h
  unfold noiseBefore noisyCore noiseAfter channel
  by_cases hp : p > 0
  · rw [if_pos hp] at h
    rw [if_neg (not_le.2 hp), if_neg (not_le.2 hp), if_neg (not_le.2 hp)]
    cases hg : op.gate <;>
      simp [hg, ANY_CLIFFORD_1_OPS, ANY_CLIFFORD_2_OPS, RESET_OPS, MEASURE_OPS, endsWithX] at h <;>
      simp only [kind]
    case MPP =>
      split_ifs at h with h1 h2 h3
      · split at h
        · exact absurd h (by simp)
        · rename_i mid' hm
          simp only [Except.ok.injEq, Prod.mk.injEq] at h
          obtain ⟨rfl, rfl, rfl⟩ := h
          simp only [h3, if_true, true_and, and_true]
          exact correlatedMPP_core hm
      · simp only [Except.ok.injEq, Prod.mk.injEq] at h
        obtain ⟨rfl, rfl, rfl⟩ := h
        simp [h3]
    all_goals
      obtain ⟨rfl, rfl, rfl⟩ := h
      simp
  · rw [if_neg hp] at h
    rw [if_pos (not_lt.1 hp), if_pos (not_lt.1 hp), if_pos (not_lt.1 hp)]
    simp only [Except.ok.injEq, Prod.mk.injEq] at h
    obtain ⟨rfl, rfl, rfl⟩ := h
    exact ⟨rfl, rfl, rfl⟩

/-! ## The loop -/

/-- The touched set of the model, as a set of the operations. -/
def touchedSet (ops : List Instr) : Finset Nat := ops.foldl (fun s i => s ∪ NoiseModel.touched i) ∅

def morStep (s : Finset Nat) (i : Instr) : Finset Nat :=
  if i.gate ∈ MEASURE_OPS ∨ i.gate ∈ RESET_OPS then s ∪ NoiseModel.touched i else s

def morSet (ops : List Instr) : Finset Nat := ops.foldl morStep ∅

theorem mem_touched (i : Instr) (q : Nat) :
    q ∈ NoiseModel.touched i ↔ kind i.gate ≠ .annotation ∧ q ∈ i.qubits := by
  unfold NoiseModel.touched
  have : i.gate ∈ ANNOTATION_OPS ↔ kind i.gate = .annotation := by
    cases i.gate <;> simp [ANNOTATION_OPS, kind]
  by_cases h : kind i.gate = .annotation
  · rw [if_pos (this.2 h)]; simp [h]
  · rw [if_neg (fun h' => h (this.1 h'))]; simp [h]

theorem mem_touchedSet (ops : List Instr) (q : Nat) : q ∈ touchedSet ops ↔ Touched ops q := by
  have gen : ∀ (ops : List Instr) (s : Finset Nat),
      q ∈ ops.foldl (fun s i => s ∪ NoiseModel.touched i) s ↔ q ∈ s ∨ Touched ops q := by
    intro ops
    induction ops with
    | nil => intro s; simp [Touched]
    | cons i ops ih =>
      intro s
      rw [List.foldl_cons, ih, Finset.mem_union, mem_touched]
      simp only [Touched, List.mem_cons, exists_eq_or_imp, or_assoc]
  rw [touchedSet, gen]; simp

theorem mem_morSet (ops : List Instr) (q : Nat) : q ∈ morSet ops ↔ MeasuredOrReset ops q := by
  have hk : ∀ g : Gate, (g ∈ MEASURE_OPS ∨ g ∈ RESET_OPS) ↔ ((∃ f, kind g = .measure f) ∨ ∃ f, kind g = .reset f) := by
    intro g; cases g <;> simp [MEASURE_OPS, RESET_OPS, kind]
  have gen : ∀ (ops : List Instr) (s : Finset Nat),
      q ∈ ops.foldl morStep s ↔ q ∈ s ∨ MeasuredOrReset ops q := by
    intro ops
    induction ops with
    | nil => intro s; simp [MeasuredOrReset]
    | cons i ops ih =>
      intro s
      have : q ∈ morStep s i ↔ q ∈ s ∨
          (((∃ f, kind i.gate = .measure f) ∨ ∃ f, kind i.gate = .reset f) ∧ q ∈ i.qubits) := by
        unfold morStep
        by_cases h : i.gate ∈ MEASURE_OPS ∨ i.gate ∈ RESET_OPS
        · rw [if_pos h, Finset.mem_union, mem_touched]
          have h' := (hk _).1 h
          have : kind i.gate ≠ .annotation := by
            rcases h' with ⟨f, hf⟩ | ⟨f, hf⟩ <;> rw [hf] <;> simp
          simp only [h', this, ne_eq, not_false_eq_true, true_and]
        · rw [if_neg h]
          have h' : ¬ _ := fun h' => h ((hk _).2 h')
          simp only [h', false_and, or_false]
      rw [List.foldl_cons, ih, this]
      simp only [MeasuredOrReset, List.mem_cons, exists_eq_or_imp, or_assoc]
  rw [morSet, gen]; simp

/-- The state of the loop after the operations `acc` of the current time step. -/
structure StateOf (nm : NoiseModel) (a : Nat) (acc : List Instr) (s : NoiseModel.State) : Prop where
  pre : s.pre = acc.flatMap fun i => noiseBefore nm i ((nm.rate i.gate).getD 0)
  mid : s.mid = acc.flatMap fun i => noisyCore nm a i ((nm.rate i.gate).getD 0)
  post : s.post = acc.flatMap fun i => noiseAfter i ((nm.rate i.gate).getD 0)
  used : s.used = touchedSet acc
  mor : s.measuredOrReset = morSet acc
  empt : ∀ i ∈ acc, noisyCore nm a i ((nm.rate i.gate).getD 0) = [] →
    noiseBefore nm i ((nm.rate i.gate).getD 0) = [] ∧ noiseAfter i ((nm.rate i.gate).getD 0) = [] ∧ i.qubits = []

theorem stateOf_nil (nm : NoiseModel) (a : Nat) (r : Circuit) : StateOf nm a [] { result := r } :=
  ⟨rfl, rfl, rfl, rfl, rfl, by simp⟩

/-- The idle noise of a time step. -/
def idleOf (nm : NoiseModel) (qs : Finset Nat) (ops : List Instr) : List Instr :=
  nm.idleErrors qs { used := touchedSet ops, measuredOrReset := morSet ops }

/-- One time step of the result. -/
def stepOf (nm : NoiseModel) (qs : Finset Nat) (a : Nat) (ops : List Instr) : List Instr :=
  noisyOps nm a ops ++ idleOf nm qs ops

theorem noisyOp_nil {nm : NoiseModel} {op : Instr} {p : Rat} {a : Nat} {pre post : List Instr}
    (h : nm.noisyOp op p a = .ok (pre, [], post)) : pre = [] ∧ post = [] ∧ op.qubits = [] := by
  unfold NoiseModel.noisyOp at h
  split_ifs at h
  all_goals try simp at h
  split at h
  · exact absurd h (by simp)
  · rename_i mid hm
    simp only [Except.ok.injEq, Prod.mk.injEq] at h
    obtain ⟨rfl, rfl, rfl⟩ := h
    refine ⟨rfl, rfl, ?_⟩
    obtain ⟨gs, hgs⟩ := correlatedMPP_ok hm
    rw [hgs, correlatedMPP_pair] at hm
    cases gs with
    | nil => simp [Instr.qubits, hgs, pairTargets]
    | cons g gs => simp [parityMeasurementWithCorrelatedNoise] at hm

theorem noisyOps_append (nm : NoiseModel) (a : Nat) (i : Instr) (acc : List Instr) {s s' : NoiseModel.State}
    {qs : Finset Nat} (hs : StateOf nm a acc s) (ht : i.gate ≠ .TICK) (h : nm.stepInstr qs a s i = .ok s') :
    StateOf nm a (acc ++ [i]) s' ∧ s'.result = s.result := by
  unfold NoiseModel.stepInstr at h
  rw [if_neg ht, strength_eq] at h
  cases hr : nm.rate i.gate with
  | none => rw [hr] at h; exact absurd h (by simp)
  | some p =>
    rw [hr] at h
    simp only at h
    rcases hn : nm.noisyOp i p a with e | ⟨pre, mid, post⟩
    · rw [hn] at h; exact absurd h (by simp)
    · rw [hn] at h
      simp only [Except.ok.injEq] at h
      obtain ⟨rfl, rfl, rfl⟩ := noisyOp_ok hn
      subst h
      refine ⟨⟨?_, ?_, ?_, ?_, ?_, ?_⟩, rfl⟩
      · simp [hs.pre, hr]
      · simp [hs.mid, hr]
      · simp [hs.post, hr]
      · simp only [hs.used, touchedSet, List.foldl_append, List.foldl_cons, List.foldl_nil]
      · simp only [hs.mor, morSet, List.foldl_append, List.foldl_cons, List.foldl_nil, morStep]
      · intro j hj
        rcases List.mem_append.1 hj with hj | hj
        · exact hs.empt j hj
        · rw [List.mem_singleton] at hj
          subst hj
          intro hc
          simp only [hr, Option.getD_some] at hc ⊢
          rw [hc] at hn
          exact noisyOp_nil hn

theorem flush_eq {nm : NoiseModel} {a : Nat} {acc : List Instr} {s : NoiseModel.State} (qs : Finset Nat)
    (hs : StateOf nm a acc s) :
    (nm.flush qs s).result.flatten = s.result.flatten ++ stepOf nm qs a acc ∧
    StateOf nm a [] (nm.flush qs s) := by
  unfold NoiseModel.flush
  by_cases hm : s.mid = []
  · rw [if_pos hm]
    have hmid := hs.mid
    rw [hm, eq_comm, List.flatMap_eq_nil_iff] at hmid
    have he := fun i hi => hs.empt i hi (hmid i hi)
    have h1 : (acc.flatMap fun i => noiseBefore nm i ((nm.rate i.gate).getD 0)) = [] :=
      List.flatMap_eq_nil_iff.2 fun i hi => (he i hi).1
    have h2 : (acc.flatMap fun i => noisyCore nm a i ((nm.rate i.gate).getD 0)) = [] :=
      List.flatMap_eq_nil_iff.2 hmid
    have h3 : (acc.flatMap fun i => noiseAfter i ((nm.rate i.gate).getD 0)) = [] :=
      List.flatMap_eq_nil_iff.2 fun i hi => (he i hi).2.1
    have h4 : touchedSet acc = ∅ := by
      ext q
      rw [mem_touchedSet]
      simp only [Touched, Finset.notMem_empty, iff_false, not_exists, not_and]
      intro i hi _ hq
      rw [(he i hi).2.2] at hq
      exact absurd hq (by simp)
    have h5 : morSet acc = ∅ := by
      ext q
      rw [mem_morSet]
      simp only [MeasuredOrReset, Finset.notMem_empty, iff_false, not_exists, not_and]
      intro i hi _ hq
      rw [(he i hi).2.2] at hq
      exact absurd hq (by simp)
    refine ⟨?_, ?_⟩
    · simp [stepOf, noisyOps, h1, h2, h3, idleOf, h4, h5, NoiseModel.idleErrors]
    · exact ⟨by rw [hs.pre, h1]; rfl, by rw [hs.mid, h2]; rfl, by rw [hs.post, h3]; rfl, by rw [hs.used, h4]; rfl,
        by rw [hs.mor, h5]; rfl, by simp⟩
  · rw [if_neg hm]
    refine ⟨?_, rfl, rfl, rfl, rfl, rfl, by simp⟩
    simp only [Circuit.flatten_append, Circuit.flatten_ofList, stepOf, noisyOps, hs.pre, hs.mid, hs.post]
    have : nm.idleErrors qs s = idleOf nm qs acc := by
      simp only [idleOf, NoiseModel.idleErrors, hs.used, hs.mor]
    rw [this]
    simp [List.append_assoc]

/-- The loop computes the circuit step by step. -/
theorem loop_ok {nm : NoiseModel} {qs : Finset Nat} {c : Circuit} :
    ∀ {a : Nat} {acc : List Instr} {s s' : NoiseModel.State}, StateOf nm a acc s → nm.loop qs c a s = .ok s' →
      (nm.flush qs s').result.flatten = s.result.flatten ++ perStep (stepOf nm qs) c a acc := by
  induction c with
  | nil =>
    intro a acc s s' hs h
    simp only [NoiseModel.loop, Except.ok.injEq] at h
    subst h
    exact (flush_eq qs hs).1
  | op i c ih =>
    intro a acc s s' hs h
    simp only [NoiseModel.loop] at h
    rcases h1 : nm.stepInstr qs a s i with e | s1
    · rw [h1] at h; exact absurd h (by simp)
    rw [h1] at h
    simp only at h
    by_cases ht : i.gate = .TICK
    · simp only [NoiseModel.stepInstr, ht, if_true, Except.ok.injEq] at h1
      subst h1
      have hf := flush_eq qs hs
      rw [ih (acc := []) (by exact ⟨hf.2.pre, hf.2.mid, hf.2.post, hf.2.used, hf.2.mor, hf.2.empt⟩) h]
      simp [perStep, ht, hf.1]
    · obtain ⟨h2, h3⟩ := noisyOps_append nm a i acc hs ht h1
      rw [ih h2 h, h3, perStep, if_neg ht]
  | rep n b c ihb ihc =>
    intro a acc s s' hs h
    simp only [NoiseModel.loop] at h
    rcases h1 : nm.loop qs b b.num_qubits {} with e | sb
    · rw [h1] at h; exact absurd h (by simp)
    rw [h1] at h
    simp only at h
    have hb := ihb (stateOf_nil nm b.num_qubits .nil) h1
    have hf := flush_eq qs hs
    rw [ihc (acc := []) (by exact ⟨hf.2.pre, hf.2.mid, hf.2.post, hf.2.used, hf.2.mor, hf.2.empt⟩) h]
    simp only [Circuit.flatten_append, hf.1, Circuit.flatten_mul, hb, perStep, Circuit.flatten_nil, List.nil_append,
      List.append_assoc]

/-- `noisy_circuit` computes the circuit step by step. -/
theorem noisyCircuit_ok {nm : NoiseModel} {qs : Finset Nat} {c d : Circuit}
    (h : nm.noisyCircuit c (some qs) = .ok d) : d.flatten = perStep (stepOf nm qs) c c.num_qubits [] := by
  unfold NoiseModel.noisyCircuit at h
  simp only at h
  rcases h1 : nm.loop qs c c.num_qubits {} with e | s
  · rw [h1] at h; exact absurd h (by simp)
  · rw [h1] at h
    simp only [Except.ok.injEq] at h
    subst h
    exact loop_ok (stateOf_nil nm _ .nil) h1

/-! ## Acceptance -/

/-- An operation is accepted: it has a rate and `noisy_op` does not raise. -/
def Accepted (nm : NoiseModel) (a : Nat) (i : Instr) : Prop :=
  ∃ p r, nm.rate i.gate = some p ∧ nm.noisyOp i p a = .ok r

/-- Whether an operation is accepted does not depend on the ancilla. -/
theorem accepted_ancilla {nm : NoiseModel} {a b : Nat} {i : Instr} (h : Accepted nm a i) : Accepted nm b i := by
  obtain ⟨p, r, hr, hn⟩ := h
  refine ⟨p, ?_⟩
  unfold NoiseModel.noisyOp at hn ⊢
  split_ifs at hn ⊢ with h1 h2 h3 h4 h5 h6 h7 h8
  all_goals try exact ⟨_, hr, rfl⟩
  rcases hm : correlatedMPP a p i.targets with e | l
  · rw [hm] at hn; exact absurd hn (by simp)
  · obtain ⟨gs, hgs⟩ := correlatedMPP_ok hm
    rw [hgs, correlatedMPP_pair]
    exact ⟨_, hr, rfl⟩

theorem stepInstr_ok_iff {nm : NoiseModel} {qs : Finset Nat} {a : Nat} {s : NoiseModel.State} {i : Instr} :
    (∃ s', nm.stepInstr qs a s i = .ok s') ↔ (i.gate = .TICK ∨ Accepted nm a i) := by
  unfold NoiseModel.stepInstr
  by_cases ht : i.gate = .TICK
  · simp [ht]
  · simp only [ht, if_false, false_or]
    rw [strength_eq]
    cases hr : nm.rate i.gate with
    | none => simp [Accepted, hr]
    | some p =>
      rcases hn : nm.noisyOp i p a with e | ⟨pre, mid, post⟩
      · simp [Accepted, hr, hn]
      · simp [Accepted, hr, hn]

theorem loop_accepts {nm : NoiseModel} {qs : Finset Nat} {c : Circuit} :
    ∀ {a : Nat} {s : NoiseModel.State}, (∃ s', nm.loop qs c a s = .ok s') ↔
      ∀ i ∈ c.ops, i.gate = .TICK ∨ Accepted nm 0 i := by
  induction c with
  | nil => intro a s; simp [NoiseModel.loop, Circuit.ops]
  | op i c ih =>
    intro a s
    have hh := stepInstr_ok_iff (nm := nm) (qs := qs) (a := a) (s := s) (i := i)
    simp only [NoiseModel.loop, Circuit.ops, List.mem_cons, forall_eq_or_imp]
    rcases h1 : nm.stepInstr qs a s i with e | s1
    · rw [h1] at hh
      simp only [reduceCtorEq, exists_false, false_iff, not_or, not_and] at hh ⊢
      intro h
      rcases h with h | h
      · exact absurd h hh.1
      · exact absurd (accepted_ancilla h) hh.2
    · rw [h1] at hh
      simp only [Except.ok.injEq, exists_eq', true_iff] at hh
      simp only [ih]
      refine (and_iff_right (hh.imp_right accepted_ancilla)).symm
  | rep n b c ihb ihc =>
    intro a s
    simp only [NoiseModel.loop, Circuit.ops, List.mem_append, or_imp, forall_and]
    rcases h1 : nm.loop qs b b.num_qubits {} with e | sb
    · have : ¬ ∃ s', nm.loop qs b b.num_qubits {} = .ok s' := by rw [h1]; simp
      rw [ihb] at this
      simp [this]
    · have : ∃ s', nm.loop qs b b.num_qubits {} = .ok s' := ⟨_, h1⟩
      rw [ihb] at this
      simp only [ihc]
      exact ⟨fun h => ⟨this, h⟩, fun h => h.2⟩

theorem noisyCircuit_accepts {nm : NoiseModel} {qs : Finset Nat} {c : Circuit} :
    (∃ d, nm.noisyCircuit c (some qs) = .ok d) ↔ ∀ i ∈ c.ops, i.gate = .TICK ∨ Accepted nm 0 i := by
  rw [← loop_accepts (qs := qs) (a := c.num_qubits) (s := {})]
  unfold NoiseModel.noisyCircuit
  simp only
  rcases h1 : nm.loop qs c c.num_qubits {} with e | s <;> simp

/-- The only error of a circuit without malformed operations is NotImplementedError. -/
theorem loop_error {nm : NoiseModel} {qs : Finset Nat} {c : Circuit} {e : PyErr}
    (hc : ∀ i ∈ c.ops, ∀ p a, nm.rate i.gate = some p → ∃ r, nm.noisyOp i p a = .ok r) :
    ∀ {a : Nat} {s : NoiseModel.State}, nm.loop qs c a s = .error e → e = .notImplemented := by
  induction c with
  | nil => intro a s h; simp [NoiseModel.loop] at h
  | op i c ih =>
    intro a s h
    simp only [NoiseModel.loop] at h
    rcases h1 : nm.stepInstr qs a s i with e' | s1
    · rw [h1] at h
      simp only [Except.error.injEq] at h
      subst h
      unfold NoiseModel.stepInstr at h1
      by_cases ht : i.gate = .TICK
      · rw [if_pos ht] at h1; exact absurd h1 (by simp)
      rw [if_neg ht, strength_eq] at h1
      cases hr : nm.rate i.gate with
      | none =>
        rw [hr] at h1
        simp only [Except.error.injEq] at h1
        exact h1.symm
      | some p =>
        obtain ⟨⟨pre, mid, post⟩, hn⟩ := hc i (by simp [Circuit.ops]) p a hr
        rw [hr] at h1
        simp [hn] at h1
    · rw [h1] at h
      exact ih (fun j hj => hc j (by simp [Circuit.ops, hj])) h
  | rep n b c ihb ihc =>
    intro a s h
    simp only [NoiseModel.loop] at h
    rcases h1 : nm.loop qs b b.num_qubits {} with e' | sb
    · rw [h1] at h
      simp only [Except.error.injEq] at h
      subst h
      exact ihb (fun j hj => hc j (by simp [Circuit.ops, hj])) h1
    · rw [h1] at h
      exact ihc (fun j hj => hc j (by simp [Circuit.ops, hj])) h

/-! ## Consequences of the step-by-step description -/

theorem removeNoise_append (a b : List Instr) : removeNoise (a ++ b) = removeNoise a ++ removeNoise b := by
  simp [removeNoise]

theorem removeNoise_nil_of {l : List Instr} (h : ∀ i ∈ l, isNoise i.gate = true) : removeNoise l = [] := by
  have : l.filter (fun i => !isNoise i.gate) = [] := by
    rw [List.filter_eq_nil_iff]
    intro i hi
    simp [h i hi]
  simp [removeNoise, this]

theorem noiseBefore_isNoise {nm i p j} (h : j ∈ noiseBefore nm i p) : isNoise j.gate = true := by
  unfold noiseBefore channel at h
  split_ifs at h <;> cases hg : i.gate <;> simp [hg, kind] at h
  all_goals (subst h; rfl)

theorem noiseAfter_isNoise {i p j} (h : j ∈ noiseAfter i p) : isNoise j.gate = true := by
  unfold noiseAfter channel at h
  split_ifs at h <;> cases hg : i.gate <;> simp [hg, kind] at h
  all_goals (subst h; rfl)

theorem idleOf_isNoise {nm qs ops j} (h : j ∈ idleOf nm qs ops) : isNoise j.gate = true := by
  unfold idleOf NoiseModel.idleErrors at h
  simp only [List.mem_append] at h
  rcases h with h | h <;> split_ifs at h <;> simp at h <;> subst h <;> rfl

theorem perStep_flatten (c : Circuit) (ht : TickOK c) : ∀ (a : Nat) (acc : List Instr),
    perStep (fun _ ops => ops) c a acc = acc ++ c.flatten := by
  induction c with
  | nil => intro a acc; simp [perStep]
  | op i c ih =>
    intro a acc
    have ih' := ih fun j hj => ht j (by simp [Circuit.ops, hj])
    by_cases hi : i.gate = .TICK
    · rw [perStep, if_pos hi, ih', Circuit.flatten, ht i (by simp [Circuit.ops]) hi]
      simp
    · rw [perStep, if_neg hi, ih', Circuit.flatten]
      simp
  | rep n b c ihb ihc =>
    intro a acc
    have hb := ihb fun j hj => ht j (by simp [Circuit.ops, hj])
    have hc := ihc fun j hj => ht j (by simp [Circuit.ops, hj])
    rw [perStep, hb, hc, Circuit.flatten]
    simp

/-- Two step functions that agree (through a list morphism) on the operations of the circuit agree on the circuit. -/
theorem perStep_congr {β : Type} {f g : Nat → List Instr → List Instr} {T : List Instr → List β}
    (hT : ∀ a b, T (a ++ b) = T a ++ T b) (P : Instr → Prop)
    (hfg : ∀ a ops, (∀ i ∈ ops, P i) → T (f a ops) = T (g a ops)) (c : Circuit) :
    (∀ i ∈ c.ops, i.gate ≠ .TICK → P i) → ∀ (a : Nat) (acc : List Instr), (∀ i ∈ acc, P i) →
    T (perStep f c a acc) = T (perStep g c a acc) := by
  induction c with
  | nil => intro _ a acc hacc; exact hfg a acc hacc
  | op i c ih =>
    intro hP a acc hacc
    have hP' : ∀ j ∈ c.ops, j.gate ≠ .TICK → P j := fun j hj => hP j (by simp [Circuit.ops, hj])
    by_cases hi : i.gate = .TICK
    · rw [perStep, if_pos hi, perStep, if_pos hi, hT, hT, hT, hT, hfg a acc hacc, ih hP' a [] (by simp)]
    · rw [perStep, if_neg hi, perStep, if_neg hi]
      refine ih hP' a _ ?_
      intro j hj
      rcases List.mem_append.1 hj with hj | hj
      · exact hacc j hj
      · rw [List.mem_singleton] at hj
        subst hj
        exact hP j (by simp [Circuit.ops]) hi
  | rep n b c ihb ihc =>
    intro hP a acc hacc
    have hrep : ∀ (n : Nat) (l l' : List Instr), T l = T l' →
        T (List.replicate n l).flatten = T (List.replicate n l').flatten := by
      intro n l l' h
      induction n with
      | zero => rfl
      | succ n ih => rw [List.replicate_succ, List.replicate_succ, List.flatten_cons, List.flatten_cons, hT, hT, h, ih]
    rw [perStep, perStep, hT, hT, hT, hT, hfg a acc hacc,
      hrep n _ _ (ihb (fun j hj => hP j (by simp [Circuit.ops, hj])) _ [] (by simp)),
      ihc (fun j hj => hP j (by simp [Circuit.ops, hj])) a [] (by simp)]

theorem removeNoise_self {l : List Instr} (h : ∀ i ∈ l, isNoise i.gate = false ∧ (i.gate = .MPP → i.args = [])) :
    removeNoise l = l := by
  induction l with
  | nil => rfl
  | cons i l ih =>
    have hi := h i (by simp)
    have : removeNoise (i :: l) = removeNoise [i] ++ removeNoise l := removeNoise_append [i] l
    rw [this, ih fun j hj => h j (by simp [hj])]
    simp only [removeNoise, List.filter_cons, hi.1, Bool.not_false, if_true, List.filter_nil, List.map_cons, List.map_nil,
      List.cons_append, List.nil_append, List.cons.injEq, and_true]
    split_ifs with hm
    · rw [← hi.2 hm]
    · rfl

theorem removeNoise_core {nm : NoiseModel} (hnc : nm.use_correlated_parity_measurement_errors = false) {a i p}
    (hi : isNoise i.gate = false ∧ (i.gate = .MPP → i.args = [])) : removeNoise (noisyCore nm a i p) = [i] := by
  have h1 : removeNoise [i] = [i] := removeNoise_self (by simpa using hi)
  unfold noisyCore
  split_ifs with hp hc
  · exact h1
  · rw [hnc] at hc; exact absurd hc (by simp)
  · split
    · rename_i hk
      have hg : i.gate = .MPP := by revert hk; cases i.gate <;> simp [kind]
      simp only [removeNoise, hg, isNoise, List.filter_cons, Bool.not_false, if_true, List.filter_nil, List.map_cons,
        List.map_nil]
      congr 1
      rw [← hg, ← hi.2 hg]
    · exact h1

theorem removeNoise_step {nm : NoiseModel} (hnc : nm.use_correlated_parity_measurement_errors = false) (qs) (a : Nat)
    {ops : List Instr} (hi : ∀ i ∈ ops, isNoise i.gate = false ∧ (i.gate = .MPP → i.args = [])) :
    removeNoise (stepOf nm qs a ops) = ops := by
  unfold stepOf noisyOps
  rw [removeNoise_append, removeNoise_append, removeNoise_append]
  rw [removeNoise_nil_of (l := ops.flatMap fun i => noiseBefore nm i ((nm.rate i.gate).getD 0)),
    removeNoise_nil_of (l := ops.flatMap fun i => noiseAfter i ((nm.rate i.gate).getD 0)),
    removeNoise_nil_of (l := idleOf nm qs ops)]
  · simp only [List.nil_append, List.append_nil]
    induction ops with
    | nil => rfl
    | cons i ops ih =>
      rw [List.flatMap_cons, removeNoise_append, ih fun j hj => hi j (by simp [hj]),
        removeNoise_core hnc (hi i (by simp))]
      rfl
  · exact fun j hj => idleOf_isNoise hj
  · intro j hj
    obtain ⟨i, _, hj⟩ := List.mem_flatMap.1 hj
    exact noiseAfter_isNoise hj
  · intro j hj
    obtain ⟨i, _, hj⟩ := List.mem_flatMap.1 hj
    exact noiseBefore_isNoise hj

/-! ## The measurement record -/

/-- The measurement counts and annotations of a sequence, in order. -/
def recordTrace (l : List Instr) : List (Instr ⊕ Unit) :=
  l.flatMap fun i =>
    if i.gate = .DETECTOR ∨ i.gate = .OBSERVABLE_INCLUDE then [.inl i]
    else List.replicate i.measureCount (.inr ())

/-- `recordUses` computed from the trace. -/
def usesOfTrace (k : Nat) : List (Instr ⊕ Unit) → List (Instr × Nat)
  | [] => []
  | .inl i :: l => (i, k) :: usesOfTrace k l
  | .inr _ :: l => usesOfTrace (k + 1) l

theorem usesOfTrace_replicate (n k : Nat) (l) :
    usesOfTrace k (List.replicate n (.inr ()) ++ l) = usesOfTrace (k + n) l := by
  induction n generalizing k with
  | zero => simp
  | succ n ih =>
    rw [List.replicate_succ, List.cons_append, usesOfTrace, ih]
    congr 1
    omega

theorem recordUses_eq (l : List Instr) : ∀ k, recordUses k l = usesOfTrace k (recordTrace l) := by
  induction l with
  | nil => intro k; rfl
  | cons i l ih =>
    intro k
    rw [recordUses]
    have hc : recordTrace (i :: l) = (if i.gate = .DETECTOR ∨ i.gate = .OBSERVABLE_INCLUDE then [.inl i]
      else List.replicate i.measureCount (.inr ())) ++ recordTrace l := rfl
    rw [hc]
    split_ifs with h
    · have : i.measureCount = 0 := by
        rcases h with h | h <;> simp [Instr.measureCount, h]
      rw [this, ih]
      rfl
    · rw [ih, usesOfTrace_replicate]

theorem measureSum_eq (l : List Instr) :
    (l.map Instr.measureCount).sum = (recordTrace l).countP (fun x => x.isRight) := by
  induction l with
  | nil => rfl
  | cons i l ih =>
    have hc : recordTrace (i :: l) = (if i.gate = .DETECTOR ∨ i.gate = .OBSERVABLE_INCLUDE then [.inl i]
      else List.replicate i.measureCount (.inr ())) ++ recordTrace l := rfl
    rw [hc, List.map_cons, List.sum_cons, ih, List.countP_append]
    congr 1
    split_ifs with h
    · rcases h with h | h <;> simp [Instr.measureCount, h]
    · simp [List.countP_replicate]

theorem recordTrace_append (a b) : recordTrace (a ++ b) = recordTrace a ++ recordTrace b := by
  simp [recordTrace]

theorem recordTrace_nil_of {l : List Instr} (h : ∀ i ∈ l, isNoise i.gate = true) : recordTrace l = [] := by
  rw [recordTrace, List.flatMap_eq_nil_iff]
  intro i hi
  have := h i hi
  revert this
  cases hg : i.gate <;> simp [isNoise, Instr.measureCount, hg]

theorem recordTrace_gadget (b1 q1 b2 q2 a p) :
    recordTrace (parityMeasurementWithCorrelatedNoise b1 q1 b2 q2 a p) = [.inr ()] := by
  unfold parityMeasurementWithCorrelatedNoise
  rw [recordTrace_append, recordTrace_append,
    recordTrace_nil_of (l := (correlatedErrors q1 q2 a).map _)]
  · cases b1 <;> cases b2 <;>
      simp [recordTrace, Instr.on, parityCX, HoneycombLayout.basisCX, Instr.measureCount]
  · intro i hi
    obtain ⟨e, _, rfl⟩ := List.mem_map.1 hi
    rfl

theorem recordTrace_core {nm : NoiseModel} {a i p} {r} (h : nm.noisyOp i p a = .ok r) :
    recordTrace (noisyCore nm a i p) = recordTrace [i] := by
  obtain ⟨pre, mid, post⟩ := r
  unfold noisyCore
  split_ifs with hp hc
  · rfl
  · split
    · rename_i hk
      have hg : i.gate = .MPP := by revert hk; cases i.gate <;> simp [kind]
      unfold NoiseModel.noisyOp at h
      rw [if_pos (not_le.1 hp)] at h
      simp only [hg, hc, ANY_CLIFFORD_1_OPS, ANY_CLIFFORD_2_OPS, RESET_OPS, MEASURE_OPS, if_true] at h
      simp at h
      split_ifs at h
      split at h
      · exact absurd h (by simp)
      · rename_i l hm
        obtain ⟨gs, hgs⟩ := correlatedMPP_ok hm
        rw [hgs, mppGroups_pair]
        have h1 : recordTrace [i] = List.replicate gs.length (.inr ()) := by
          simp [recordTrace, hg, Instr.measureCount, hgs, mppGroups_pair]
        rw [h1]
        clear h1 hm hgs
        induction gs with
        | nil => rfl
        | cons g gs ih =>
          rw [List.map_cons, List.flatMap_cons, recordTrace_append, ih, recordTrace_gadget]
          rfl
    · rfl
  · split
    · rename_i hk
      have hg : i.gate = .MPP := by revert hk; cases i.gate <;> simp [kind]
      simp [recordTrace, hg, Instr.measureCount]
    · rfl

theorem recordTrace_step {nm : NoiseModel} (qs) (a : Nat)
    {ops : List Instr} (hi : ∀ i ∈ ops, Accepted nm 0 i) :
    recordTrace (stepOf nm qs a ops) = recordTrace ops := by
  unfold stepOf noisyOps
  rw [recordTrace_append, recordTrace_append, recordTrace_append]
  rw [recordTrace_nil_of (l := ops.flatMap fun i => noiseBefore nm i ((nm.rate i.gate).getD 0)),
    recordTrace_nil_of (l := ops.flatMap fun i => noiseAfter i ((nm.rate i.gate).getD 0)),
    recordTrace_nil_of (l := idleOf nm qs ops)]
  · simp only [List.nil_append, List.append_nil]
    induction ops with
    | nil => rfl
    | cons i ops ih =>
      obtain ⟨p, r, hr, hn⟩ := accepted_ancilla (b := a) (hi i (by simp))
      rw [List.flatMap_cons, recordTrace_append, ih fun j hj => hi j (by simp [hj]), hr, Option.getD_some,
        recordTrace_core hn, ← recordTrace_append]
      rfl
  · exact fun j hj => idleOf_isNoise hj
  · intro j hj
    obtain ⟨i, _, hj⟩ := List.mem_flatMap.1 hj
    exact noiseAfter_isNoise hj
  · intro j hj
    obtain ⟨i, _, hj⟩ := List.mem_flatMap.1 hj
    exact noiseBefore_isNoise hj

theorem num_measurements_eq (c : Circuit) : c.num_measurements = (c.flatten.map Instr.measureCount).sum := by
  induction c with
  | nil => rfl
  | op i c ih => simp [Circuit.num_measurements, Circuit.flatten, ih]
  | rep n b c ihb ihc =>
    simp only [Circuit.num_measurements, Circuit.flatten, List.map_append, List.sum_append, ihc, ihb]
    congr 1
    clear ihb ihc
    induction n with
    | zero => simp
    | succ n ih => rw [List.replicate_succ, List.flatten_cons, List.map_append, List.sum_append, ← ih]; ring

theorem num_detectors_eq (c : Circuit) : c.num_detectors = c.flatten.countP (fun i => i.gate = .DETECTOR) := by
  induction c with
  | nil => rfl
  | op i c ih => simp [Circuit.num_detectors, Circuit.flatten, ih, List.countP_cons]; omega
  | rep n b c ihb ihc =>
    simp only [Circuit.num_detectors, Circuit.flatten, List.countP_append, ihc, ihb]
    congr 1
    clear ihb ihc
    induction n with
    | zero => simp
    | succ n ih => rw [List.replicate_succ, List.flatten_cons, List.countP_append, ← ih]; ring

theorem countDet_eq (l : List Instr) :
    l.countP (fun i => i.gate = .DETECTOR) =
      (recordTrace l).countP (fun x => match x with | .inl i => i.gate = .DETECTOR | .inr _ => false) := by
  induction l with
  | nil => rfl
  | cons i l ih =>
    have hc : recordTrace (i :: l) = (if i.gate = .DETECTOR ∨ i.gate = .OBSERVABLE_INCLUDE then [.inl i]
      else List.replicate i.measureCount (.inr ())) ++ recordTrace l := rfl
    rw [hc, List.countP_cons, ih, List.countP_append, Nat.add_comm]
    congr 1
    split_ifs with h1 h2 h3
    · simp_all
    · simp_all
    · simp_all
    · simp [List.countP_replicate]

/-! ## Idle noise -/

theorem filterMap_q (l : List Nat) : (l.map Target.q).filterMap Target.qubit? = l := by
  induction l with
  | nil => rfl
  | cons a l ih => simp [Target.qubit?, ih]

theorem idle_exact (p : Rat) (S : Finset Nat) (P : Prop) [Decidable P] (hP : P ↔ (S.sort (· ≤ ·)) ≠ []) :
    DepolarizesExactly p (fun q => q ∈ S)
      (if P then [{ gate := .DEPOLARIZE1, targets := (S.sort (· ≤ ·)).map .q, args := [.lit p] }] else []) := by
  by_cases h : P
  · rw [if_pos h]
    refine ⟨?_, ?_, ?_⟩
    · intro i hi
      rw [List.mem_singleton] at hi
      subst hi
      simp only [Instr.qubits, filterMap_q, and_self]
    · intro q hq
      simp only [List.flatMap_cons, List.flatMap_nil, List.append_nil, Instr.qubits, filterMap_q]
      exact List.count_eq_one_of_mem (Finset.sort_nodup _ _) ((Finset.mem_sort _).2 hq)
    · intro q hq
      simp only [List.flatMap_cons, List.flatMap_nil, List.append_nil, Instr.qubits, filterMap_q]
      exact List.count_eq_zero_of_not_mem fun h => hq ((Finset.mem_sort _).1 h)
  · rw [if_neg h]
    refine ⟨by simp, ?_, by simp⟩
    intro q hq
    rw [hP, not_not] at h
    have : q ∈ S.sort (· ≤ ·) := (Finset.mem_sort _).2 hq
    rw [h] at this
    exact absurd this (by simp)

theorem depolarizes_none (p : Rat) (S : Nat → Prop) (h : ∀ q, ¬ S q) : DepolarizesExactly p S [] :=
  ⟨by simp, fun q hq => absurd hq (h q), by simp⟩

theorem depolarizes_congr {p : Rat} {S T : Nat → Prop} {l : List Instr} (h : ∀ q, S q ↔ T q)
    (hl : DepolarizesExactly p S l) : DepolarizesExactly p T l := by
  have : S = T := funext fun q => propext (h q)
  exact this ▸ hl

theorem idle_part (p : Rat) (qs used : Finset Nat) :
    DepolarizesExactly p (fun q => 0 < p ∧ used.Nonempty ∧ q ∈ qs ∧ q ∉ used)
      (if used.Nonempty ∧ (qs \ used).sort (· ≤ ·) ≠ [] ∧ p > 0 then
        [{ gate := .DEPOLARIZE1, targets := ((qs \ used).sort (· ≤ ·)).map .q, args := [.lit p] }] else []) := by
  by_cases hp : 0 < p
  · by_cases hu : used.Nonempty
    · refine depolarizes_congr (S := fun q => q ∈ qs \ used) ?_ (idle_exact p (qs \ used) _ ?_)
      · intro q; simp [hp, hu]
      · simp [hp, hu]
    · rw [if_neg (fun h => hu h.1)]
      exact depolarizes_none _ _ (fun q h => hu h.2.1)
  · rw [if_neg (fun h => hp h.2.2)]
    exact depolarizes_none _ _ (fun q h => hp h.1)

/-! ## Zero strength -/

theorem loop_zero {nm : NoiseModel} {qs : Finset Nat} (hr : ∀ g p, nm.rate g = some p → p ≤ 0)
    (h1 : nm.idle ≤ 0) (h2 : nm.measure_reset_idle ≤ 0) {c : Circuit} (hn : c.Normal) (ht : TickOK c) :
    ∀ {a : Nat} {s s' : NoiseModel.State}, s.pre = [] → s.post = [] → nm.loop qs c a s = .ok s' →
      (nm.flush qs s').result = s.result ++ .ofList s.mid ++ c := by
  have hid : ∀ s, nm.idleErrors qs s = [] := by
    intro s
    unfold NoiseModel.idleErrors
    simp [not_lt.2 h1, not_lt.2 h2]
  have hflush : ∀ s : NoiseModel.State, s.pre = [] → s.post = [] →
      (nm.flush qs s).result = s.result ++ .ofList s.mid ∧ (nm.flush qs s).pre = [] ∧ (nm.flush qs s).post = [] ∧
      (nm.flush qs s).mid = [] := by
    intro s hp hq
    unfold NoiseModel.flush
    split_ifs with h
    · simp [h, hp, hq, Circuit.ofList]
    · simp [hid, hp, hq]
  induction c with
  | nil =>
    intro a s s' hp hq h
    simp only [NoiseModel.loop, Except.ok.injEq] at h
    subst h
    rw [(hflush _ hp hq).1]
    simp
  | op i c ih =>
    intro a s s' hp hq h
    have ht' : TickOK c := fun j hj => ht j (by simp [Circuit.ops, hj])
    simp only [NoiseModel.loop] at h
    rcases hs : nm.stepInstr qs a s i with e | s1
    · rw [hs] at h; exact absurd h (by simp)
    rw [hs] at h
    simp only at h
    unfold NoiseModel.stepInstr at hs
    by_cases hi : i.gate = .TICK
    · rw [if_pos hi] at hs
      simp only [Except.ok.injEq] at hs
      subst hs
      have hf := hflush s hp hq
      rw [ih hn ht' (by exact hf.2.1) (by exact hf.2.2.1) h, ht i (by simp [Circuit.ops]) hi]
      simp only [hf.1, hf.2.2.2, Circuit.append_assoc]
      rfl
    · rw [if_neg hi, strength_eq] at hs
      cases hrr : nm.rate i.gate with
      | none => rw [hrr] at hs; exact absurd hs (by simp)
      | some p =>
        rw [hrr] at hs
        have : nm.noisyOp i p a = .ok ([], [i], []) := by
          unfold NoiseModel.noisyOp
          rw [if_neg (not_lt.2 (hr _ _ hrr))]
        simp only [this, Except.ok.injEq] at hs
        subst hs
        rw [ih hn ht' (by simpa using hp) (by simpa using hq) h]
        simp [Circuit.append_assoc, Circuit.ofList]
  | rep n b c ihb ihc =>
    intro a s s' hp hq h
    obtain ⟨hn2, hnb, hb, hc⟩ := hn
    simp only [NoiseModel.loop] at h
    rcases hs : nm.loop qs b b.num_qubits {} with e | sb
    · rw [hs] at h; exact absurd h (by simp)
    rw [hs] at h
    have hf := hflush s hp hq
    have hbb := ihb hb (fun j hj => ht j (by simp [Circuit.ops, hj])) rfl rfl hs
    have hbb' : (nm.flush qs sb).result = b := by simpa [Circuit.ofList] using hbb
    rw [ihc hc (fun j hj => ht j (by simp [Circuit.ops, hj])) (by exact hf.2.1) (by exact hf.2.2.1) h]
    have hmul : b.mul n = .rep n b .nil := by
      unfold Circuit.mul
      rw [if_neg (by omega), if_neg (by omega)]
      split
      · rename_i m b' 
        exact absurd rfl (hnb m b')
      · rfl
    simp only [hbb', hf.1, hf.2.2.2, hmul, Circuit.append_assoc]
    rfl

theorem stepOf_zero {nm : NoiseModel} {qs : Finset Nat} (hr : ∀ g p, nm.rate g = some p → p ≤ 0)
    (h1 : nm.idle ≤ 0) (h2 : nm.measure_reset_idle ≤ 0) (a : Nat) (ops : List Instr) :
    stepOf nm qs a ops = ops := by
  have hr' : ∀ g, (nm.rate g).getD 0 ≤ 0 := by
    intro g
    cases h : nm.rate g with
    | none => simp
    | some p => exact hr g p h
  have hid : idleOf nm qs ops = [] := by
    unfold idleOf NoiseModel.idleErrors
    simp [not_lt.2 h1, not_lt.2 h2]
  unfold stepOf noisyOps
  have hz : ∀ l : List Instr, (l.flatMap fun _ => ([] : List Instr)) = [] := fun l => by simp
  simp [hid, noiseBefore, noisyCore, noiseAfter, hr', hz]

end Honeycomb
