import Verif.Lemmas.CircuitPlot4
import Verif.Lemmas.Unroll
import Verif.Props.Noise

/-!
# Noise is not shown in diagrams
-/

namespace Honeycomb

/-- The instructions that `plot_circuit` shows, without the flip probabilities of parity measurements. -/
def visible (l : List Instr) : List Instr :=
  (l.filter fun i => decide (i.gate ∉ notDrawn)).map fun i => if i.gate = .MPP then { i with args := [] } else i

theorem visible_append (a b : List Instr) : visible (a ++ b) = visible a ++ visible b := by simp [visible]

theorem visible_nil_of {l : List Instr} (h : ∀ i ∈ l, i.gate ∈ notDrawn) : visible l = [] := by
  have : l.filter (fun i => decide (i.gate ∉ notDrawn)) = [] := by
    rw [List.filter_eq_nil_iff]
    intro i hi
    simp [h i hi]
  rw [visible, this]
  rfl

theorem step_notDrawn (s : PlotState) {i : Instr} (h : i.gate ∈ notDrawn) : s.step i = .ok s := by
  obtain ⟨g, ts, args⟩ := i
  simp only [notDrawn, List.mem_cons, List.not_mem_nil, or_false] at h
  rcases h with rfl | rfl | rfl | rfl | rfl | rfl <;> rfl

theorem step_args (s : PlotState) {i : Instr} (h : i.gate = .MPP) : s.step { i with args := [] } = s.step i := by
  obtain ⟨g, ts, args⟩ := i
  simp only at h
  subst h
  rfl

theorem fold_visible (l : List Instr) (s : PlotState) : (visible l).foldlM PlotState.step s = l.foldlM PlotState.step s := by
  induction l generalizing s with
  | nil => rfl
  | cons i l ih =>
    have e : visible (i :: l) = visible [i] ++ visible l := visible_append [i] l
    rw [e]
    by_cases h : i.gate ∈ notDrawn
    · rw [visible_nil_of (l := [i]) (by simpa using h), List.nil_append, ih, List.foldlM_cons, step_notDrawn s h]
      rfl
    · have e1 : visible [i] = [if i.gate = .MPP then { i with args := [] } else i] := by simp [visible, h]
      rw [e1, List.singleton_append, List.foldlM_cons, List.foldlM_cons]
      have : s.step (if i.gate = .MPP then { i with args := [] } else i) = s.step i := by
        split_ifs with hm
        · exact step_args s hm
        · rfl
      rw [this]
      cases s.step i with
      | error e => rfl
      | ok s' => exact ih s'

/-- No operation of the other two bases, whose noise is shown (as an error). -/
def ZBased (i : Instr) : Prop := i.gate ≠ .MX ∧ i.gate ≠ .RX

theorem noiseBefore_notDrawn {nm : NoiseModel} {i : Instr} (hi : ZBased i) {p : Rat} {j : Instr} (h : j ∈ noiseBefore nm i p) :
    j.gate ∈ notDrawn := by
  obtain ⟨g, ts, args⟩ := i
  unfold noiseBefore at h
  by_cases hp : p ≤ 0
  · simp [hp] at h
  · rw [if_neg hp] at h
    cases hc : nm.use_correlated_parity_measurement_errors <;> cases g <;> simp [kind, channel, hc] at h
    all_goals
      first
        | (subst h; simp [notDrawn]; done)
        | exact absurd rfl hi.1

theorem noiseAfter_notDrawn {i : Instr} (hi : ZBased i) {p : Rat} {j : Instr} (h : j ∈ noiseAfter i p) : j.gate ∈ notDrawn := by
  unfold noiseAfter channel at h
  split_ifs at h <;> cases hg : i.gate <;> simp [hg, kind] at h
  all_goals
    first
      | (subst h; simp [notDrawn]; done)
      | exact absurd hg hi.2

theorem idleOf_notDrawn {nm qs ops j} (h : j ∈ idleOf nm qs ops) : j.gate ∈ notDrawn := by
  unfold idleOf NoiseModel.idleErrors at h
  simp only [List.mem_append] at h
  rcases h with h | h <;> split_ifs at h <;> simp at h <;> subst h <;> simp [notDrawn]

/-- Parity measurements keep their form: the noise model does not expand them, or it does not add noise at all. -/
def KeepsForm (nm : NoiseModel) : Prop := nm.use_correlated_parity_measurement_errors = false ∨ ∀ g p, nm.rate g = some p → p ≤ 0

theorem KeepsForm.rate {nm : NoiseModel} (h : KeepsForm nm) (hc : nm.use_correlated_parity_measurement_errors = true) (g : Gate) :
    (nm.rate g).getD 0 ≤ 0 := by
  rcases h with h | h
  · rw [h] at hc; exact absurd hc (by simp)
  · cases hr : nm.rate g with
    | none => exact le_refl _
    | some p => exact h g p hr

theorem visible_core {nm : NoiseModel} (hnc : KeepsForm nm) (a : Nat) (i : Instr) :
    visible (noisyCore nm a i ((nm.rate i.gate).getD 0)) = visible [i] := by
  unfold noisyCore
  split_ifs with hp hc
  · rfl
  · exact absurd (hnc.rate hc i.gate) hp
  · split
    · rename_i hk
      have hg : i.gate = .MPP := by revert hk; cases i.gate <;> simp [kind]
      simp [visible, hg, notDrawn]
    · rfl

theorem visible_step {nm : NoiseModel} (hnc : KeepsForm nm) (qs) (a : Nat) {ops : List Instr}
    (hi : ∀ i ∈ ops, ZBased i) : visible (stepOf nm qs a ops) = visible ops := by
  unfold stepOf noisyOps
  rw [visible_append, visible_append, visible_append]
  rw [visible_nil_of (l := ops.flatMap fun i => noiseBefore nm i ((nm.rate i.gate).getD 0)),
    visible_nil_of (l := ops.flatMap fun i => noiseAfter i ((nm.rate i.gate).getD 0)),
    visible_nil_of (l := idleOf nm qs ops)]
  · simp only [List.nil_append, List.append_nil]
    clear hi
    induction ops with
    | nil => rfl
    | cons i ops ih =>
      have e : visible (i :: ops) = visible [i] ++ visible ops := visible_append [i] ops
      rw [List.flatMap_cons, visible_append, ih, visible_core hnc, e]
  · exact fun j hj => idleOf_notDrawn hj
  · intro j hj
    obtain ⟨i, hm, hj⟩ := List.mem_flatMap.1 hj
    exact noiseAfter_notDrawn (hi i hm) hj
  · intro j hj
    obtain ⟨i, hm, hj⟩ := List.mem_flatMap.1 hj
    exact noiseBefore_notDrawn (hi i hm) hj

theorem visible_noisy {nm : NoiseModel} (hnc : KeepsForm nm) {c d : Circuit}
    {qs : Option (Finset Nat)} (hz : ∀ i ∈ c.ops, ZBased i) (ht : TickOK c) (h : nm.noisyCircuit c qs = .ok d) :
    visible d.flatten = visible c.flatten := by
  rw [noisyCircuit_tracked] at h
  rw [noisyCircuit_ok h, perStep_congr (g := fun _ ops => ops) visible_append ZBased (fun a ops hi => visible_step hnc _ a hi) c
    (fun i hi _ => hz i hi) _ [] (by simp), perStep_flatten c ht]
  rfl

/-! ## One pass through the blocks -/

/-- The coordinates among instructions. -/
def coordsIn (l : List Instr) : List Instr := l.filter fun i => decide (i.gate = .QUBIT_COORDS)

theorem coordsIn_append (a b : List Instr) : coordsIn (a ++ b) = coordsIn a ++ coordsIn b := by simp [coordsIn]

theorem onePass_append (c d : Circuit) : onePassOfBlocks (c ++ d) = onePassOfBlocks c ++ onePassOfBlocks d := by
  induction c with
  | nil => rfl
  | op i c ih =>
    rw [Circuit.op_append]
    simp only [onePassOfBlocks, ih]
    split_ifs <;> rfl
  | rep n b c _ ih => rw [Circuit.rep_append]; simp only [onePassOfBlocks, ih, List.append_assoc]

theorem onePass_ofList (l : List Instr) : onePassOfBlocks (.ofList l) = coordsIn l := by
  induction l with
  | nil => rfl
  | cons i l ih =>
    simp only [Circuit.ofList, onePassOfBlocks, ih, coordsIn, List.filter_cons]
    by_cases h : i.gate = .QUBIT_COORDS <;> simp [h]

theorem coordsIn_visible (l : List Instr) : visible (coordsIn l) = coordsIn (visible l) := by
  induction l with
  | nil => rfl
  | cons i l ih =>
    have e1 : coordsIn (i :: l) = coordsIn [i] ++ coordsIn l := coordsIn_append [i] l
    have e2 : visible (i :: l) = visible [i] ++ visible l := visible_append [i] l
    rw [e1, e2, visible_append, coordsIn_append, ih]
    congr 1
    by_cases hq : i.gate = .QUBIT_COORDS
    · simp [coordsIn, visible, hq, notDrawn]
    · by_cases hn : i.gate ∈ notDrawn
      · have : visible [i] = [] := visible_nil_of (by simpa using hn)
        rw [this]
        simp [coordsIn, visible, hq]
      · have : visible [i] = [if i.gate = .MPP then { i with args := [] } else i] := by simp [visible, hn]
        rw [this]
        split_ifs with hm <;> simp [coordsIn, visible, hq]

/-- What a run of `noisy_circuit` leaves of one pass through the blocks. -/
def onceStep (f : Nat → List Instr → List Instr) : Circuit → Nat → List Instr → List Instr
  | .nil, a, acc => coordsIn (f a acc)
  | .op i c, a, acc =>
    if i.gate = .TICK then coordsIn (f a acc) ++ onceStep f c a []
    else onceStep f c a (acc ++ [i])
  | .rep _ b c, a, acc => coordsIn (f a acc) ++ perStep f b b.num_qubits [] ++ onceStep f c a []

theorem flush_struct {nm : NoiseModel} {a : Nat} {acc : List Instr} {s : NoiseModel.State} (qs : Finset Nat) (hs : StateOf nm a acc s) :
    (nm.flush qs s).result = s.result ++ .ofList (stepOf nm qs a acc) := by
  have h := (flush_eq qs hs).1
  unfold NoiseModel.flush at h ⊢
  split_ifs at h ⊢ with hm
  · have : stepOf nm qs a acc = [] := List.self_eq_append_right.1 h
    rw [this]
    simp [Circuit.ofList]
  · simp only [Circuit.flatten_append, Circuit.flatten_ofList] at h
    rw [List.append_cancel_left h]

theorem loop_flat {nm : NoiseModel} {qs : Finset Nat} (l : List Instr) : ∀ {a : Nat} {acc : List Instr} {s s' : NoiseModel.State}
    {r : List Instr}, StateOf nm a acc s → s.result = .ofList r → nm.loop qs (.ofList l) a s = .ok s' →
    ∃ r', (nm.flush qs s').result = .ofList r' := by
  induction l with
  | nil =>
    intro a acc s s' r hs hr h
    simp only [Circuit.ofList, NoiseModel.loop, Except.ok.injEq] at h
    subst h
    rw [flush_struct qs hs, hr, ← Circuit.ofList_append]
    exact ⟨_, rfl⟩
  | cons i l ih =>
    intro a acc s s' r hs hr h
    simp only [Circuit.ofList, NoiseModel.loop] at h
    rcases h1 : nm.stepInstr qs a s i with e | s1
    · rw [h1] at h; exact absurd h (by simp)
    rw [h1] at h
    simp only at h
    by_cases ht : i.gate = .TICK
    · simp only [NoiseModel.stepInstr, ht, if_true, Except.ok.injEq] at h1
      subst h1
      have hf := (flush_eq qs hs).2
      refine ih (acc := []) (r := (r ++ stepOf nm qs a acc) ++ [.tick]) (by exact ⟨hf.pre, hf.mid, hf.post, hf.used, hf.mor, hf.empt⟩) ?_ h
      exact (congrArg (· ++ Circuit.ofList [.tick]) (flush_struct qs hs)).trans
        (by rw [hr, ← Circuit.ofList_append, ← Circuit.ofList_append])
    · obtain ⟨h2, h3⟩ := noisyOps_append nm a i acc hs ht h1
      exact ih h2 (h3.trans hr) h

theorem loop_once {nm : NoiseModel} {qs : Finset Nat} {c : Circuit} :
    ∀ {a : Nat} {acc : List Instr} {s s' : NoiseModel.State}, c.Shape (fun n _ => 2 ≤ n) → StateOf nm a acc s → nm.loop qs c a s = .ok s' →
      onePassOfBlocks (nm.flush qs s').result = onePassOfBlocks s.result ++ onceStep (stepOf nm qs) c a acc := by
  induction c with
  | nil =>
    intro a acc s s' _ hs h
    simp only [NoiseModel.loop, Except.ok.injEq] at h
    subst h
    rw [flush_struct qs hs, onePass_append, onePass_ofList, onceStep]
  | op i c ih =>
    intro a acc s s' hsh hs h
    simp only [NoiseModel.loop] at h
    rcases h1 : nm.stepInstr qs a s i with e | s1
    · rw [h1] at h; exact absurd h (by simp)
    rw [h1] at h
    simp only at h
    by_cases ht : i.gate = .TICK
    · simp only [NoiseModel.stepInstr, ht, if_true, Except.ok.injEq] at h1
      subst h1
      have hf := (flush_eq qs hs).2
      rw [ih (acc := []) hsh (by exact ⟨hf.pre, hf.mid, hf.post, hf.used, hf.mor, hf.empt⟩) h]
      simp only [onePass_append, onePass_ofList, flush_struct qs hs, onceStep, if_pos ht]
      simp [coordsIn, Instr.tick]
    · obtain ⟨h2, h3⟩ := noisyOps_append nm a i acc hs ht h1
      rw [ih hsh h2 h, h3, onceStep, if_neg ht]
  | rep n b c _ ihc =>
    intro a acc s s' hsh hs h
    obtain ⟨⟨l, rfl, hn⟩, hsh⟩ := hsh
    simp only [NoiseModel.loop] at h
    rcases h1 : nm.loop qs (.ofList l) (Circuit.ofList l).num_qubits {} with e | sb
    · rw [h1] at h; exact absurd h (by simp)
    rw [h1] at h
    simp only at h
    obtain ⟨r, hr⟩ := loop_flat l (stateOf_nil nm (Circuit.ofList l).num_qubits .nil) (r := []) rfl h1
    have hfl := loop_ok (stateOf_nil nm (Circuit.ofList l).num_qubits .nil) h1
    rw [hr, Circuit.flatten_ofList] at hfl
    simp only [Circuit.flatten_nil, List.nil_append] at hfl
    have hf := (flush_eq qs hs).2
    rw [ihc (acc := []) hsh (by exact ⟨hf.pre, hf.mid, hf.post, hf.used, hf.mor, hf.empt⟩) h]
    simp only [hr, onePass_append, flush_struct qs hs, onePass_ofList, HoneycombLayout.mul_ofList r hn, onceStep]
    simp only [onePassOfBlocks, Circuit.flatten_ofList, hfl, List.append_nil, List.append_assoc]

theorem onceStep_self (c : Circuit) (ht : TickOK c) : ∀ (a : Nat) (acc : List Instr),
    onceStep (fun _ ops => ops) c a acc = coordsIn acc ++ onePassOfBlocks c := by
  induction c with
  | nil => intro a acc; simp [onceStep, onePassOfBlocks]
  | op i c ih =>
    intro a acc
    have ih' := ih fun j hj => ht j (by simp [Circuit.ops, hj])
    by_cases hi : i.gate = .TICK
    · rw [onceStep, if_pos hi, ih', onePassOfBlocks, if_neg (by rw [hi]; decide)]
      simp [coordsIn]
    · rw [onceStep, if_neg hi, ih', onePassOfBlocks, coordsIn_append]
      by_cases hq : i.gate = .QUBIT_COORDS <;> simp [coordsIn, hq]
  | rep n b c _ ihc =>
    intro a acc
    have hc := ihc fun j hj => ht j (by simp [Circuit.ops, hj])
    rw [onceStep, hc, perStep_flatten b fun j hj => ht j (by simp [Circuit.ops, hj])]
    simp [onePassOfBlocks, coordsIn]

theorem visible_once {nm : NoiseModel} (hnc : KeepsForm nm) (qs : Finset Nat) (c : Circuit)
    (hz : ∀ i ∈ c.ops, ZBased i) : ∀ (a : Nat) (acc : List Instr), (∀ i ∈ acc, ZBased i) →
    visible (onceStep (stepOf nm qs) c a acc) = visible (onceStep (fun _ ops => ops) c a acc) := by
  induction c with
  | nil =>
    intro a acc hacc
    simp only [onceStep]
    rw [coordsIn_visible, coordsIn_visible, visible_step hnc qs a hacc]
  | op i c ih =>
    intro a acc hacc
    have ih' := ih fun j hj => hz j (by simp [Circuit.ops, hj])
    by_cases hi : i.gate = .TICK
    · rw [onceStep, if_pos hi, onceStep, if_pos hi, visible_append, visible_append, ih' a [] (by simp), coordsIn_visible, coordsIn_visible,
        visible_step hnc qs a hacc]
    · rw [onceStep, if_neg hi, onceStep, if_neg hi]
      refine ih' a _ ?_
      intro j hj
      rcases List.mem_append.1 hj with hj | hj
      · exact hacc j hj
      · rw [List.mem_singleton] at hj
        subst hj
        exact hz j (by simp [Circuit.ops])
  | rep n b c _ ihc =>
    intro a acc hacc
    rw [onceStep, onceStep, visible_append, visible_append, visible_append, visible_append,
      ihc (fun j hj => hz j (by simp [Circuit.ops, hj])) a [] (by simp), coordsIn_visible, coordsIn_visible, visible_step hnc qs a hacc,
      perStep_congr (g := fun _ ops => ops) visible_append ZBased (fun a ops hi => visible_step hnc _ a hi) b
        (fun i hi _ => hz i (by simp [Circuit.ops, hi])) _ [] (by simp)]

theorem visible_noisy_once {nm : NoiseModel} (hnc : KeepsForm nm) {c d : Circuit}
    {qs : Option (Finset Nat)} (hz : ∀ i ∈ c.ops, ZBased i) (ht : TickOK c) (hsh : c.Shape (fun n _ => 2 ≤ n))
    (h : nm.noisyCircuit c qs = .ok d) : visible (onePassOfBlocks d) = visible (onePassOfBlocks c) := by
  rw [noisyCircuit_tracked] at h
  unfold NoiseModel.noisyCircuit at h
  simp only at h
  rcases h1 : nm.loop (trackedQubits c qs) c c.num_qubits {} with e | s
  · rw [h1] at h; exact absurd h (by simp)
  · rw [h1] at h
    simp only [Except.ok.injEq] at h
    subst h
    rw [loop_once hsh (stateOf_nil nm _ .nil) h1, visible_append, visible_once hnc _ c hz _ [] (by simp), onceStep_self c ht]
    rfl

end Honeycomb
