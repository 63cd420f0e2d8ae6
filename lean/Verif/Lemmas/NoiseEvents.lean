import Verif.Lemmas.Absorb

/-! Noisy runs of the generated circuit are runs of the unrolled noiseless circuit with faults near few edges. -/

namespace Honeycomb
variable {F F' G : Frame} {rec : List (ZMod 2)} {n D : Nat}

/-- The runs of a sequence of instructions whose noise channels make `n` errors, whichever Paulis. -/
inductive LooseRuns : Frame → List Instr → List (ZMod 2) → Frame → Nat → Prop
  | nil (F : Frame) : LooseRuns F [] [] F 0
  | step {F F1 F' : Frame} {i : Instr} {l : List Instr} {r1 r2 : List (ZMod 2)} {n : Nat} :
      Runs F i.actions r1 F1 → LooseRuns F1 l r2 F' n → LooseRuns F (i :: l) (r1 ++ r2) F' n
  | error {F G F' : Frame} {i : Instr} {l : List Instr} {rec : List (ZMod 2)} {n : Nat} (c : List Nat) :
      c ∈ i.channels → (∀ q, q ∉ c → G q = F q) → LooseRuns G (i :: l) rec F' n → LooseRuns F (i :: l) rec F' (n + 1)
  | flip {F F' : Frame} {i : Instr} {l : List Instr} {rec : List (ZMod 2)} {n : Nat} (t : Nat) :
      i.args ≠ [] → t < i.measures.length → LooseRuns F (i :: l) rec F' n → LooseRuns F (i :: l) (rec.modify t (· + 1)) F' (n + 1)

theorem targetsPauli_off : ∀ (l : List Target) (x : Nat), x ∉ l.filterMap Target.qubit? → targetsPauli l x = 0
  | [], _, _ => rfl
  | .pauli b q :: l, x, h => by
    simp only [List.filterMap_cons, Target.qubit?, List.mem_cons, not_or] at h
    rw [targetsPauli, Frame.mul, if_neg h.1, targetsPauli_off l x h.2]
  | .q i :: l, x, h => by
    simp only [List.filterMap_cons, Target.qubit?, List.mem_cons, not_or] at h
    rw [targetsPauli, targetsPauli_off l x h.2]
    rintro _ _ ⟨⟩
  | .record _ :: l, x, h => by
    simp only [List.filterMap_cons, Target.qubit?] at h
    rw [targetsPauli, targetsPauli_off l x h]
    rintro _ _ ⟨⟩
  | .comb :: l, x, h => by
    simp only [List.filterMap_cons, Target.qubit?] at h
    rw [targetsPauli, targetsPauli_off l x h]
    rintro _ _ ⟨⟩

/-- A drawn Pauli stays on one group of qubits. -/
theorem draws_channel {i : Instr} {P : Frame} (h : i.Draws P) : ∃ c ∈ i.channels, ∀ q, q ∉ c → P q = 0 := by
  rcases i with ⟨g, ts, as⟩
  replace h := h.2
  cases g <;> simp only [Instr.channels, List.mem_map, List.mem_singleton, exists_eq_left] at h ⊢
  case E =>
    subst h
    exact targetsPauli_off ts
  case DEPOLARIZE2 =>
    obtain ⟨x, hx, p, r, -, rfl⟩ := h
    refine ⟨_, ⟨x, hx, rfl⟩, fun q hq => ?_⟩
    simp only [List.mem_cons, List.not_mem_nil, or_false, not_or] at hq
    simp only [Frame.mul, if_neg hq.1, if_neg hq.2]
  case DEPOLARIZE1 =>
    obtain ⟨x, hx, b, rfl⟩ := h
    exact ⟨_, ⟨x, hx, rfl⟩, fun q hq => by simp only [Frame.mul, if_neg (List.mem_singleton.not.1 hq)]⟩
  all_goals
    obtain ⟨x, hx, rfl⟩ := h
    exact ⟨_, ⟨x, hx, rfl⟩, fun q hq => by simp only [Frame.mul, if_neg (List.mem_singleton.not.1 hq)]⟩

theorem NoisyRuns.loose {l : List Instr} {n : Nat} (h : NoisyRuns F l rec F' n) : LooseRuns F l rec F' n := by
  induction h with
  | nil F => exact .nil F
  | step h _ ih => exact .step h ih
  | error P hP _ ih =>
    obtain ⟨c, hc, h0⟩ := draws_channel hP
    exact .error c hc (fun q hq => by rw [Pi.add_apply, h0 q hq, add_zero]) ih
  | flip t ha ht _ ih =>
    obtain ⟨a, ha, _⟩ := ha
    exact .flip t (List.ne_nil_of_mem ha) ht ih

theorem runs_length {as : List Action} (h : Runs F as rec F') : rec.length = (as.filterMap Action.result?).length := by
  induction h with
  | nil => rfl
  | clifford1 _ _ _ ih => exact ih
  | control _ _ _ _ _ ih => exact ih
  | reset _ _ _ _ ih => exact ih
  | measure P r _ ih => exact congrArg (· + 1) ih

theorem runs_unmoved {as : List Action} {q : Nat} (h : ∀ a ∈ as, q ∉ a.qubits) (hr : Runs F as rec F') : F' q = F q := by
  induction hr with
  | nil => rfl
  | clifford1 f x _ ih =>
    have hx := h _ List.mem_cons_self
    simp only [Action.qubits, List.mem_singleton] at hx
    rw [ih fun a ha => h a (by simp [ha]), set_apply, if_neg hx]
  | control P Q a b _ ih =>
    have hx := h _ List.mem_cons_self
    simp only [Action.qubits, List.mem_cons, List.not_mem_nil, or_false, not_or] at hx
    rw [ih fun a ha => h a (by simp [ha]), kick_away (by simpa using hx.2), kick_away (by simpa using hx.1)]
  | reset b x r _ ih =>
    have hx := h _ List.mem_cons_self
    simp only [Action.qubits, List.mem_singleton] at hx
    rw [ih fun a ha => h a (by simp [ha]), kick_away (by simpa using hx), set_apply, if_neg hx]
  | measure P r _ ih =>
    have hx := h _ List.mem_cons_self
    rw [ih fun a ha => h a (by simp [ha]), kick_away fun x hx' e => hx (List.mem_map.2 ⟨x, hx', e.symm⟩)]

theorem LooseRuns.length {l : List Instr} (h : LooseRuns F l rec F' n) : rec.length = (measured l).length := by
  induction h with
  | nil => rfl
  | step hr _ ih =>
    have := runs_length hr
    rw [results_actions] at this
    simp only [measured, List.flatMap_cons, List.length_append] at ih ⊢
    rw [this, ih]
  | error _ _ _ _ ih => exact ih
  | flip _ _ _ _ ih => rw [List.length_modify, ih]

theorem modify_append_left {α : Type} (f : α → α) : ∀ (a b : List α) (t : Nat), t < a.length → (a ++ b).modify t f = a.modify t f ++ b
  | [], _, _, h => by simp at h
  | x :: a, b, 0, _ => by simp [List.modify_zero_cons]
  | x :: a, b, t + 1, h => by
    rw [List.cons_append, List.modify_succ_cons, List.modify_succ_cons, List.cons_append, modify_append_left f a b t (by simpa using h)]

theorem LooseRuns.append {a b : List Instr} (h : LooseRuns F (a ++ b) rec F' n) :
    ∃ r1 r2 F1 n1 n2, LooseRuns F a r1 F1 n1 ∧ LooseRuns F1 b r2 F' n2 ∧ rec = r1 ++ r2 ∧ n = n1 + n2 := by
  generalize hl : a ++ b = l at h
  induction h generalizing a with
  | nil F =>
    obtain ⟨rfl, rfl⟩ := List.append_eq_nil_iff.1 hl
    exact ⟨[], [], F, 0, 0, .nil F, .nil F, rfl, rfl⟩
  | @step F F1 F' i l r1 r2 n hr h ih =>
    cases a with
    | nil =>
      rw [List.nil_append] at hl
      subst hl
      exact ⟨[], _, F, 0, n, .nil F, .step hr h, rfl, by omega⟩
    | cons j a =>
      rw [List.cons_append, List.cons.injEq] at hl
      obtain ⟨rfl, hl⟩ := hl
      obtain ⟨s1, s2, F2, n1, n2, g1, g2, rfl, rfl⟩ := ih hl
      exact ⟨_, s2, F2, n1, n2, .step hr g1, g2, by rw [List.append_assoc], rfl⟩
  | @error F G F' i l rec n c hc hG h ih =>
    cases a with
    | nil =>
      rw [List.nil_append] at hl
      subst hl
      exact ⟨[], _, F, 0, n + 1, .nil F, .error c hc hG h, rfl, by omega⟩
    | cons j a =>
      obtain ⟨s1, s2, F2, n1, n2, g1, g2, rfl, rfl⟩ := ih hl
      rw [List.cons_append, List.cons.injEq] at hl
      obtain ⟨rfl, hl⟩ := hl
      exact ⟨_, s2, F2, n1 + 1, n2, .error c hc hG g1, g2, rfl, by omega⟩
  | @flip F F' i l rec n t ha ht h ih =>
    cases a with
    | nil =>
      rw [List.nil_append] at hl
      subst hl
      exact ⟨[], _, F, 0, n + 1, .nil F, .flip t ha ht h, rfl, by omega⟩
    | cons j a =>
      obtain ⟨s1, s2, F2, n1, n2, g1, g2, rfl, rfl⟩ := ih hl
      rw [List.cons_append, List.cons.injEq] at hl
      obtain ⟨rfl, hl⟩ := hl
      have hlen := g1.length
      refine ⟨_, s2, F2, n1 + 1, n2, .flip t ha ht g1, g2, modify_append_left _ _ _ _ ?_, by omega⟩
      rw [hlen, measured, List.flatMap_cons, List.length_append]
      omega

/-- A run without errors. -/
theorem LooseRuns.runs {l : List Instr} (h : LooseRuns F l rec F' 0) : Runs F (actions l) rec F' := by
  generalize hn : 0 = n at h
  induction h with
  | nil F => exact .nil F
  | @step F F1 F' i l r1 r2 n hr _ ih => exact (runs_append (a := i.actions)).2 ⟨_, _, _, hr, ih hn, rfl⟩
  | error => omega
  | flip => omega

/-- Qubits that no instruction touches keep their frame. -/
theorem LooseRuns.unmoved {l : List Instr} {q : Nat} (h1 : ∀ i ∈ l, ∀ a ∈ i.actions, q ∉ a.qubits) (h2 : ∀ i ∈ l, ∀ c ∈ i.channels, q ∉ c)
    (h : LooseRuns F l rec F' n) : F' q = F q := by
  induction h with
  | nil => rfl
  | @step F F1 F' i l r1 r2 n hr _ ih =>
    rw [ih (fun j hj => h1 j (by simp [hj])) (fun j hj => h2 j (by simp [hj])), runs_unmoved (h1 i (by simp)) hr]
  | @error F G F' i l rec n c hc hG _ ih => rw [ih h1 h2, hG q (h2 i (by simp) c hc)]
  | flip _ _ _ _ ih => exact ih h1 h2

namespace HoneycombLayout
variable {lay : HoneycombLayout}

/-- The qubits of an edge: its ends, and its ancilla if the circuit has one. -/
def RegQ (lay : HoneycombLayout) (e : Edge) (q : Nat) : Prop :=
  q = lay.idx e.left ∨ q = lay.idx e.right ∨ (lay.isEM3 = false ∧ q = lay.idx e.center)

def Reg (lay : HoneycombLayout) (es : List Edge) (q : Nat) : Prop := ∃ e ∈ es, lay.RegQ e q

/-- The qubits of an edge. -/
def regQs (lay : HoneycombLayout) (e : Edge) : List Nat :=
  if lay.isEM3 then [lay.idx e.left, lay.idx e.right] else [lay.idx e.left, lay.idx e.right, lay.idx e.center]

theorem mem_regQs {e : Edge} {q : Nat} : q ∈ lay.regQs e ↔ lay.RegQ e q := by
  rw [regQs, RegQ]
  split_ifs with h <;> simp [h]

theorem regQs_length (e : Edge) : (lay.regQs e).length ≤ 3 := by
  rw [regQs]
  split_ifs <;> simp

/-- How many results differ. -/
def _root_.Honeycomb.diffs : List (ZMod 2) → List (ZMod 2) → Nat
  | x :: a, y :: b => (if x = y then 0 else 1) + diffs a b
  | _, _ => 0

theorem _root_.Honeycomb.diffs_self : ∀ a : List (ZMod 2), diffs a a = 0
  | [] => rfl
  | x :: a => by rw [diffs, if_pos rfl, diffs_self a]

theorem _root_.Honeycomb.diffs_append : ∀ {a a' b b' : List (ZMod 2)}, a.length = a'.length → diffs (a ++ b) (a' ++ b') = diffs a a' + diffs b b'
  | [], [], b, b', _ => by simp [diffs]
  | [], _ :: _, _, _, h => by simp at h
  | _ :: _, [], _, _, h => by simp at h
  | x :: a, y :: a', b, b', h => by
    rw [List.cons_append, List.cons_append, diffs, diffs, diffs_append (by simpa using h), Nat.add_assoc]

theorem _root_.Honeycomb.diffs_modify (f : ZMod 2 → ZMod 2) : ∀ (a b : List (ZMod 2)) (t : Nat), diffs a (b.modify t f) ≤ diffs a b + 1
  | [], b, t => by simp [diffs]
  | x :: a, [], t => by simp [diffs]
  | x :: a, y :: b, 0 => by
    rw [List.modify_zero_cons, diffs, diffs]
    split_ifs <;> omega
  | x :: a, y :: b, t + 1 => by
    rw [List.modify_succ_cons, diffs, diffs]
    have := diffs_modify f a b t
    omega

/-- `n` errors during `l` are at most `3 n` faults near at most `n` edges during `l'` and at most `n` flips of results about them. -/
def SimN (lay : HoneycombLayout) (D : Nat) (l l' : List Instr) : Prop :=
  ∀ F G rec F' n, Off D F G → LooseRuns F l rec F' n → ∃ (es : List Edge) (rec0 : List (ZMod 2)) (G' : Frame) (m : Nat), es.length ≤ n ∧
    (∀ e ∈ es, e ∈ lay.all_edges) ∧ FaultyRuns (lay.Reg es) G l' rec0 G' m ∧ Off D F' G' ∧ RecDiff (lay.Reg es) (measured l') rec0 rec ∧
    m ≤ 3 * n ∧ diffs rec0 rec ≤ n

theorem SimN.nil : lay.SimN D [] [] := by
  intro F G rec F' n ho h
  cases h
  exact ⟨[], [], G, 0, le_rfl, by simp, .nil G, ho, .nil, le_rfl, le_rfl⟩

theorem SimN.append {a b a' b' : List Instr} (h1 : lay.SimN D a a') (h2 : lay.SimN D b b') : lay.SimN D (a ++ b) (a' ++ b') := by
  intro F G rec F' n ho h
  obtain ⟨r1, r2, F1, n1, n2, g1, g2, rfl, rfl⟩ := h.append
  obtain ⟨es1, s1, G1, m1, l1, e1, k1, o1, d1, c1, c1'⟩ := h1 _ _ _ _ _ ho g1
  obtain ⟨es2, s2, G2, m2, l2, e2, k2, o2, d2, c2, c2'⟩ := h2 _ _ _ _ _ o1 g2
  have i1 : ∀ q, lay.Reg es1 q → lay.Reg (es1 ++ es2) q := fun q ⟨e, he, h⟩ => ⟨e, by simp [he], h⟩
  have i2 : ∀ q, lay.Reg es2 q → lay.Reg (es1 ++ es2) q := fun q ⟨e, he, h⟩ => ⟨e, by simp [he], h⟩
  refine ⟨es1 ++ es2, s1 ++ s2, G2, m1 + m2, by rw [List.length_append]; omega, fun e he => ?_, (k1.mono i1).join (k2.mono i2), o2, ?_, by omega, ?_⟩
  · exact (List.mem_append.1 he).elim (e1 e) (e2 e)
  · rw [measured_append]
    exact (d1.mono i1).append (d2.mono i2)
  · rw [diffs_append (by rw [d1.lengths.1, d1.lengths.2])]
    omega

theorem SimN.flatMap {α : Type} {l : List α} {f g : α → List Instr} (h : ∀ x ∈ l, lay.SimN D (f x) (g x)) : lay.SimN D (l.flatMap f) (l.flatMap g) := by
  induction l with
  | nil => exact .nil
  | cons x l ih =>
    rw [List.flatMap_cons, List.flatMap_cons]
    exact (h x (by simp)).append (ih fun y hy => h y (by simp [hy]))

/-- The errors of a noise channel stay within an edge. -/
def Narrow (lay : HoneycombLayout) (i : Instr) : Prop :=
  isNoise i.gate = true ∧ ∀ c ∈ i.channels, ∃ e ∈ lay.all_edges, ∀ q ∈ c, lay.RegQ e q

theorem measures_noise {i : Instr} (h : isNoise i.gate = true) : i.measures = [] := by
  rcases i with ⟨g, ts, as⟩
  cases g <;> simp_all [isNoise, Instr.measures]

theorem channels_clean {i : Instr} (h : isNoise i.gate = false) : i.channels = [] := by
  rcases i with ⟨g, ts, as⟩
  cases g <;> simp_all [isNoise, Instr.channels]

theorem SimN.narrow1 {i : Instr} (h : lay.Narrow i) : lay.SimN D [i] [] := by
  intro F G rec F' n ho hr
  generalize hl : [i] = l at hr
  induction hr generalizing G with
  | nil => cases hl
  | @step F F1 F' j l r1 r2 n hr h2 ih =>
    rw [List.cons.injEq] at hl
    obtain ⟨rfl, rfl⟩ := hl
    rw [actions_noise h.1] at hr
    obtain ⟨rfl, rfl⟩ := runs_nil hr
    cases h2
    exact ⟨[], [], G, 0, le_rfl, by simp, .nil G, ho, .nil, le_rfl, le_rfl⟩
  | @error F F1 F' j l rec n c hc hG h2 ih =>
    obtain ⟨rfl, rfl⟩ := List.cons.inj hl
    obtain ⟨e, he, hq⟩ := h.2 c hc
    obtain ⟨es, r0, G', m, a1, a2, a3, a4, a5, a6, a7⟩ := ih (fun q => if q ∈ c then F1 q else G q) (fun q hq => by
      beta_reduce
      split_ifs with hm
      · rfl
      · rw [hG q hm, ho q hq]) rfl
    have i2 : ∀ q, lay.Reg es q → lay.Reg (e :: es) q := fun q ⟨e', he, h⟩ => ⟨e', by simp [he], h⟩
    refine ⟨e :: es, r0, G', _, by simpa using a1, ?_, (a3.mono i2).near (qs := lay.regQs e) (fun q hm => if_neg fun hc => hm (mem_regQs.2 (hq q hc)))
      (fun q hm => ⟨e, by simp, mem_regQs.1 hm⟩), a4, a5.mono i2, ?_, by omega⟩
    · intro e' he'
      rcases List.mem_cons.1 he' with rfl | h
      · exact he
      · exact a2 _ h
    · have := regQs_length (lay := lay) e
      omega
  | @flip F F' j l rec n t ha ht h2 ih =>
    obtain ⟨rfl, rfl⟩ := List.cons.inj hl
    rw [measures_noise h.1] at ht
    simp at ht

theorem SimN.narrow {l : List Instr} (h : ∀ i ∈ l, lay.Narrow i) : lay.SimN D l [] := by
  induction l with
  | nil => exact .nil
  | cons i l ih => exact (SimN.narrow1 (h i (by simp))).append (ih fun j hj => h j (by simp [hj]))

/-- The same operation, possibly with flipped results. -/
theorem SimN.core {i j : Instr} (hc : isNoise i.gate = false) (ha : i.actions = j.actions) (hs : Sim D j.actions j.actions)
    (hm : ∀ P ∈ i.measures, ∃ e ∈ lay.all_edges, ∃ x ∈ P, lay.RegQ e x.2) : lay.SimN D [i] [j] := by
  have hmm : measured [j] = i.measures := by
    rw [measured, List.flatMap_cons, List.flatMap_nil, List.append_nil, ← results_actions, ← ha, results_actions]
  rw [SimN, hmm]
  intro F G rec F' n ho hr
  generalize hl : [i] = l at hr
  induction hr generalizing G with
  | nil => cases hl
  | @step F F1 F' k l r1 r2 n hr h2 ih =>
    obtain ⟨rfl, rfl⟩ := List.cons.inj hl
    cases h2
    have hlen := runs_length hr
    rw [results_actions] at hlen
    rw [ha] at hr
    obtain ⟨G', h1, o⟩ := hs _ _ _ _ ho hr
    refine ⟨[], r1 ++ [], G', 0, le_rfl, by simp, .step h1 (.nil G'), o, .refl ?_, le_rfl, by rw [diffs_self]⟩
    rw [List.append_nil]; exact hlen
  | @error F F1 F' k l rec n c hcc hG h2 ih =>
    obtain ⟨rfl, rfl⟩ := List.cons.inj hl
    rw [channels_clean hc] at hcc
    simp at hcc
  | @flip F F' k l rec n t _ ht h2 ih =>
    obtain ⟨rfl, rfl⟩ := List.cons.inj hl
    obtain ⟨es, r0, G', m, a1, a2, a3, a4, a5, a6, a7⟩ := ih G ho rfl
    obtain ⟨e, he, x, hx, hr⟩ := hm _ (List.getElem_mem ht)
    have i2 : ∀ q, lay.Reg es q → lay.Reg (e :: es) q := fun q ⟨e', he, h⟩ => ⟨e', by simp [he], h⟩
    refine ⟨e :: es, r0, G', m, by simpa using a1, ?_, a3.mono i2, a4, (a5.mono i2).modify fun P hP => ?_, by omega,
      (diffs_modify _ _ _ _).trans (by omega)⟩
    · intro e' he'
      rcases List.mem_cons.1 he' with rfl | h
      · exact he
      · exact a2 _ h
    · rw [List.getElem?_eq_getElem ht, Option.some.injEq] at hP
      subst hP
      exact ⟨x, hx, e, by simp, hr⟩

/-! ## The expanded parity measurement -/

theorem channels_gadget {b1 b2 : Basis} {q1 q2 a x : Nat} {p : Rat} (h1 : x ≠ q1) (h2 : x ≠ q2) (ha : x ≠ a) :
    (∀ i ∈ parityMeasurementWithCorrelatedNoise b1 q1 b2 q2 a p, ∀ y ∈ i.actions, x ∉ y.qubits) ∧
    ∀ i ∈ parityMeasurementWithCorrelatedNoise b1 q1 b2 q2 a p, ∀ c ∈ i.channels, x ∉ c := by
  refine ⟨fun i hi y hy => ?_, fun i hi c hc hx => ?_⟩
  · have : y ∈ actions (parityMeasurementWithCorrelatedNoise b1 q1 b2 q2 a p) := List.mem_flatMap.2 ⟨i, hi, hy⟩
    rw [actions_gadget] at this
    simp only [List.mem_cons, List.not_mem_nil, or_false] at this
    rcases this with rfl | rfl | rfl | rfl <;> simp [Action.qubits, h1, h2, ha]
  · rw [parityMeasurementWithCorrelatedNoise] at hi
    simp only [List.mem_append, List.mem_cons, List.not_mem_nil, or_false, List.mem_map] at hi
    rcases hi with ((rfl | rfl | rfl) | ⟨e, he, rfl⟩) | rfl
    · simp [Instr.channels, Instr.on] at hc
    · cases b1 <;> simp [Instr.channels, parityCX, basisCX, Instr.on] at hc
    · cases b2 <;> simp [Instr.channels, parityCX, basisCX, Instr.on] at hc
    · simp only [Instr.channels, List.mem_singleton] at hc
      subst hc
      have : ∀ e ∈ correlatedErrors q1 q2 a, ∀ y ∈ e.filterMap Target.qubit?, y = q1 ∨ y = q2 ∨ y = a := by
        intro e he y hy
        simp only [correlatedErrors, List.mem_filter, List.mem_flatMap, List.mem_map] at he
        obtain ⟨⟨u, hu, v, hv, w, hw, rfl⟩, -⟩ := he
        have hopt : ∀ {q : Nat} {u : Option Target}, u ∈ pauliOptions q → ∀ z ∈ u.toList.filterMap Target.qubit?, z = q := by
          intro q u hu z hz
          simp only [pauliOptions, List.mem_cons, List.not_mem_nil, or_false] at hu
          rcases hu with rfl | rfl | rfl | rfl <;> simpa [Target.qubit?] using hz
        have hw' : ∀ z ∈ w.toList.filterMap Target.qubit?, z = a := by
          intro z hz
          simp only [List.mem_cons, List.not_mem_nil, or_false] at hw
          rcases hw with rfl | rfl <;> simpa [Target.qubit?] using hz
        rw [List.filterMap_append, List.filterMap_append, List.mem_append, List.mem_append] at hy
        rcases hy with (h | h) | h
        · exact .inl (hopt hu y h)
        · exact .inr (.inl (hopt hv y h))
        · exact .inr (.inr (hw' y h))
      rcases this e he x hx with h | h | h
      · exact h1 h
      · exact h2 h
      · exact ha h
    · simp [Instr.channels, Instr.on] at hc

theorem measured_gadget {b1 b2 : Basis} {q1 q2 a : Nat} {p : Rat} :
    (measured (parityMeasurementWithCorrelatedNoise b1 q1 b2 q2 a p)).length = 1 := by
  have : measured (parityMeasurementWithCorrelatedNoise b1 q1 b2 q2 a p) =
      (actions (parityMeasurementWithCorrelatedNoise b1 q1 b2 q2 a p)).filterMap Action.result? := by
    rw [actions, List.filterMap_flatMap, measured]
    exact List.flatMap_congr fun i _ => (results_actions i).symm
  rw [this, actions_gadget]
  rfl

/-- The expanded parity measurements of one instruction. -/
theorem gadgets {p : Rat} {gs : List ((Basis × Nat) × (Basis × Nat))} (hn : (gs.flatMap fun g => [g.1.2, g.2.2]).Nodup)
    (hD : ∀ g ∈ gs, g.1.2 ≠ D ∧ g.2.2 ≠ D) (he : ∀ g ∈ gs, ∃ e ∈ lay.all_edges, lay.RegQ e g.1.2 ∧ lay.RegQ e g.2.2) {pend : List Nat}
    (hp : ∀ q ∈ pend, ∀ g ∈ gs, q ≠ g.1.2 ∧ q ≠ g.2.2) (ho : ∀ q, q ∉ pend → q ≠ D → F q = G q)
    (hr : LooseRuns F (gs.flatMap fun g => parityMeasurementWithCorrelatedNoise g.1.1 g.1.2 g.2.1 g.2.2 D p) rec F' n) :
    ∃ (es : List Edge) (rec0 : List (ZMod 2)) (G' : Frame) (qs : List Nat), es.length ≤ n ∧ (∀ e ∈ es, e ∈ lay.all_edges) ∧ (∀ q ∈ qs, lay.Reg es q) ∧
      Runs G (gs.map fun g => .measure [g.1, g.2]) rec0 G' ∧ (∀ q, q ∉ pend → q ∉ qs → q ≠ D → F' q = G' q) ∧
      RecDiff (lay.Reg es) (gs.map fun g => [g.1, g.2]) rec0 rec ∧ qs.length ≤ 2 * n ∧ diffs rec0 rec ≤ n := by
  induction gs generalizing F G rec n pend with
  | nil =>
    cases hr
    exact ⟨[], [], G, [], le_rfl, by simp, by simp, .nil G, fun q h _ hD => ho q h hD, .nil, le_rfl, le_rfl⟩
  | cons g gs ih =>
    rw [List.flatMap_cons] at hr hn
    obtain ⟨r1, r2, F1, n1, n2, g1, g2, rfl, rfl⟩ := hr.append
    obtain ⟨hn1, hn2, hn3⟩ := List.nodup_append.1 hn
    have hDg := hD g (by simp)
    have hpg : ∀ q ∈ pend, q ≠ g.1.2 ∧ q ≠ g.2.2 := fun q hq => hp q hq g (by simp)
    have hlen := g1.length
    rw [measured_gadget] at hlen
    obtain ⟨v, rfl⟩ := List.length_eq_one_iff.1 hlen
    have hdis : ∀ q, q = g.1.2 ∨ q = g.2.2 → ∀ g' ∈ gs, q ≠ g'.1.2 ∧ q ≠ g'.2.2 := by
      intro q hq g' hg'
      have h1 : q ∈ [g.1.2, g.2.2] := by simpa using hq
      exact ⟨hn3 q h1 _ (List.mem_flatMap.2 ⟨g', hg', by simp⟩), hn3 q h1 _ (List.mem_flatMap.2 ⟨g', hg', by simp⟩)⟩
    rcases Nat.eq_zero_or_pos n1 with rfl | hpos
    · have hrun := g1.runs
      obtain ⟨G1, k1, o1⟩ := sim_gadget (by simpa using hn1) hDg.1 hDg.2 p F (fun q => if q ∈ pend then F q else G q) _ _ (fun q hq => by
        beta_reduce
        split_ifs with hm
        · rfl
        · exact ho q hm hq) hrun
      obtain ⟨ev, r, rfl⟩ := runs_measure_one.1 k1
      obtain ⟨es, rec0, G', qs, a1, a2, a3, a4, a5, a6, a7, a8⟩ := ih hn2 (fun g' hg' => hD g' (by simp [hg'])) (fun g' hg' => he g' (by simp [hg']))
        (F := F1) (G := G.kick r [g.1, g.2]) (rec := r2) (n := n2) (pend := pend) (fun q hq g' hg' => hp q hq g' (by simp [hg'])) (fun q hq hqD => by
          rw [o1 q hqD]
          exact kick_same (if_neg hq)) g2
      have hsame : G.flips [g.1, g.2] = v := ?_
      · refine ⟨es, G.flips [g.1, g.2] :: rec0, G', qs, by omega, a2, a3, .measure _ r a4, a5, .cons (fun hne => absurd hsame hne) a6, by omega, ?_⟩
        rw [List.singleton_append, diffs, if_pos hsame]
        omega
      rw [List.cons.injEq] at ev
      rw [ev.1]
      refine flips_same fun x hx => ?_
      have : x.2 ∉ pend := by
        intro hm
        simp only [List.mem_cons, List.not_mem_nil, or_false] at hx
        rcases hx with rfl | rfl
        · exact (hpg _ hm).1 rfl
        · exact (hpg _ hm).2 rfl
      exact (if_neg this).symm
    · obtain ⟨e, hem, hr1, hr2⟩ := he g (by simp)
      obtain ⟨es, rec0, G', qs, a1, a2, a3, a4, a5, a6, a7, a8⟩ := ih hn2 (fun g' hg' => hD g' (by simp [hg'])) (fun g' hg' => he g' (by simp [hg']))
        (F := F1) (G := G.kick 0 [g.1, g.2]) (rec := r2) (n := n2) (pend := g.1.2 :: g.2.2 :: pend) (fun q hq g' hg' => by
          rcases List.mem_cons.1 hq with rfl | hq
          · exact hdis _ (.inl rfl) g' hg'
          rcases List.mem_cons.1 hq with rfl | hq
          · exact hdis _ (.inr rfl) g' hg'
          · exact hp q hq g' (by simp [hg'])) (fun q hq hqD => by
          simp only [List.mem_cons, not_or] at hq
          obtain ⟨u1, u2⟩ := channels_gadget (b1 := g.1.1) (b2 := g.2.1) (p := p) hq.1 hq.2.1 hqD
          rw [g1.unmoved u1 u2, ho q hq.2.2 hqD, kick_away (by simp [hq.1, hq.2.1])]) g2
      have i2 : ∀ q, lay.Reg es q → lay.Reg (e :: es) q := fun q ⟨e', he, h⟩ => ⟨e', by simp [he], h⟩
      refine ⟨e :: es, G.flips [g.1, g.2] :: rec0, G', g.1.2 :: g.2.2 :: qs, ?_, ?_, ?_, .measure _ 0 a4, ?_, .cons (fun _ => ⟨g.1, by simp, e, by simp, hr1⟩) (a6.mono i2), ?_, ?_⟩
      · rw [List.length_cons]; omega
      · intro e' he'
        rcases List.mem_cons.1 he' with rfl | h
        · exact hem
        · exact a2 _ h
      · intro q hq
        rcases List.mem_cons.1 hq with rfl | hq
        · exact ⟨e, by simp, hr1⟩
        rcases List.mem_cons.1 hq with rfl | hq
        · exact ⟨e, by simp, hr2⟩
        · exact i2 q (a3 q hq)
      · intro q h1 h2 h3
        simp only [List.mem_cons, not_or] at h2
        exact a5 q (by simp [h1, h2]) h2.2.2 h3
      · simp only [List.length_cons]
        omega
      · rw [List.singleton_append, diffs]
        split_ifs <;> omega

/-! ## Circuits -/

/-- An operation of a generated circuit, as far as its noise is concerned. -/
structure Tame (lay : HoneycombLayout) (D : Nat) (i : Instr) : Prop where
  ex : Expandable D i
  near : ∀ q ∈ i.qubits, kind i.gate ≠ .annotation → ∃ e ∈ lay.all_edges, lay.RegQ e q
  pair : kind i.gate = .clifford2 ∨ i.gate = .MPP → ∀ x ∈ pairs i.qubits, ∃ e ∈ lay.all_edges, lay.RegQ e x.1 ∧ lay.RegQ e x.2

theorem measures_qubits {i : Instr} (hm : i.gate = .MPP → ∃ gs, i.targets = pairTargets gs) {P : List (Basis × Nat)} (hP : P ∈ i.measures) :
    (∃ x ∈ P, x.2 ∈ i.qubits) ∧ kind i.gate ≠ .annotation := by
  by_cases hg : i.gate = .MPP
  · obtain ⟨gs, e⟩ := hm hg
    refine ⟨?_, by rw [hg]; decide⟩
    simp only [Instr.measures, hg, e, mppGroups_pair, List.mem_map] at hP
    obtain ⟨g, hgm, rfl⟩ := hP
    refine ⟨g.1, by simp, ?_⟩
    rw [Instr.qubits, e, pairTargets_qubits]
    exact List.mem_flatMap.2 ⟨g, hgm, by simp⟩
  · rcases i with ⟨g, ts, as⟩
    cases g <;> simp only [Instr.measures, List.not_mem_nil, List.mem_map] at hP
    all_goals first
      | exact absurd rfl hg
      | (obtain ⟨q, hq, rfl⟩ := hP
         exact ⟨⟨_, List.mem_cons_self, hq⟩, by simp [kind]⟩)

theorem Tame.meas {i : Instr} (h : lay.Tame D i) : ∀ P ∈ i.measures, ∃ e ∈ lay.all_edges, ∃ x ∈ P, lay.RegQ e x.2 := by
  intro P hP
  obtain ⟨⟨x, hx, hq⟩, hk⟩ := measures_qubits (fun hg => (h.ex.mpp hg).2) hP
  obtain ⟨e, he, hr⟩ := h.near _ hq hk
  exact ⟨e, he, x, hx, hr⟩

theorem simN_core {nm : NoiseModel} {i : Instr} (h : lay.Tame D i) (p : Rat) : lay.SimN D (noisyCore nm D i p) [i] := by
  have href : Sim D i.actions i.actions := .refl (actions_qubits h.ex)
  unfold noisyCore
  by_cases hp : p ≤ 0
  · rw [if_pos hp]
    exact .core h.ex.clean rfl href h.meas
  · rw [if_neg hp]
    by_cases hg : i.gate = .MPP
    · simp only [hg, kind]
      obtain ⟨_, gs, e⟩ := h.ex.mpp hg
      split_ifs with hc
      · have hn := h.ex.nodup hg
        have hl := h.ex.lt
        have hpr := h.pair (.inr hg)
        have ha : i.actions = gs.map fun g => .measure [g.1, g.2] := by
          simp only [Instr.actions, hg, Instr.measures, e, mppGroups_pair, List.map_map]
          rfl
        have hms : i.measures = gs.map fun g => [g.1, g.2] := by
          simp only [Instr.measures, hg, e, mppGroups_pair]
        rw [Instr.qubits, e, pairTargets_qubits] at hn hl hpr
        rw [pairs_targets gs (fun g => g.1.2) (fun g => g.2.2)] at hpr
        rw [e, mppGroups_pair, List.flatMap_map]
        intro F G rec F' n ho hr
        obtain ⟨es, rec0, G', qs, a1, a2, a3, a4, a5, a6, a7, a8⟩ := gadgets (lay := lay) (p := p) (pend := []) hn
          (fun g hg' => ⟨ne_of_lt (hl _ (List.mem_flatMap.2 ⟨g, hg', by simp⟩)), ne_of_lt (hl _ (List.mem_flatMap.2 ⟨g, hg', by simp⟩))⟩)
          (fun g hg' => hpr _ (List.mem_map.2 ⟨g, hg', rfl⟩)) (by simp) (fun q _ hq => ho q hq) hr
        rw [← ha] at a4
        rw [← hms] at a6
        refine ⟨es, rec0 ++ [], fun q => if q ∈ qs then F' q else G' q, _, a1, a2, .step a4 (FaultyRuns.near (qs := qs) (fun q hq => if_neg hq) a3 (.nil _)),
          fun q hq => ?_, ?_, by omega, by rwa [List.append_nil]⟩
        · beta_reduce
          split_ifs with hm
          · rfl
          · exact a5 q (by simp) hm hq
        · rw [measured, List.flatMap_cons, List.flatMap_nil, List.append_nil, List.append_nil]
          exact a6
      · refine .core (by simp [hg, isNoise]) ?_ href ?_
        · rcases i with ⟨g, ts, as⟩
          cases hg
          rfl
        · rcases i with ⟨g, ts, as⟩
          cases hg
          exact h.meas
    · rcases i with ⟨g, ts, as⟩
      cases g
      case MPP => exact absurd rfl hg
      all_goals exact .core h.ex.clean rfl href h.meas

theorem narrow_single {g : Gate} {ts : List Target} {p : Rat} (hg : g = .DEPOLARIZE1 ∨ g = .X_ERROR ∨ g = .Z_ERROR)
    (h : ∀ q ∈ ts.filterMap Target.qubit?, ∃ e ∈ lay.all_edges, lay.RegQ e q) : lay.Narrow (channel g ts p) := by
  refine ⟨by rcases hg with rfl | rfl | rfl <;> rfl, fun c hc => ?_⟩
  have : c ∈ (ts.filterMap Target.qubit?).map fun q => [q] := by
    rcases hg with rfl | rfl | rfl <;> exact hc
  obtain ⟨q, hq, rfl⟩ := List.mem_map.1 this
  obtain ⟨e, he, hr⟩ := h q hq
  exact ⟨e, he, by simpa using hr⟩

theorem narrow_pair {ts : List Target} {p : Rat}
    (h : ∀ x ∈ pairs (ts.filterMap Target.qubit?), ∃ e ∈ lay.all_edges, lay.RegQ e x.1 ∧ lay.RegQ e x.2) : lay.Narrow (channel .DEPOLARIZE2 ts p) := by
  refine ⟨rfl, fun c hc => ?_⟩
  obtain ⟨x, hx, rfl⟩ := List.mem_map.1 (show c ∈ (pairs (ts.filterMap Target.qubit?)).map fun x => [x.1, x.2] from hc)
  obtain ⟨e, he, h1, h2⟩ := h x hx
  exact ⟨e, he, by simp [h1, h2]⟩

theorem filterMap_q (qs : List Nat) : (qs.map Target.q).filterMap Target.qubit? = qs := by
  rw [List.filterMap_map]
  exact (List.filterMap_congr fun x _ => rfl).trans List.filterMap_some

theorem Tame.before {nm : NoiseModel} {i : Instr} (h : lay.Tame D i) (p : Rat) : ∀ j ∈ noiseBefore nm i p, lay.Narrow j := by
  intro j hj
  unfold noiseBefore at hj
  by_cases hp : p ≤ 0
  · rw [if_pos hp] at hj; simp at hj
  · rw [if_neg hp] at hj
    rcases i with ⟨g, ts, as⟩
    cases g <;> simp only [kind, List.not_mem_nil, List.mem_singleton] at hj
    case MPP =>
      split_ifs at hj
      · simp at hj
      · rw [List.mem_singleton] at hj
        subst hj
        refine narrow_pair ?_
        rw [filterMap_q]
        exact h.pair (.inr rfl)
    all_goals
      subst hj
      exact narrow_single (by simp) fun q hq => h.near q hq (by simp [kind])

theorem Tame.after {i : Instr} (h : lay.Tame D i) (p : Rat) : ∀ j ∈ noiseAfter i p, lay.Narrow j := by
  intro j hj
  unfold noiseAfter at hj
  by_cases hp : p ≤ 0
  · rw [if_pos hp] at hj; simp at hj
  · rw [if_neg hp] at hj
    rcases i with ⟨g, ts, as⟩
    cases g <;> simp only [kind, List.not_mem_nil, List.mem_singleton] at hj
    all_goals
      subst hj
      first
        | exact narrow_pair (h.pair (.inl rfl))
        | exact narrow_single (by simp) fun q hq => h.near q hq (by simp [kind])

theorem simN_ops {nm : NoiseModel} {ops idle : List Instr} (h : ∀ i ∈ ops, lay.Tame D i) (hi : ∀ i ∈ idle, lay.Narrow i) :
    lay.SimN D (noisyOps nm D ops ++ idle) ops := by
  have e2 : lay.SimN D (ops.flatMap fun i => noiseBefore nm i ((nm.rate i.gate).getD 0)) [] := .narrow fun i hm => by
    obtain ⟨j, hj, hj'⟩ := List.mem_flatMap.1 hm
    exact (h j hj).before _ i hj'
  have e3 : lay.SimN D (ops.flatMap fun i => noiseAfter i ((nm.rate i.gate).getD 0)) [] := .narrow fun i hm => by
    obtain ⟨j, hj, hj'⟩ := List.mem_flatMap.1 hm
    exact (h j hj).after _ i hj'
  have e4 : lay.SimN D (ops.flatMap fun i => noisyCore nm D i ((nm.rate i.gate).getD 0)) (ops.flatMap fun i => [i]) :=
    SimN.flatMap fun i hm => simN_core (h i hm) _
  have := ((e2.append e4).append e3).append (.narrow hi)
  rwa [List.nil_append, List.append_nil, List.append_nil, List.flatMap_singleton'] at this

/-- Only the expansion of parity measurements depends on the ancilla. -/
theorem noisyOps_uncorrelated {nm : NoiseModel} (hc : nm.use_correlated_parity_measurement_errors = false) (a b : Nat) (ops : List Instr) :
    noisyOps nm a ops = noisyOps nm b ops := by
  rw [noisyOps, noisyOps]
  congr 2
  refine List.flatMap_congr fun i _ => ?_
  rw [noisyCore, noisyCore]
  simp only [hc, Bool.false_eq_true, if_false]

/-- Every qubit of the circuit belongs to an edge. -/
theorem used_near (hv : lay.Valid) {q : Nat} (hq : q < lay.num_qubits.toNat) : ∃ e ∈ lay.all_edges, lay.RegQ e q := by
  obtain ⟨p, hp, rfl, hc⟩ := (covers_used hv).2 q (mem_used hv hq)
  by_cases hd : p ∈ lay.data_qubit_coords
  · obtain ⟨e, he, ht⟩ := exists_edge hv hd 0
    refine ⟨e, round_edges_subset_all he, ?_⟩
    rcases ht with rfl | rfl
    · exact .inl rfl
    · exact .inr (.inl rfl)
  · obtain ⟨e, he, rfl⟩ := mem_measure_qubit_coords.1 ((List.mem_append.1 hp).resolve_left hd)
    refine ⟨e, he, .inr (.inr ⟨?_, rfl⟩)⟩
    by_contra hE
    rw [usedClasses, if_pos (by simpa using hE), ptClass, if_neg hd] at hc
    split_ifs at hc <;> simp at hc

theorem tame_ops (hv : lay.Valid) (hs : lay.Supported) {N : Nat} (hN : lay.sub_rounds = N) {i : Instr} (hi : i ∈ lay.closedCircuit N)
    (hno : isNoise i.gate = false) : lay.Tame lay.num_qubits.toNat i := by
  have hg := goodL_closed hs N i hi
  refine ⟨⟨fun q hq => closed_qubits hv hs hN hi hq, hno, hg.mpp, fun hg' => closed_nodup hv hs hN hi (by rw [hg']; decide)⟩,
    fun q hq _ => used_near hv (closed_qubits hv hs hN hi hq), ?_⟩
  rintro (h | h) x hx
  · obtain ⟨he, h⟩ := hg.link h
    obtain ⟨k, e, hm, h1, h2⟩ := h x hx
    exact ⟨e, round_edges_subset_all hm, h1.elim .inl fun h => .inr (.inl h), .inr (.inr ⟨he, h2⟩)⟩
  · obtain ⟨he, h⟩ := hg.bond h
    obtain ⟨k, e, hm, rfl⟩ := h x hx
    exact ⟨e, round_edges_subset_all hm, .inl rfl, .inr (.inl rfl)⟩

/-- The generated circuit, time step by time step. -/
theorem noisy_form (hv : lay.Valid) (hs : lay.Supported) {N : Nat} (hN : lay.sub_rounds = N) {d : Circuit} (hd : lay.makeCircuit = .ok d) :
    ∃ (c : Circuit) (nm : NoiseModel) (idle : List Instr → List Instr), lay.generateNoiseless = .ok c ∧ lay.noise_model = .ok nm ∧ TickOK c ∧
      c.flatten = lay.closedCircuit N ∧
      perStep (fun _ ops => ops) c c.num_qubits [] = c.flatten ∧ (∀ i ∈ c.ops, lay.Tame lay.num_qubits.toNat i ∧ lay.GoodI i) ∧
      (∀ ops, ∀ i ∈ idle ops, lay.Narrow i ∧ i.gate = .DEPOLARIZE1) ∧
      d.flatten = perStep (fun _ ops => noisyOps nm lay.num_qubits.toNat ops ++ idle ops) c c.num_qubits [] := by
  obtain ⟨c, nm, d', hc, hf, hsh, hg, hno, htk, hpm, hnorm, hnm, hpre, hacc, hd', hm⟩ := makeCircuit_ok hv hs hN
  rw [hd] at hm
  obtain rfl : d = d' := Except.ok.inj hm
  have hsh2 : c.Shape fun r _ => 2 ≤ r := Shape.mono (fun _ _ h => h.1) hsh
  have htame : ∀ i ∈ c.ops, lay.Tame lay.num_qubits.toNat i := fun i hi =>
    tame_ops hv hs hN (hf ▸ Circuit.ops_flatten hsh2 hi) (hno i hi).1
  have hidle : ∀ i : Instr, i.gate = .DEPOLARIZE1 → (∀ q ∈ i.qubits, q < lay.num_qubits.toNat) → lay.Narrow i := by
    intro i hi hq
    refine ⟨by rw [hi]; rfl, fun c hc => ?_⟩
    rw [Instr.channels, hi] at hc
    obtain ⟨q, hqm, rfl⟩ := List.mem_map.1 hc
    obtain ⟨e, he, hr⟩ := used_near hv (hq q hqm)
    exact ⟨e, he, by simpa using hr⟩
  have key : ∃ idle : List Instr → List Instr, (∀ ops, ∀ i ∈ idle ops, lay.Narrow i ∧ i.gate = .DEPOLARIZE1) ∧
      d.flatten = perStep (fun _ ops => noisyOps nm lay.num_qubits.toNat ops ++ idle ops) c c.num_qubits [] := by
    by_cases hst : lay.style = "EM3_v2"
    · obtain ⟨c', d', D, hc', hm', hD, hlt, idle, hi, e⟩ := c33_ancilla lay hv hs hst
      rw [hc] at hc'
      obtain rfl : c = c' := Except.ok.inj hc'
      rw [hd] at hm'
      obtain rfl : d = d' := Except.ok.inj hm'
      have hDn : D = lay.num_qubits.toNat := by
        rw [num_qubits, if_pos (by simp [isEM3, hst])]
        omega
      have : nm = .EM3_v2 lay.noise := by
        simp [noise_model, hst] at hnm
        exact hnm.symm
      subst this hDn
      exact ⟨idle, fun ops i him => ⟨hidle i (hi ops i him).1 (hi ops i him).2, (hi ops i him).1⟩, e⟩
    · have hnc : nm.use_correlated_parity_measurement_errors = false := by
        rcases hs.1 with h | h | h | h | h
        all_goals first
          | (exact absurd h hst)
          | (simp [noise_model, h] at hnm; subst hnm; rfl)
      obtain ⟨idle1, idle2, h1, h2, h3⟩ := c28_idle nm c d none hd'
      have hnum : c.num_qubits ≤ lay.num_qubits.toNat := num_qubits_le fun i hi q hq =>
        closed_qubits hv hs hN (hf ▸ Circuit.ops_flatten hsh2 hi) hq
      have hidle' : ∀ {p : Rat} {S : Nat → Prop} {l : List Instr}, DepolarizesExactly p S l → (∀ q, S q → q < c.num_qubits) → ∀ i ∈ l, lay.Narrow i ∧ i.gate = .DEPOLARIZE1 := by
        intro p S l h hS i hi
        refine ⟨hidle i (h.1 i hi).1 fun q hq => lt_of_lt_of_le (hS q ?_) hnum, (h.1 i hi).1⟩
        by_contra hn
        exact List.count_eq_zero.1 (h.2.2 q hn) (List.mem_flatMap.2 ⟨i, hi, hq⟩)
      refine ⟨fun ops => idle1 ops ++ idle2 ops, fun ops i hi => ?_, ?_⟩
      · rcases List.mem_append.1 hi with hi | hi
        · exact hidle' (h1 ops) (fun q hq => by simpa [trackedQubits] using hq.2.2.1) i hi
        · exact hidle' (h2 ops) (fun q hq => by simpa [trackedQubits] using hq.2.2.1) i hi
      · rw [h3]
        congr 1
        funext a ops
        rw [List.append_assoc, noisyOps_uncorrelated hnc]
  obtain ⟨idle, hi, e⟩ := key
  exact ⟨c, nm, idle, hc, hnm, htk, hf, by rw [perStep_flatten c htk, List.nil_append], fun i him => ⟨htame i him, goodL_closed hs N i (hf ▸ Circuit.ops_flatten hsh2 him)⟩, hi, e⟩

/-- Runs of the generated circuit with `n` errors are runs of the unrolled noiseless circuit with at most `3 n` faults and `n` flips near `n` edges. -/
theorem sampled_count (hv : lay.Valid) (hs : lay.Supported) {N : Nat} (hN : lay.sub_rounds = N) {d : Circuit} (hd : lay.makeCircuit = .ok d)
    (hr : LooseRuns F d.flatten rec F' n) : ∃ (es : List Edge) (rec0 : List (ZMod 2)) (G : Frame) (m : Nat), es.length ≤ n ∧
      (∀ e ∈ es, e ∈ lay.all_edges) ∧ FaultyRuns (lay.Reg es) F (lay.closedCircuit N) rec0 G m ∧
      RecDiff (lay.Reg es) (measured (lay.closedCircuit N)) rec0 rec ∧ m ≤ 3 * n ∧ diffs rec0 rec ≤ n := by
  obtain ⟨c, nm, idle, -, -, -, hf, hfl, htame, hi, e⟩ := noisy_form hv hs hN hd
  have htick : lay.SimN lay.num_qubits.toNat [.tick] [.tick] :=
    .core rfl rfl .nil (fun P hP => by simp [Instr.measures, Instr.tick] at hP)
  have := perStep_rel (R := fun l l' => lay.SimN lay.num_qubits.toNat l l') .nil (fun a b a' b' h1 h2 => h1.append h2) htick
    (lay.Tame lay.num_qubits.toNat)
    (f := fun _ ops => noisyOps nm lay.num_qubits.toNat ops ++ idle ops) (g := fun _ ops => ops)
    (fun _ ops ho => simN_ops ho fun i hm => (hi ops i hm).1) c (fun i hm => (htame i hm).1) c.num_qubits [] (by simp)
  rw [hfl, ← e, hf] at this
  obtain ⟨es, rec0, G, m, a1, a2, a3, _, a5⟩ := this F F rec F' n (fun _ _ => rfl) hr
  exact ⟨es, rec0, G, m, a1, a2, a3, a5⟩

/-- Runs of the generated circuit with `n` errors are runs of the unrolled noiseless circuit with faults and flips near `n` edges. -/
theorem sampled (hv : lay.Valid) (hs : lay.Supported) {N : Nat} (hN : lay.sub_rounds = N) {d : Circuit} (hd : lay.makeCircuit = .ok d)
    (hr : LooseRuns F d.flatten rec F' n) : ∃ (es : List Edge) (rec0 : List (ZMod 2)) (G : Frame) (m : Nat), es.length ≤ n ∧
      (∀ e ∈ es, e ∈ lay.all_edges) ∧ FaultyRuns (lay.Reg es) F (lay.closedCircuit N) rec0 G m ∧
      RecDiff (lay.Reg es) (measured (lay.closedCircuit N)) rec0 rec := by
  obtain ⟨es, rec0, G, m, a1, a2, a3, a4, -⟩ := sampled_count hv hs hN hd hr
  exact ⟨es, rec0, G, m, a1, a2, a3, a4⟩

end HoneycombLayout
end Honeycomb
