import Verif.Lemmas.Realised
import Verif.Lemmas.Unused

/-! # Errors that the noise channels can draw at a given place -/

namespace Honeycomb

/-! ## Time steps of the unrolled circuit -/

/-- `l` is `l'` with parts of its time steps changed by `f`. -/
inductive Stepwise (f : List Instr → List Instr) : List Instr → List Instr → Prop
  | nil : Stepwise f [] []
  | ops (o : List Instr) {l l' : List Instr} : (∀ i ∈ o, i.gate ≠ .TICK) → Stepwise f l l' → Stepwise f (f o ++ l) (o ++ l')
  | tick {l l' : List Instr} : Stepwise f l l' → Stepwise f (.tick :: l) (.tick :: l')

variable {f : List Instr → List Instr} {l l' : List Instr}

theorem Stepwise.append {m m' : List Instr} (h1 : Stepwise f l l') (h2 : Stepwise f m m') : Stepwise f (l ++ m) (l' ++ m') := by
  induction h1 with
  | nil => exact h2
  | ops o ho _ ih => rw [List.append_assoc, List.append_assoc]; exact .ops o ho ih
  | tick _ ih => exact .tick ih

theorem steps_perStep (c : Circuit) (htk : TickOK c) (a : Nat) : Stepwise f (perStep (fun _ => f) c a []) c.flatten := by
  have := perStep_rel' (R := Stepwise f) .nil (fun _ _ _ _ h1 h2 => h1.append h2) (.tick .nil) (f := fun _ => f) (g := fun _ ops => ops) (fun _ => True)
    (fun _ ops ho => by simpa using Stepwise.ops ops (fun i hi => (ho i hi).1) .nil) c (fun _ _ => trivial) a [] (by simp)
  rwa [perStep_flatten c htk, List.nil_append] at this

theorem prefix_tick {o v w x : List Instr} (ho : ∀ i ∈ o, i.gate ≠ .TICK) (e : o ++ v = w ++ .tick :: x) : ∃ w', w = o ++ w' ∧ v = w' ++ .tick :: x := by
  rcases List.append_eq_append_iff.1 e with ⟨c, e1, e2⟩ | ⟨c, e1, e2⟩
  · exact ⟨c, e1, e2⟩
  · cases c with
    | nil => exact ⟨[], by simpa using e1.symm, by simpa using e2.symm⟩
    | cons t c =>
      rw [List.cons_append, List.cons.injEq] at e2
      exact absurd rfl (ho .tick (by rw [e1, e2.1]; simp))

theorem suffix_tick {o v w x : List Instr} (ho : ∀ i ∈ o, i.gate ≠ .TICK) (e : v ++ o = x ++ .tick :: w) : ∃ w', w = w' ++ o ∧ v = x ++ .tick :: w' := by
  rcases List.append_eq_append_iff.1 e with ⟨c, e1, e2⟩ | ⟨c, e1, e2⟩
  · exact absurd rfl (ho .tick (by rw [e2]; simp))
  · cases c with
    | nil =>
      rw [List.nil_append] at e2
      exact absurd rfl (ho .tick (by rw [← e2]; simp))
    | cons t c =>
      rw [List.cons_append, List.cons.injEq] at e2
      exact ⟨c, e2.2, by rw [e1, e2.1]⟩

theorem Stepwise.cut (h : Stepwise f l l') : ∀ {a b : List Instr}, l' = a ++ .tick :: b → ∃ A B, l = A ++ .tick :: B ∧ Stepwise f A a ∧ Stepwise f B b := by
  induction h with
  | nil => intro a b e; simp at e
  | ops o ho h ih =>
    intro a b e
    obtain ⟨w, rfl, e2⟩ := prefix_tick ho e
    obtain ⟨A, B, rfl, h1, h2⟩ := ih e2
    exact ⟨f o ++ A, B, by rw [List.append_assoc], .ops o ho h1, h2⟩
  | @tick l l' h ih =>
    intro a b e
    cases a with
    | nil =>
      rw [List.nil_append, List.cons.injEq] at e
      exact ⟨[], l, rfl, .nil, e.2 ▸ h⟩
    | cons t a =>
      rw [List.cons_append, List.cons.injEq] at e
      obtain ⟨A, B, rfl, h1, h2⟩ := ih e.2
      exact ⟨.tick :: A, B, rfl, e.1 ▸ .tick h1, h2⟩

/-- The part of a time step around an instruction. -/
theorem Stepwise.find (h : Stepwise f l l') : ∀ {u v : List Instr} {i : Instr}, i.gate ≠ .TICK → l' = u ++ i :: v →
    ∃ u' o1 o2 v' A B, u = u' ++ o1 ∧ v = o2 ++ v' ∧ (∀ j ∈ o1, j.gate ≠ .TICK) ∧ (∀ j ∈ o2, j.gate ≠ .TICK) ∧ l = A ++ (f (o1 ++ i :: o2) ++ B) ∧ Stepwise f B v' := by
  induction h with
  | nil => intro u v i _ e; simp at e
  | @ops o l l' ho h ih =>
    intro u v i hi e
    rcases List.append_eq_append_iff.1 e with ⟨c, e1, e2⟩ | ⟨c, e1, e2⟩
    · obtain ⟨u', o1, o2, v', A, B, e3, e4, h1, h2, rfl, h3⟩ := ih hi e2
      exact ⟨o ++ u', o1, o2, v', f o ++ A, B, by rw [e1, e3, List.append_assoc], e4, h1, h2, by simp only [List.append_assoc], h3⟩
    · cases c with
      | nil =>
        rw [List.nil_append] at e2
        obtain ⟨u', o1, o2, v', A, B, e3, e4, h1, h2, rfl, h3⟩ := ih (u := []) hi e2.symm
        rw [List.append_nil] at e1
        exact ⟨o ++ u', o1, o2, v', f o ++ A, B, by rw [← e1, List.append_assoc, ← e3, List.append_nil], e4, h1, h2, by simp only [List.append_assoc], h3⟩
      | cons t c =>
        rw [List.cons_append, List.cons.injEq] at e2
        obtain ⟨rfl, rfl⟩ := e2
        subst e1
        exact ⟨[], u, c, l', [], l, rfl, rfl, fun j hj => ho j (by simp [hj]), fun j hj => ho j (by simp [hj]), rfl, h⟩
  | @tick l l' h ih =>
    intro u v i hi e
    cases u with
    | nil =>
      rw [List.nil_append, List.cons.injEq] at e
      exact absurd (by rw [← e.1]; rfl) hi
    | cons t u =>
      rw [List.cons_append, List.cons.injEq] at e
      obtain ⟨u', o1, o2, v', A, B, e3, e4, h1, h2, rfl, h3⟩ := ih hi e.2
      exact ⟨t :: u', o1, o2, v', .tick :: A, B, by rw [e3]; rfl, e4, h1, h2, rfl, h3⟩

/-! ## Passing an error by -/

/-- Nothing happens to qubit `x`. -/
def Passes (x : Nat) (l : List Instr) : Prop := ∀ a ∈ actions l, x ∉ a.qubits

theorem passes_of {x : Nat} {l : List Instr} (h : ∀ i ∈ l, x ∉ i.qubits) : Passes x l := by
  intro a ha hx
  obtain ⟨i, hi, ha⟩ := List.mem_flatMap.1 ha
  exact h i hi (actions_targets i a ha x hx)

theorem passes_noise {x : Nat} {l : List Instr} (h : ∀ i ∈ l, i.actions = []) : Passes x l := by
  intro a ha hx
  obtain ⟨i, hi, ha⟩ := List.mem_flatMap.1 ha
  rw [h i hi] at ha
  simp at ha

theorem Passes.append {x : Nat} {l m : List Instr} (h1 : Passes x l) (h2 : Passes x m) : Passes x (l ++ m) := by
  intro a ha
  rw [actions_append] at ha
  rcases List.mem_append.1 ha with h | h
  · exact h1 a h
  · exact h2 a h

theorem clifford_zero {l : List Instr} {g : Pauli → Pauli} {q : Nat} (hm : .clifford1 g q ∈ actions l) : g 0 = 0 := by
  obtain ⟨i, _, hi⟩ := List.mem_flatMap.1 hm
  rcases i with ⟨g, ts, as⟩
  cases g
  all_goals simp [Instr.actions] at hi
  all_goals (obtain ⟨_, _, rfl, _⟩ := hi; decide)

theorem runs_pass {G : Frame} {as : List Action} (hc : ∀ g q, .clifford1 g q ∈ as → g 0 = 0) (h : ∀ a ∈ as, ∀ q ∈ a.qubits, G q = 0) :
    ∃ n, Runs G as (List.replicate n 0) G := by
  induction as with
  | nil => exact ⟨0, .nil G⟩
  | cons a as ih =>
    obtain ⟨n, hr⟩ := ih (fun g q hm => hc g q (List.mem_cons_of_mem _ hm)) fun b hb => h b (List.mem_cons_of_mem _ hb)
    have h0 := h a List.mem_cons_self
    cases a with
    | clifford1 g q =>
      have hq := h0 q (by simp [Action.qubits])
      exact ⟨n, .clifford1 g q (by rw [hq, hc g q List.mem_cons_self, set_none hq]; exact hr)⟩
    | control P Q a b =>
      refine ⟨n, .control P Q a b ?_⟩
      rw [h0 a (by simp [Action.qubits]), h0 b (by simp [Action.qubits]), anti_zero_left, anti_zero_left, kick_none, kick_none]
      exact hr
    | reset b q =>
      refine ⟨n, .reset b q 0 ?_⟩
      rw [kick_none, set_none (h0 q (by simp [Action.qubits]))]
      exact hr
    | measure P =>
      have e : G.flips P = 0 := by
        rw [Frame.flips]
        refine List.sum_eq_zero fun y hy => ?_
        obtain ⟨z, hz, rfl⟩ := List.mem_map.1 hy
        rw [h0 z.2 (by simp only [Action.qubits]; exact List.mem_map_of_mem hz), anti_zero_left]
      have := Runs.measure P 0 (by rw [kick_none]; exact hr)
      rw [e] at this
      exact ⟨n + 1, this⟩

theorem Passes.pass {x : Nat} {l : List Instr} (h : Passes x l) (P : Pauli) :
    ∃ n, Runs (Frame.mul (fun _ => 0) x P) (actions l) (List.replicate n 0) (Frame.mul (fun _ => 0) x P) :=
  runs_pass (fun _ _ hm => clifford_zero hm) fun a ha q hq => by
    rw [Frame.mul, if_neg]
    rintro rfl
    exact h a ha hq

/-! ## Drawing an error -/

/-- A sampled run of `l` in which one error is drawn, `P` on qubit `x` (none if `P` is trivial), right before what is left is `v`. -/
def Sampled (l : List Instr) (x : Nat) (P : Pauli) (v : List Instr) : Prop :=
  ∃ n r G m F', (P ≠ 0 → n = 1) ∧ Runs (Frame.mul (fun _ => 0) x P) (actions v) r G ∧ NoisyRuns (fun _ => 0) l (List.replicate m 0 ++ r) F' n

theorem sampled_split {A X B v : List Instr} {ch : Instr} {x D : Nat} {P : Pauli} (hch : P = 0 ∨ ch.Draws (Frame.mul (fun _ => 0) x P))
    (hX : Passes x (ch :: X)) (hB : Sim D (actions B) (actions v)) : Sampled (A ++ ch :: (X ++ B)) x P v := by
  obtain ⟨m, hA⟩ := runs_quiet A
  obtain ⟨k, hk⟩ := hX.pass P
  obtain ⟨r, F', hr⟩ := runs_exists (Frame.mul (fun _ => 0) x P) (actions B)
  obtain ⟨G, hG, -⟩ := hB _ _ _ _ (fun _ _ => rfl : Off D _ (Frame.mul (fun _ => 0) x P)) hr
  have h1 : NoisyRuns (Frame.mul (fun _ => 0) x P) (ch :: (X ++ B)) (List.replicate k 0 ++ r) F' 0 := by
    refine noisy_of_runs ?_
    rw [← List.cons_append, actions_append]
    exact runs_append.2 ⟨_, _, _, hk, hr, rfl⟩
  have hrec : List.replicate m (0 : ZMod 2) ++ (List.replicate k 0 ++ r) = List.replicate (m + k) 0 ++ r := by
    rw [← List.append_assoc, List.replicate_append_replicate]
  rcases hch with rfl | hch
  · have e : Frame.mul (fun _ => 0) x 0 = fun _ => 0 := by
      funext y
      rw [Frame.mul]
      split_ifs <;> simp
    have := (noisy_of_runs hA).join (e ▸ h1)
    rw [hrec] at this
    exact ⟨0, r, G, m + k, F', fun h => absurd rfl h, hG, this⟩
  · have h2 : NoisyRuns (fun _ => 0) (ch :: (X ++ B)) (List.replicate k 0 ++ r) F' (0 + 1) := .error _ hch (by
      rw [show ((fun _ => 0 : Frame) + Frame.mul (fun _ => 0) x P) = Frame.mul (fun _ => 0) x P from zero_add _]
      exact h1)
    have := (noisy_of_runs hA).join h2
    rw [hrec] at this
    exact ⟨1, r, G, m + k, F', fun _ => rfl, hG, this⟩

namespace HoneycombLayout
variable {lay : HoneycombLayout} {N D : Nat}

/-- A noisy time step. -/
def noisyStep (nm : NoiseModel) (D : Nat) (idle : List Instr → List Instr) (ops : List Instr) : List Instr := noisyOps nm D ops ++ idle ops

variable {nm : NoiseModel} {idle : List Instr → List Instr}

theorem _root_.Honeycomb.Stepwise.simN {l l' : List Instr} (h : Stepwise (noisyStep nm D idle) l l') (hi : ∀ ops, ∀ i ∈ idle ops, lay.Narrow i) (ht : ∀ i ∈ l', lay.Tame D i) :
    lay.SimN D l l' := by
  induction h with
  | nil => exact .nil
  | ops o ho _ ih => exact (simN_ops (fun i hm => ht i (by simp [hm])) (hi o)).append (ih fun i hm => ht i (by simp [hm]))
  | tick _ ih =>
    exact SimN.append (a := [.tick]) (a' := [.tick]) (.core rfl rfl .nil (fun P hP => by simp [Instr.measures, Instr.tick] at hP)) (ih fun i hm => ht i (by simp [hm]))

theorem core_plain {i : Instr} (h : i.gate ≠ .MPP) (p : Rat) : noisyCore nm D i p = [i] := by
  have hk : kind i.gate ≠ .parity := by
    rcases i with ⟨g, ts, as⟩
    cases g
    all_goals first
      | exact absurd rfl h
      | (simp [kind])
  unfold noisyCore
  split
  · rfl
  · split
    · rename_i e
      exact absurd e hk
    · rfl

theorem actions_before (ops : List Instr) : actions (ops.flatMap fun i => noiseBefore nm i ((nm.rate i.gate).getD 0)) = [] :=
  List.flatMap_eq_nil_iff.2 fun i hm => by
    obtain ⟨j, _, hj⟩ := List.mem_flatMap.1 hm
    exact actions_noise (noiseBefore_noise i hj)

theorem actions_after (ops : List Instr) : actions (ops.flatMap fun i => noiseAfter i ((nm.rate i.gate).getD 0)) = [] :=
  List.flatMap_eq_nil_iff.2 fun i hm => by
    obtain ⟨j, _, hj⟩ := List.mem_flatMap.1 hm
    exact actions_noise (noiseAfter_noise i hj)

theorem core_plains {o : List Instr} (h : ∀ i ∈ o, i.gate ≠ .MPP) : (o.flatMap fun i => noisyCore nm D i ((nm.rate i.gate).getD 0)) = o := by
  induction o with
  | nil => rfl
  | cons i o ih => rw [List.flatMap_cons, core_plain (h i (by simp)), ih fun j hj => h j (by simp [hj])]; rfl

theorem actions_idle (hi : ∀ ops, ∀ i ∈ idle ops, lay.Narrow i) (ops : List Instr) : actions (idle ops) = [] :=
  actions_eq_nil fun i him => (hi ops i him).1

theorem _root_.Honeycomb.Stepwise.plain {l l' : List Instr} (h : Stepwise (noisyStep nm D idle) l l') (hi : ∀ ops, ∀ i ∈ idle ops, lay.Narrow i) (ht : ∀ i ∈ l', i.gate ≠ .MPP) :
    actions l = actions l' := by
  induction h with
  | nil => rfl
  | ops o ho _ ih =>
    rw [actions_append, actions_append, ih fun i hm => ht i (by simp [hm]), noisyStep, actions_append, noisyOps, actions_append, actions_append, actions_before,
      actions_after, actions_idle hi, core_plains fun i hm => ht i (by simp [hm]), List.nil_append, List.append_nil, List.append_nil]
  | tick _ ih =>
    have : ∀ m : List Instr, actions (.tick :: m) = actions m := fun m => rfl
    rw [this, this, ih fun i hm => ht i (by simp [hm])]

theorem passes_eq {x : Nat} {l m : List Instr} (e : actions l = actions m) (h : Passes x m) : Passes x l := by
  rw [Passes, e]; exact h

/-- Errors drawn after an operation. -/
theorem site_after {l u v w : List Instr} {i ch : Instr} {x : Nat} {P : Pauli} (h : Stepwise (noisyStep nm D idle) l (u ++ i :: (w ++ .tick :: v)))
    (hi : ∀ ops, ∀ i ∈ idle ops, lay.Narrow i) (ht : ∀ i ∈ v, lay.Tame D i) (hg : i.gate ≠ .TICK) (hw : ∀ j ∈ w, j.gate ≠ .MPP) (hx : Passes x w)
    (hc : ch ∈ noiseAfter i ((nm.rate i.gate).getD 0)) (hd : P = 0 ∨ ch.Draws (Frame.mul (fun _ => 0) x P)) : Sampled l x P v := by
  obtain ⟨u', o1, o2, v', A, B, -, e2, -, h2, rfl, hB⟩ := h.find hg rfl
  obtain ⟨w', rfl, rfl⟩ := prefix_tick h2 e2.symm
  obtain ⟨C, B, rfl, hC, hB⟩ := hB.cut rfl
  obtain ⟨p1, p2, ep⟩ := List.append_of_mem hc
  have hCa := hC.plain hi fun j hj => hw j (by simp [hj])
  have hch : ∀ j ∈ ch :: p2, j.actions = [] := fun j hj => actions_noise (noiseAfter_noise j (by rw [ep]; exact List.mem_append_right _ hj))
  have key := sampled_split (A := A ++ ((o1 ++ i :: o2).flatMap fun i => noiseBefore nm i ((nm.rate i.gate).getD 0)) ++
      ((o1 ++ i :: o2).flatMap fun i => noisyCore nm D i ((nm.rate i.gate).getD 0)) ++ (o1.flatMap fun i => noiseAfter i ((nm.rate i.gate).getD 0)) ++ p1)
    (X := p2 ++ (o2.flatMap fun i => noiseAfter i ((nm.rate i.gate).getD 0)) ++ idle (o1 ++ i :: o2) ++ C ++ [.tick]) (B := B) (v := v) (D := D) hd (by
      rw [← List.cons_append, ← List.cons_append, ← List.cons_append, ← List.cons_append]
      refine Passes.append (Passes.append (Passes.append (Passes.append (passes_noise hch) ?_) ?_) ?_) (passes_noise (by simp [Instr.tick, Instr.actions]))
      · exact passes_eq (m := []) (actions_after o2) (by simp [Passes, actions])
      · exact passes_eq (m := []) (actions_idle hi _) (by simp [Passes, actions])
      · refine passes_eq hCa fun a ha => hx a ?_
        rw [actions_append]
        exact List.mem_append_right _ ha)
    (hB.simN hi ht).sim
  convert key using 1
  simp only [noisyStep, noisyOps, List.flatMap_append, List.flatMap_cons, ep, List.append_assoc, List.cons_append, List.nil_append]

/-- Errors drawn inside an expanded measurement. -/
theorem site_core {l u v w : List Instr} {i ch : Instr} {C1 C2 : List Instr} {x : Nat} {P : Pauli} (h : Stepwise (noisyStep nm D idle) l (u ++ i :: (w ++ .tick :: v)))
    (hi : ∀ ops, ∀ i ∈ idle ops, lay.Narrow i) (ht : ∀ i ∈ v, lay.Tame D i) (hg : i.gate ≠ .TICK) (hw : ∀ j ∈ w, j.gate ≠ .MPP) (hx : Passes x w)
    (hc : noisyCore nm D i ((nm.rate i.gate).getD 0) = C1 ++ ch :: C2) (hC : Passes x (ch :: C2)) (hd : P = 0 ∨ ch.Draws (Frame.mul (fun _ => 0) x P)) :
    Sampled l x P v := by
  obtain ⟨u', o1, o2, v', A, B, -, e2, -, h2, rfl, hB⟩ := h.find hg rfl
  obtain ⟨w', rfl, rfl⟩ := prefix_tick h2 e2.symm
  obtain ⟨C, B, rfl, hC', hB⟩ := hB.cut rfl
  have hCa := hC'.plain hi fun j hj => hw j (by simp [hj])
  have key := sampled_split (A := A ++ ((o1 ++ i :: o2).flatMap fun i => noiseBefore nm i ((nm.rate i.gate).getD 0)) ++
      (o1.flatMap fun i => noisyCore nm D i ((nm.rate i.gate).getD 0)) ++ C1)
    (X := C2 ++ o2 ++ ((o1 ++ i :: o2).flatMap fun i => noiseAfter i ((nm.rate i.gate).getD 0)) ++ idle (o1 ++ i :: o2) ++ C ++ [.tick]) (B := B) (v := v) (D := D) hd (by
      rw [← List.cons_append, ← List.cons_append, ← List.cons_append, ← List.cons_append, ← List.cons_append]
      refine Passes.append (Passes.append (Passes.append (Passes.append (Passes.append hC ?_) ?_) ?_) ?_) (passes_noise (by simp [Instr.tick, Instr.actions]))
      · refine fun a ha => hx a ?_
        rw [actions_append]
        exact List.mem_append_left _ ha
      · exact passes_eq (m := []) (actions_after _) (by simp [Passes, actions])
      · exact passes_eq (m := []) (actions_idle hi _) (by simp [Passes, actions])
      · refine passes_eq hCa fun a ha => hx a ?_
        rw [actions_append]
        exact List.mem_append_right _ ha)
    (hB.simN hi ht).sim
  convert key using 1
  simp only [noisyStep, noisyOps, List.flatMap_append, List.flatMap_cons, hc, core_plains fun j hj => hw j (List.mem_append_left _ hj), List.append_assoc, List.cons_append,
    List.nil_append]

/-- Errors drawn before an operation. -/
theorem site_before {l u v w : List Instr} {i ch : Instr} {x : Nat} {P : Pauli} (h : Stepwise (noisyStep nm D idle) l (u ++ .tick :: (w ++ i :: v)))
    (hi : ∀ ops, ∀ i ∈ idle ops, lay.Narrow i) (ht : ∀ j ∈ i :: v, lay.Tame D j) (hg : i.gate ≠ .TICK) (hw : ∀ j ∈ w, j.gate ≠ .MPP) (hx : Passes x w)
    (hc : ch ∈ noiseBefore nm i ((nm.rate i.gate).getD 0)) (hd : P = 0 ∨ ch.Draws (Frame.mul (fun _ => 0) x P)) : Sampled l x P (i :: v) := by
  obtain ⟨u', o1, o2, v', A, B, e1, rfl, h1, -, rfl, hB⟩ := h.find (u := u ++ .tick :: w) (v := v) hg (by simp)
  obtain ⟨w', rfl, rfl⟩ := suffix_tick h1 e1.symm
  obtain ⟨p1, p2, ep⟩ := List.append_of_mem hc
  have hch : ∀ j ∈ ch :: p2, j.actions = [] := fun j hj => actions_noise (noiseBefore_noise j (by rw [ep]; exact List.mem_append_right _ hj))
  have hsim := ((simN_ops (nm := nm) (ops := i :: o2) (fun j hj => ht j (by rw [← List.cons_append]; exact List.mem_append_left _ hj)) (hi (i :: o2))).append
    (hB.simN hi fun j hj => ht j (by rw [← List.cons_append]; exact List.mem_append_right _ hj))).sim
  have key := sampled_split (A := A ++ (o1.flatMap fun i => noiseBefore nm i ((nm.rate i.gate).getD 0)) ++ p1)
    (X := p2 ++ (o2.flatMap fun i => noiseBefore nm i ((nm.rate i.gate).getD 0)) ++ o1)
    (B := ((i :: o2).flatMap fun i => noisyCore nm D i ((nm.rate i.gate).getD 0)) ++ ((o1 ++ i :: o2).flatMap fun i => noiseAfter i ((nm.rate i.gate).getD 0)) ++
      idle (o1 ++ i :: o2) ++ B) (v := i :: (o2 ++ v')) (D := D) hd (by
      rw [← List.cons_append, ← List.cons_append]
      refine Passes.append (Passes.append (passes_noise hch) ?_) ?_
      · exact passes_eq (m := []) (actions_before o2) (by simp [Passes, actions])
      · refine fun a ha => hx a ?_
        rw [actions_append]
        exact List.mem_append_right _ ha) (by
      rw [actions_append, actions_append, actions_append, actions_after, actions_idle hi, List.append_nil, List.append_nil]
      rw [actions_append, actions_append, noisyOps, actions_append, actions_append, actions_before, actions_after, actions_idle hi, List.nil_append, List.append_nil,
        List.append_nil] at hsim
      exact hsim)
  convert key using 1
  simp only [noisyStep, noisyOps, List.flatMap_append, List.flatMap_cons, ep, core_plains fun j hj => hw j (List.mem_append_right _ hj), List.append_assoc, List.cons_append,
    List.nil_append]

end HoneycombLayout
end Honeycomb
