import Verif.Lemmas.Superpose

/-! # Runs with errors add up and can be split -/

namespace Honeycomb
variable {F F' G G' : Frame} {rec : List (ZMod 2)} {n m : Nat}

/-- The flips of two records together. -/
def addRec (r s : List (ZMod 2)) : List (ZMod 2) := List.zipWith (· + ·) r s

theorem addRec_length {r s : List (ZMod 2)} (h : r.length = s.length) : (addRec r s).length = r.length := by
  simp [addRec, h]

theorem addRec_append {r s r' s' : List (ZMod 2)} (h : r.length = s.length) : addRec (r ++ r') (s ++ s') = addRec r s ++ addRec r' s' :=
  List.zipWith_append h

theorem addRec_get (r s : List (ZMod 2)) (t : Nat) : (addRec r s)[t]? = (do let a ← r[t]?; let b ← s[t]?; return a + b) := by
  rw [addRec, List.getElem?_zipWith]
  cases r[t]? <;> cases s[t]? <;> rfl

theorem addRec_comm (r s : List (ZMod 2)) : addRec r s = addRec s r := by
  apply List.ext_getElem?
  intro t
  rw [addRec_get, addRec_get]
  cases r[t]? <;> cases s[t]? <;> simp [add_comm]

theorem addRec_modify (r s : List (ZMod 2)) (t : Nat) : addRec (r.modify t (· + 1)) s = (addRec r s).modify t (· + 1) := by
  apply List.ext_getElem?
  intro k
  rw [addRec_get, List.getElem?_modify, List.getElem?_modify, addRec_get]
  by_cases h : t = k
  · cases r[k]? <;> cases s[k]? <;> simp [h, add_right_comm]
  · cases r[k]? <;> cases s[k]? <;> simp [h]

/-- Single-qubit gates act linearly. -/
def Additive (as : List Action) : Prop := ∀ f q, Action.clifford1 f q ∈ as → ∀ a b, f (a + b) = f a + f b

theorem instr_additive (i : Instr) : Additive i.actions := by
  intro f q h a b
  obtain ⟨a1, a2⟩ := a
  obtain ⟨b1, b2⟩ := b
  unfold Instr.actions at h
  split at h <;> simp only [List.mem_map, Action.clifford1.injEq, reduceCtorEq, and_false, exists_false, List.not_mem_nil] at h
  all_goals
    obtain ⟨_, _, rfl, _⟩ := h
    ext <;> simp [add_comm, add_left_comm, add_assoc]

theorem Runs.superpose {as : List Action} {s : List (ZMod 2)} (ha : Additive as) (h : Runs F as rec F') (h' : Runs G as s G') :
    Runs (F + G) as (addRec rec s) (F' + G') := by
  induction h generalizing G s with
  | nil F =>
    obtain ⟨rfl, rfl⟩ := runs_nil h'
    exact .nil _
  | clifford1 f q _ ih =>
    cases h' with
    | clifford1 _ _ h' =>
      refine .clifford1 f q ?_
      rw [Pi.add_apply, ha f q List.mem_cons_self, set_add_set]
      exact ih (fun f q hm => ha f q (List.mem_cons_of_mem _ hm)) h'
  | control P Q a b _ ih =>
    cases h' with
    | control _ _ _ _ h' =>
      refine .control P Q a b ?_
      rw [Pi.add_apply, Pi.add_apply, anti_add_left, anti_add_left, kick_add_kick, kick_add_kick]
      exact ih (fun f q hm => ha f q (List.mem_cons_of_mem _ hm)) h'
  | reset b q r _ ih =>
    cases h' with
    | reset _ _ r' h' =>
      refine .reset b q (r + r') ?_
      have := fun X : Frame => set_add_set X G q 0 0
      simp only [add_zero] at this
      rw [this, kick_add_kick]
      exact ih (fun f q hm => ha f q (List.mem_cons_of_mem _ hm)) h'
  | measure P r _ ih =>
    cases h' with
    | measure _ r' h' =>
      have := Runs.measure P (r + r') (by
        rw [kick_add_kick]
        exact ih (fun f q hm => ha f q (List.mem_cons_of_mem _ hm)) h')
      rw [flips_add_flips] at this
      exact this

theorem Runs.split {as : List Action} (ha : Additive as) (h : Runs F as rec F') : ∀ {A B : Frame}, F = A + B →
    ∃ ra rb A' B', Runs A as ra A' ∧ Runs B as rb B' ∧ rec = addRec ra rb ∧ F' = A' + B' := by
  induction h with
  | nil F => rintro A B rfl; exact ⟨[], [], A, B, .nil _, .nil _, rfl, rfl⟩
  | clifford1 f q _ ih =>
    rintro A B rfl
    obtain ⟨ra, rb, A', B', h1, h2, h3, h4⟩ := ih (fun f q hm => ha f q (List.mem_cons_of_mem _ hm))
      (A := A.set q (f (A q))) (B := B.set q (f (B q))) (by rw [Pi.add_apply, ha f q List.mem_cons_self, set_add_set])
    exact ⟨ra, rb, A', B', .clifford1 f q h1, .clifford1 f q h2, h3, h4⟩
  | control P Q a b _ ih =>
    rintro A B rfl
    obtain ⟨ra, rb, A', B', h1, h2, h3, h4⟩ := ih (fun f q hm => ha f q (List.mem_cons_of_mem _ hm))
      (by rw [Pi.add_apply, Pi.add_apply, anti_add_left, anti_add_left, kick_add_kick, kick_add_kick])
    exact ⟨ra, rb, A', B', .control P Q a b h1, .control P Q a b h2, h3, h4⟩
  | reset b q r _ ih =>
    rintro A B rfl
    obtain ⟨ra, rb, A', B', h1, h2, h3, h4⟩ := ih (fun f q hm => ha f q (List.mem_cons_of_mem _ hm))
      (A := (A.set q 0).kick r [(b, q)]) (B := (B.set q 0).kick 0 [(b, q)]) (by
        rw [← kick_add_kick, ← set_add_set, add_zero, add_zero])
    exact ⟨ra, rb, A', B', .reset b q r h1, .reset b q 0 h2, h3, h4⟩
  | measure P r _ ih =>
    rintro A B rfl
    obtain ⟨ra, rb, A', B', h1, h2, h3, h4⟩ := ih (fun f q hm => ha f q (List.mem_cons_of_mem _ hm))
      (A := A.kick r P) (B := B.kick 0 P) (by rw [← kick_add_kick, add_zero])
    refine ⟨_, _, A', B', .measure P r h1, .measure P 0 h2, ?_, h4⟩
    rw [flips_add_flips, h3]
    rfl

theorem NoisyRuns.length {l : List Instr} (h : NoisyRuns F l rec F' n) : rec.length = (measured l).length := h.loose.length

theorem NoisyRuns.superpose {l : List Instr} {s : List (ZMod 2)} (h : NoisyRuns F l rec F' n) (h' : NoisyRuns G l s G' m) :
    NoisyRuns (F + G) l (addRec rec s) (F' + G') (n + m) := by
  induction h generalizing G G' s m with
  | nil F =>
    cases h'
    exact .nil _
  | @step F F1 F' i l r1 r2 n hr hn ih =>
    generalize hL : i :: l = L at h'
    induction h' with
    | nil => cases hL
    | @step _ _ _ i' l' s1 s2 m hs hm _ =>
      cases hL
      have e : r1.length = s1.length := (runs_length hr).trans (runs_length hs).symm
      rw [addRec_append e]
      exact .step (hr.superpose (instr_additive i) hs) (ih hm)
    | @error G G' i' l' s m P hP _ ih' =>
      have := ih' hL
      cases hL
      exact .error P hP (by rwa [add_assoc])
    | @flip G G' i' l' s m t ha ht _ ih' =>
      have := ih' hL
      cases hL
      rw [addRec_comm, addRec_modify, addRec_comm]
      exact .flip t ha ht this
  | @error F F' i l r n P hP _ ih =>
    have := ih h'
    rw [Nat.add_right_comm]
    exact .error P hP (by rwa [add_right_comm])
  | @flip F F' i l r n t ha ht _ ih =>
    rw [Nat.add_right_comm, addRec_modify]
    exact .flip t ha ht (ih h')

/-- A run with `a + b` errors is the sum of a run with `a` of them and a run with the others. -/
theorem NoisyRuns.split {l : List Instr} (h : NoisyRuns F l rec F' n) : ∀ {A B : Frame} {a b : Nat}, F = A + B → n = a + b →
    ∃ ra rb A' B', NoisyRuns A l ra A' a ∧ NoisyRuns B l rb B' b ∧ rec = addRec ra rb ∧ F' = A' + B' := by
  induction h with
  | nil F =>
    rintro A B a b rfl h0
    obtain ⟨rfl, rfl⟩ : a = 0 ∧ b = 0 := by omega
    exact ⟨[], [], A, B, .nil _, .nil _, rfl, rfl⟩
  | step hr hn ih =>
    rintro A B a b hF h0
    obtain ⟨ra, rb, A1, B1, h1, h2, rfl, h4⟩ := hr.split (instr_additive _) hF
    obtain ⟨ra', rb', A', B', h1', h2', rfl, h4'⟩ := ih h4 h0
    refine ⟨_, _, A', B', .step h1 h1', .step h2 h2', ?_, h4'⟩
    rw [addRec_append ((runs_length h1).trans (runs_length h2).symm)]
  | @error F F' i l r n P hP _ ih =>
    rintro A B a b rfl h0
    cases a with
    | succ a =>
      obtain ⟨ra, rb, A', B', h1, h2, h3, h4⟩ := ih (A := A + P) (B := B) (a := a) (b := b) (add_right_comm _ _ _) (by omega)
      exact ⟨ra, rb, A', B', .error P hP h1, h2, h3, h4⟩
    | zero =>
      obtain ⟨b, rfl⟩ : ∃ b', b = b' + 1 := ⟨b - 1, by omega⟩
      obtain ⟨ra, rb, A', B', h1, h2, h3, h4⟩ := ih (A := A) (B := B + P) (a := 0) (b := b) (add_assoc _ _ _) (by omega)
      exact ⟨ra, rb, A', B', h1, .error P hP h2, h3, h4⟩
  | @flip F F' i l r n t ha ht _ ih =>
    rintro A B a b rfl h0
    cases a with
    | succ a =>
      obtain ⟨ra, rb, A', B', h1, h2, h3, h4⟩ := ih (a := a) (b := b) rfl (by omega)
      exact ⟨_, rb, A', B', .flip t ha ht h1, h2, by rw [addRec_modify, h3], h4⟩
    | zero =>
      obtain ⟨b, rfl⟩ : ∃ b', b = b' + 1 := ⟨b - 1, by omega⟩
      obtain ⟨ra, rb, A', B', h1, h2, h3, h4⟩ := ih (a := 0) (b := b) rfl (by omega)
      exact ⟨ra, _, A', B', h1, .flip t ha ht h2, by rw [addRec_comm, addRec_modify, addRec_comm, h3], h4⟩

/-! ## Samples -/

theorem CanSample.sum {l : List Instr} {r s : List (ZMod 2)} (h : CanSample n l r) (h' : CanSample m l s) : CanSample (n + m) l (addRec r s) := by
  obtain ⟨F, F', h0, h⟩ := h
  obtain ⟨G, G', h0', h'⟩ := h'
  exact ⟨F + G, F' + G', fun q => by simp [h0 q, h0' q], h.superpose h'⟩

theorem CanSample.split {l : List Instr} {r : List (ZMod 2)} {a b : Nat} (h : CanSample (a + b) l r) :
    ∃ ra rb, CanSample a l ra ∧ CanSample b l rb ∧ r = addRec ra rb := by
  obtain ⟨F, F', h0, h⟩ := h
  obtain ⟨ra, rb, A', B', h1, h2, h3, -⟩ := h.split (A := F) (B := 0) (by simp) rfl
  exact ⟨ra, rb, ⟨F, A', h0, h1⟩, ⟨0, B', fun q => rfl, h2⟩, h3⟩

theorem CanSample.length {l : List Instr} {r : List (ZMod 2)} (h : CanSample n l r) : r.length = (measured l).length := by
  obtain ⟨F, F', -, h⟩ := h
  exact h.length

/-! ## Detectors and observables are linear -/

/-- The sum of two values, if both exist. -/
def addOpt (a b : Option (ZMod 2)) : Option (ZMod 2) := do let x ← a; let y ← b; return x + y

theorem fold_addOpt {α : Type} (f g : α → Option (ZMod 2)) : ∀ l : List α,
    l.foldr (fun x acc => do let a ← acc; let b ← addOpt (f x) (g x); return b + a) (some 0) =
      addOpt (l.foldr (fun x acc => do let a ← acc; let b ← f x; return b + a) (some 0))
        (l.foldr (fun x acc => do let a ← acc; let b ← g x; return b + a) (some 0)) := by
  intro l
  induction l with
  | nil => simp [addOpt]
  | cons x l ih =>
    rw [List.foldr_cons, ih, List.foldr_cons, List.foldr_cons]
    generalize l.foldr _ _ = u
    generalize l.foldr _ _ = v
    cases u <;> cases v <;> cases f x <;> cases g x <;> simp [addOpt]
    abel

theorem recordBit_add (r s : List (ZMod 2)) (j : Int) : recordBit (addRec r s) j = addOpt (recordBit r j) (recordBit s j) := by
  unfold recordBit
  split_ifs
  · exact addRec_get _ _ _
  · rfl

theorem flipParity_add (r s : List (ZMod 2)) (x : Instr × Nat) : flipParity (addRec r s) x = addOpt (flipParity r x) (flipParity s x) := by
  unfold flipParity
  simp only [recordBit_add]
  exact fold_addOpt _ _ _

theorem detectorValues_add (l : List Instr) (r s : List (ZMod 2)) :
    detectorValues l (addRec r s) = List.zipWith addOpt (detectorValues l r) (detectorValues l s) := by
  unfold detectorValues
  rw [List.zipWith_map, List.zipWith_self]
  exact List.map_congr_left fun x _ => flipParity_add r s x

theorem observableValue_add (k : Nat) (l : List Instr) (r s : List (ZMod 2)) :
    observableValue k l (addRec r s) = addOpt (observableValue k l r) (observableValue k l s) := by
  unfold observableValue
  simp only [flipParity_add]
  exact fold_addOpt _ _ _

end Honeycomb
