import Verif.Lemmas.Superpose

/-!
# Faults add up; faults on ancillas between a reset and a measurement

Runs are linear, so every error can be followed by itself.
-/

namespace Honeycomb
variable {S : Nat → Prop} {F F' G G' T : Frame} {n m : Nat}

/-! ## Linearity -/

def Action.Linear : Action → Prop
  | .clifford1 f _ => ∀ p q, f (p + q) = f p + f q
  | _ => True

theorem actions_linear (i : Instr) : ∀ a ∈ i.actions, a.Linear := by
  intro a ha
  rcases i with ⟨g, ts, as⟩
  cases g <;> simp only [Instr.actions, List.mem_map, List.not_mem_nil] at ha
  all_goals
    obtain ⟨x, _, rfl⟩ := ha
    first
      | trivial
      | (intro p q; ext <;> simp [add_add_add_comm])

/-- The sum of two records. -/
def recSum (r s : List (ZMod 2)) : List (ZMod 2) := List.zipWith (· + ·) r s

theorem recSum_append {a b c d : List (ZMod 2)} (h : a.length = c.length) : recSum (a ++ b) (c ++ d) = recSum a c ++ recSum b d := by
  rw [recSum, List.zipWith_append h]
  rfl

theorem recSum_zero : ∀ {r s : List (ZMod 2)}, r.length = s.length → (∀ x ∈ s, x = 0) → recSum r s = r
  | [], [], _, _ => rfl
  | a :: r, b :: s, h, hs => by
    rw [recSum, List.zipWith_cons_cons, hs b (by simp), add_zero]
    exact congrArg _ (recSum_zero (by simpa using h) fun x hx => hs x (by simp [hx]))
  | [], _ :: _, h, _ => by simp at h
  | _ :: _, [], h, _ => by simp at h

theorem Runs.sum {as : List Action} {r s : List (ZMod 2)} (hl : ∀ a ∈ as, a.Linear) (h : Runs F as r F') (h' : Runs G as s G') :
    Runs (F + G) as (recSum r s) (F' + G') := by
  induction h generalizing G s with
  | nil F =>
    obtain ⟨rfl, rfl⟩ := runs_nil h'
    exact .nil _
  | clifford1 f q _ ih =>
    cases h' with
    | clifford1 _ _ h' =>
      have hf : ∀ p q, f (p + q) = f p + f q := hl _ List.mem_cons_self
      refine .clifford1 f q ?_
      rw [Pi.add_apply, hf, set_add_set]
      exact ih (fun a ha => hl a (List.mem_cons_of_mem _ ha)) h'
  | control P Q a b _ ih =>
    cases h' with
    | control _ _ _ _ h' =>
      refine .control P Q a b ?_
      rw [Pi.add_apply, Pi.add_apply, anti_add_left, anti_add_left, kick_add_kick, kick_add_kick]
      exact ih (fun a ha => hl a (List.mem_cons_of_mem _ ha)) h'
  | reset b q r _ ih =>
    cases h' with
    | reset _ _ r' h' =>
      refine .reset b q (r + r') ?_
      have := fun X : Frame => set_add_set X G q 0 0
      simp only [add_zero] at this
      rw [this, kick_add_kick]
      exact ih (fun a ha => hl a (List.mem_cons_of_mem _ ha)) h'
  | measure P r _ ih =>
    cases h' with
    | measure _ r' h' =>
      have := Runs.measure (F := _ + G) P (r + r') (by
        rw [kick_add_kick]
        exact ih (fun a ha => hl a (List.mem_cons_of_mem _ ha)) h')
      rwa [flips_add_flips] at this

theorem mul_add_frame (F G : Frame) (q : Nat) (p : Pauli) : F.mul q p + G = (F + G).mul q p := by
  funext i
  simp only [Frame.mul, Pi.add_apply]
  split_ifs
  · abel
  · rfl

theorem FaultyRuns.sum {l : List Instr} {r s : List (ZMod 2)} (h : FaultyRuns S F l r F' n) (h' : FaultyRuns S G l s G' m) :
    FaultyRuns S (F + G) l (recSum r s) (F' + G') (n + m) := by
  induction h generalizing G s m with
  | nil F =>
    generalize hl : ([] : List Instr) = l at h'
    induction h' with
    | nil G => exact .nil _
    | step => cases hl
    | @fault G G' l rec n q p hq _ ih =>
      have := ih hl
      rw [← Nat.add_assoc]
      refine .fault q p hq ?_
      rwa [add_comm F, ← mul_add_frame, add_comm _ F]
  | @step F F1 F' i l r1 r2 n hr _ ih =>
    generalize hl : i :: l = l' at h'
    induction h' with
    | nil G => cases hl
    | @step G G1 G' j l' s1 s2 m hr' h' =>
      obtain ⟨rfl, rfl⟩ := List.cons.inj hl
      rw [recSum_append (by rw [runs_length hr, runs_length hr'])]
      exact .step (hr.sum (actions_linear i) hr') (ih h')
    | @fault G G' l' rec m q p hq _ ih' =>
      have := ih' ih hl
      rw [← Nat.add_assoc]
      refine .fault q p hq ?_
      rwa [add_comm F, ← mul_add_frame, add_comm _ F]
  | @fault F F' l rec n q p hq _ ih =>
    rw [Nat.add_right_comm]
    refine .fault q p hq ?_
    rw [← mul_add_frame]
    exact ih h'

theorem frame_add_cancel (F T : Frame) : F + T + T = F := by rw [add_assoc, frame_add_self, add_zero]

theorem FaultyRuns.rec_length {l : List Instr} {r : List (ZMod 2)} (h : FaultyRuns S F l r F' n) : r.length = (measured l).length := by
  induction h with
  | nil => rfl
  | @step F F1 F' i l r1 r2 n hr _ ih =>
    have := runs_length hr
    rw [results_actions] at this
    simp only [measured, List.flatMap_cons, List.length_append] at ih ⊢
    rw [this, ih]
  | fault _ _ _ _ ih => exact ih

/-! ## Frames that an instruction does not spread -/

/-- The action does not spread `T`: a controlled gate meets nothing on the control, or just what it takes away. -/
def Action.Calm (T : Frame) : Action → Prop
  | .clifford1 _ _ => True
  | .control P Q d a => d ≠ a ∧ T d = (anti (T a) Q.pauli * P.pauli.1, anti (T a) Q.pauli * P.pauli.2)
  | .reset b _ => b = .Z
  | .measure P => ∃ q, P = [(.Z, q)]

/-- What the action leaves on its qubits; `c` are the random bits. -/
def Action.out (c : Nat → ZMod 2) (T : Frame) : Action → Nat → Pauli
  | .clifford1 f _, q => f (T q)
  | .control _ _ d _, q => if q = d then 0 else T q
  | .reset _ _, q => (0, c q)
  | .measure _, q => ((T q).1, c q)

theorem anti_self_mul (v : ZMod 2) (P : Basis) : anti (v * P.pauli.1, v * P.pauli.2) P.pauli = 0 := by
  revert v; cases P <;> decide

theorem pauli_double (v : ZMod 2) (P : Pauli) : ((v * P.1, v * P.2) : Pauli) + (v * P.1, v * P.2) = 0 := pauli_add_self _

theorem calm_one {x : Action} (h : x.Calm T) (c : Nat → ZMod 2) : ∃ T', (∀ q, ¬ x.On q → T' q = T q) ∧ (∀ q, x.On q → T' q = x.out c T q) ∧
    ∀ {as r F'}, Runs T' as r F' → Runs T (x :: as) ((x.result?.toList.map T.flips) ++ r) F' := by
  cases x with
  | clifford1 f q =>
    refine ⟨T.set q (f (T q)), fun p hp => by rw [set_apply, if_neg (show ¬ p = q from hp)], fun p hp => ?_, fun hr => .clifford1 f q hr⟩
    cases hp
    rw [set_apply, if_pos rfl, Action.out]
  | control P Q d a =>
    obtain ⟨hne, hd⟩ := h
    refine ⟨(T.kick (anti (T a) Q.pauli) [(P, d)]).kick (anti (T d) P.pauli) [(Q, a)], fun p hp => ?_, fun p hp => ?_, fun hr => .control P Q d a hr⟩
    · rw [kick_away (by simpa using fun e => hp (.inr e)), kick_away (by simpa using fun e => hp (.inl e))]
    · have h0 : anti (T d) P.pauli = 0 := by rw [hd, anti_self_mul]
      rw [h0, kick_none, Action.out]
      rcases hp with rfl | rfl
      · rw [if_pos rfl]
        simp only [Frame.kick, List.foldl_cons, List.foldl_nil, Frame.mul, if_pos]
        rw [hd, pauli_double]
      · rw [if_neg (Ne.symm hne), kick_away (by simpa using Ne.symm hne)]
  | reset b q =>
    obtain rfl : b = .Z := h
    refine ⟨(T.set q 0).kick (c q) [(.Z, q)], fun p hp => ?_, fun p hp => ?_, fun hr => .reset _ q _ hr⟩
    · replace hp : ¬ p = q := hp
      rw [kick_away (by simpa using hp), set_apply, if_neg hp]
    · cases hp
      simp [Frame.kick, Frame.mul, set_apply, Action.out, Basis.pauli]
  | measure P =>
    obtain ⟨q, rfl⟩ := h
    refine ⟨T.kick (c q + (T q).2) [(.Z, q)], fun p hp => ?_, fun p hp => ?_, fun hr => .measure _ _ hr⟩
    · rw [kick_away]
      rintro x hx rfl
      exact hp ⟨x, hx, rfl⟩
    · obtain ⟨y, hy, rfl⟩ := hp
      rw [List.mem_singleton] at hy
      subst hy
      simp only [Frame.kick, List.foldl_cons, List.foldl_nil, Frame.mul, if_pos, Action.out, Basis.pauli]
      ext
      · simp
      · simp only [Prod.snd_add, mul_one]
        rw [add_comm (c q), ← add_assoc, CharTwo.add_self_eq_zero, zero_add]

theorem out_congr {c : Nat → ZMod 2} {T T' : Frame} {x : Action} {q : Nat} (h : T' q = T q) : x.out c T' q = x.out c T q := by
  cases x <;> simp only [Action.out, h]

theorem calm_congr {T T' : Frame} {x : Action} (h : ∀ q, x.On q → T' q = T q) (hc : x.Calm T) : x.Calm T' := by
  cases x with
  | control P Q d a =>
    rw [Action.Calm, h d (.inl rfl), h a (.inr rfl)]
    exact hc
  | _ => exact hc

/-- The record of a frame that does not spread. -/
def Calmed (T : Frame) (ms : List (List (Basis × Nat))) (r : List (ZMod 2)) : Prop :=
  RecDiff (fun q => T q ≠ 0) ms (List.replicate ms.length 0) r

theorem flips_zero {T : Frame} {P : List (Basis × Nat)} (h : ∀ x ∈ P, T x.2 = 0) : T.flips P = 0 := by
  rw [Frame.flips]
  refine List.sum_eq_zero fun y hy => ?_
  obtain ⟨z, hz, rfl⟩ := List.mem_map.1 hy
  rw [h z hz, anti_zero_left]

theorem calm_runs {as : List Action} (hd : as.Pairwise fun a b => ∀ q, a.On q → ¬ b.On q) (h : ∀ x ∈ as, x.Calm T) (c : Nat → ZMod 2) :
    ∃ r T1, Runs T as r T1 ∧ (∀ q, (∀ x ∈ as, ¬ x.On q) → T1 q = T q) ∧ (∀ x ∈ as, ∀ q, x.On q → T1 q = x.out c T q) ∧
      Calmed T (as.filterMap Action.result?) r := by
  induction as generalizing T with
  | nil => exact ⟨[], T, .nil T, fun _ _ => rfl, by simp, .nil⟩
  | cons x as ih =>
    rw [List.pairwise_cons] at hd
    obtain ⟨T', h1, h2, h3⟩ := calm_one (h x List.mem_cons_self) c
    have hsame : ∀ y ∈ as, ∀ q, y.On q → T' q = T q := fun y hy q hq => h1 q fun hx => hd.1 y hy q hx hq
    obtain ⟨r, T1, g1, g2, g3, g4⟩ := ih hd.2 fun y hy => calm_congr (hsame y hy) (h y (List.mem_cons_of_mem _ hy))
    have hq : Calmed T (as.filterMap Action.result?) r := by
      clear g1
      rw [Calmed] at g4 ⊢
      generalize hms : as.filterMap Action.result? = ms at g4
      have hm : ∀ P ∈ ms, ∀ y ∈ P, T' y.2 = T y.2 := by
        intro P hP y hy
        subst hms
        obtain ⟨z, hz, e⟩ := List.mem_filterMap.1 hP
        cases z <;> simp [Action.result?] at e
        subst e
        exact hsame _ hz _ ⟨y, hy, rfl⟩
      clear hms
      generalize List.replicate ms.length (0 : ZMod 2) = z at g4
      induction g4 with
      | nil => exact .nil
      | cons k _ ih => exact .cons (fun e => by obtain ⟨y, hy, hne⟩ := k e; exact ⟨y, hy, by rwa [← hm _ (by simp) y hy]⟩) (ih fun P hP => hm P (by simp [hP]))
    refine ⟨_, T1, h3 g1, fun q hq => ?_, fun y hy q hq => ?_, ?_⟩
    · rw [g2 q fun y hy => hq y (List.mem_cons_of_mem _ hy), h1 q (hq x List.mem_cons_self)]
    · rcases List.mem_cons.1 hy with rfl | hy
      · rw [g2 q fun z hz hz' => hd.1 z hz q hq hz', h2 q hq]
      · rw [g3 y hy q hq, out_congr (hsame y hy q hq)]
    · rcases hx : x.result? with _ | P
      · rw [List.filterMap_cons_none hx]
        simpa using hq
      · rw [List.filterMap_cons_some hx]
        simp only [Option.toList_some, List.map_cons, List.map_nil, List.cons_append, List.nil_append, Calmed, List.length_cons, List.replicate_succ]
        refine .cons (fun e => ?_) hq
        by_contra hc
        push Not at hc
        exact e (flips_zero hc).symm

theorem Calmed.zero {ms : List (List (Basis × Nat))} {r : List (ZMod 2)} (h : Calmed T ms r) (h0 : ∀ P ∈ ms, ∀ y ∈ P, T y.2 = 0) : ∀ x ∈ r, x = 0 := by
  rw [Calmed] at h
  generalize hz : List.replicate ms.length (0 : ZMod 2) = z at h
  induction h with
  | nil => simp
  | @cons P ms r r' a b k _ ih =>
    rw [List.length_cons, List.replicate_succ, List.cons.injEq] at hz
    intro x hx
    rcases List.mem_cons.1 hx with rfl | hx
    · by_contra hne
      obtain ⟨y, hy, hT⟩ := k (by rw [← hz.1]; exact fun e => hne e.symm)
      exact hT (h0 _ (by simp) y hy)
    · exact ih (fun P hP => h0 P (by simp [hP])) hz.2 x hx

theorem Calmed.diff {ms : List (List (Basis × Nat))} {r s : List (ZMod 2)} (h : Calmed T ms s) (hl : r.length = ms.length) :
    RecDiff (fun q => T q ≠ 0) ms (recSum r s) r := by
  rw [Calmed] at h
  generalize hz : List.replicate ms.length (0 : ZMod 2) = z at h
  induction h generalizing r with
  | nil =>
    obtain rfl := List.length_eq_zero_iff.1 hl
    exact .nil
  | @cons P ms r' s' a b k _ ih =>
    rw [List.length_cons, List.replicate_succ, List.cons.injEq] at hz
    obtain ⟨v, r, rfl⟩ := List.exists_cons_of_length_eq_add_one hl
    rw [recSum, List.zipWith_cons_cons]
    refine .cons (fun e => k fun hab => e ?_) (ih (by simpa using hl) hz.2)
    rw [← hab, ← hz.1, add_zero]

end Honeycomb
