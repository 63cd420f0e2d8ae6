import Verif.Lemmas.Charge

/-!
# The life of an ancilla

Between two of its measurements or resets an ancilla is coupled to the left end of its edge, then to the right end. An error on it is a
part that only flips its results (`St.Allows`) and a part that can be caused by faults on the left end (`St.Good`).
-/

namespace Honeycomb
variable {S : Nat → Prop} {F F' G G' T : Frame} {n m l r a : Nat}

/-- Where an ancilla is between its couplings, and which errors on it do not spread. -/
inductive St where
  | fresh (t : Basis) (ready : Bool)   -- not coupled since the last reset or measurement; `ready` after the next `TICK`
  | half (t : Basis)                   -- coupled to the left end
  | full                               -- coupled to both ends

/-- Errors on the ancilla that only flip its results. -/
def St.Allows : St → Pauli → Prop
  | .fresh t _, p => p = 0 ∨ p = t.pauli
  | .half t, p => p = 0 ∨ p = t.pauli
  | .full, _ => True

/-- What an instruction does to the ancilla `a` of an edge with ends `l`, `r`. -/
inductive Moves (l r a : Nat) : Instr → St → St → Prop
  | idle {i s} : (∀ x ∈ i.actions, ¬ x.On a) → Moves l r a i s s
  | tick {t b} : Moves l r a .tick (.fresh t b) (.fresh t true)
  | reset {i s} : Action.reset .Z a ∈ i.actions → Moves l r a i s (.fresh .X false)
  | meas {i} : Action.measure [(.Z, a)] ∈ i.actions → Moves l r a i .full (.fresh .X false)
  | turn {i b} : Action.clifford1 (fun p => (p.2, p.1)) a ∈ i.actions → Moves l r a i (.fresh .X b) (.fresh .Z b)
  | back {i} : Action.clifford1 (fun p => (p.2, p.1)) a ∈ i.actions → Moves l r a i .full .full
  | left {i P Q} : Action.control P Q l a ∈ i.actions → Moves l r a i (.fresh Q true) (.half Q)
  | right {i P Q} : Action.control P Q r a ∈ i.actions → Moves l r a i (.half Q) .full

theorem on_unique {as : List Action} (hd : as.Pairwise fun a b => ∀ q, a.On q → ¬ b.On q) {x y : Action} (hx : x ∈ as) (hy : y ∈ as) {q : Nat}
    (h1 : x.On q) (h2 : y.On q) : x = y := by
  induction as with
  | nil => simp at hx
  | cons z as ih =>
    rw [List.pairwise_cons] at hd
    rcases List.mem_cons.1 hx with rfl | hx' <;> rcases List.mem_cons.1 hy with rfl | hy'
    · rfl
    · exact absurd h2 (hd.1 y hy' q h1)
    · exact absurd h1 (hd.1 x hx' q h2)
    · exact ih hd.2 hx' hy'

/-- An instruction of a circuit with ancillas. -/
structure Std (i : Instr) : Prop where
  disj : i.actions.Pairwise fun a b => ∀ q, a.On q → ¬ b.On q
  basic : ∀ x ∈ i.actions, match x with
    | .clifford1 _ _ => True
    | .control _ _ d a => d ≠ a
    | .reset b _ => b = .Z
    | .measure P => ∃ q, P = [(.Z, q)]

/-- The frame with `p` on `q` only. -/
def single (q : Nat) (p : Pauli) : Frame := fun i => if i = q then p else 0

theorem single_self (q : Nat) (p : Pauli) : single q p q = p := if_pos rfl
theorem single_off {q x : Nat} (p : Pauli) (h : x ≠ q) : single q p x = 0 := if_neg h

theorem linear_zero {f : Pauli → Pauli} {q : Nat} {i : Instr} (h : Action.clifford1 f q ∈ i.actions) : f 0 = 0 := by
  have h : ∀ p q, f (p + q) = f p + f q := actions_linear i _ h
  have := h 0 0
  rw [add_zero] at this
  exact left_eq_add.1 this

theorem no_spread (P Q : Basis) : (0 : Pauli) = (anti 0 Q.pauli * P.pauli.1, anti 0 Q.pauli * P.pauli.2) := by cases P <;> cases Q <;> decide

/-- A frame without spreading, through an instruction. -/
theorem Std.runs {i : Instr} (h : Std i) (hc : ∀ P Q d a, Action.control P Q d a ∈ i.actions →
      T d = (anti (T a) Q.pauli * P.pauli.1, anti (T a) Q.pauli * P.pauli.2)) (c : Nat → ZMod 2) :
    ∃ r T1, Runs T i.actions r T1 ∧ (∀ q, (∀ x ∈ i.actions, ¬ x.On q) → T1 q = T q) ∧ (∀ x ∈ i.actions, ∀ q, x.On q → T1 q = x.out c T q) ∧
      Calmed T i.measures r := by
  rw [← results_actions]
  refine calm_runs h.disj (fun x hx => ?_) c
  have hb := h.basic x hx
  cases x with
  | clifford1 => trivial
  | control P Q d a => exact ⟨hb, hc P Q d a hx⟩
  | reset => exact hb
  | measure => exact hb

theorem measures_on {i : Instr} {P : List (Basis × Nat)} (h : P ∈ i.measures) {y : Basis × Nat} (hy : y ∈ P) : ∃ x ∈ i.actions, x.On y.2 := by
  rw [← results_actions] at h
  obtain ⟨x, hx, e⟩ := List.mem_filterMap.1 h
  refine ⟨x, hx, ?_⟩
  cases x <;> simp [Action.result?] at e
  subst e
  exact ⟨y, hy, rfl⟩

theorem FaultyRuns.snoc {A : List Instr} {i : Instr} {r1 r2 : List (ZMod 2)} (h : FaultyRuns S F A r1 G n) (h' : Runs G i.actions r2 G') :
    FaultyRuns S F (A ++ [i]) (r1 ++ r2) G' n := by
  have := h.join (FaultyRuns.step (S := S) h' (.nil G'))
  simpa using this

/-- The run without errors and without randomness. -/
theorem zero_run {A : List Instr} (h : ∀ i ∈ A, Std i) : ∃ rec, (∀ x ∈ rec, x = 0) ∧ FaultyRuns S 0 A rec 0 0 := by
  induction A with
  | nil => exact ⟨[], by simp, .nil 0⟩
  | cons i A ih =>
    obtain ⟨r2, h2, g2⟩ := ih fun j hj => h j (by simp [hj])
    obtain ⟨r1, T1, k1, k2, k3, k4⟩ := (h i (by simp)).runs (T := 0) (fun P Q d a _ => no_spread P Q) 0
    have hT : T1 = 0 := by
      funext q
      by_cases hq : ∃ x ∈ i.actions, x.On q
      · obtain ⟨x, hx, ho⟩ := hq
        rw [k3 x hx q ho]
        cases x with
        | clifford1 f y => exact linear_zero hx
        | control => simp [Action.out]
        | reset => rfl
        | measure => rfl
      · push Not at hq
        exact k2 q hq
    rw [hT] at k1
    refine ⟨r1 ++ r2, fun x hx => ?_, .step k1 g2⟩
    rcases List.mem_append.1 hx with hx | hx
    · exact k4.zero (fun _ _ _ _ => rfl) x hx
    · exact h2 x hx

/-- An error on the ancilla, independent of `t`, can be caused by faults on `S`. -/
def Reach (S : Nat → Prop) (a : Nat) (t : Basis) (A : List Instr) : Prop :=
  ∃ s rec m, s ≠ 0 ∧ s ≠ t.pauli ∧ (∀ x ∈ rec, x = 0) ∧ FaultyRuns S 0 A rec (single a s) m

def St.Good (l a : Nat) (A : List Instr) : St → Prop
  | .fresh t _ => Reach (fun _ => False) a t A
  | .half t => Reach (· = l) a t A
  | .full => True

theorem Reach.mono {S S' : Nat → Prop} {t : Basis} {A : List Instr} (h : Reach S a t A) (hS : ∀ q, S q → S' q) : Reach S' a t A := by
  obtain ⟨s, rec, m, h1, h2, h3, h4⟩ := h
  exact ⟨s, rec, m, h1, h2, h3, h4.mono hS⟩

theorem Reach.idle {t : Basis} {A : List Instr} {i : Instr} (hi : Std i) (hn : ∀ x ∈ i.actions, ¬ x.On a) (h : Reach S a t A) : Reach S a t (A ++ [i]) := by
  obtain ⟨s, rec, m, h1, h2, h3, h4⟩ := h
  have off : ∀ x ∈ i.actions, ∀ q, x.On q → single a s q = 0 := fun x hx q hq => single_off _ (by rintro rfl; exact hn x hx hq)
  obtain ⟨r1, T1, k1, k2, k3, k4⟩ := hi.runs (T := single a s) (fun P Q d b hm => by
    rw [off _ hm d (.inl rfl), off _ hm b (.inr rfl)]; exact no_spread P Q) 0
  have hT : T1 = single a s := by
    funext q
    by_cases hq : ∃ x ∈ i.actions, x.On q
    · obtain ⟨x, hx, ho⟩ := hq
      have h0 := off x hx q ho
      rw [k3 x hx q ho, h0]
      cases x with
      | clifford1 f y => rw [Action.out, h0]; exact linear_zero hx
      | control => simp [Action.out, h0]
      | reset => rfl
      | measure => rw [Action.out, h0]; rfl
    · push Not at hq
      exact k2 q hq
  rw [hT] at k1
  refine ⟨s, _, m, h1, h2, fun x hx => ?_, h4.snoc k1⟩
  rcases List.mem_append.1 hx with hx | hx
  · exact h3 x hx
  · refine k4.zero (fun P hP y hy => ?_) x hx
    obtain ⟨z, hz, ho⟩ := measures_on hP hy
    exact off z hz _ ho

theorem Reach.new {A : List Instr} {i : Instr} (hA : ∀ j ∈ A, Std j) (hi : Std i)
    (h : Action.reset .Z a ∈ i.actions ∨ Action.measure [(.Z, a)] ∈ i.actions) : Reach S a .X (A ++ [i]) := by
  obtain ⟨rec, h3, h4⟩ := zero_run (S := S) hA
  obtain ⟨r1, T1, k1, k2, k3, k4⟩ := hi.runs (T := 0) (fun P Q d b _ => no_spread P Q) (fun q => if q = a then 1 else 0)
  have hT : T1 = single a (0, 1) := by
    funext q
    by_cases hq : ∃ x ∈ i.actions, x.On q
    · obtain ⟨x, hx, ho⟩ := hq
      rw [k3 x hx q ho]
      by_cases ha : q = a
      · subst ha
        rw [single_self]
        rcases h with h | h
        · rw [on_unique hi.disj hx h ho rfl]
          simp [Action.out]
        · rw [on_unique hi.disj hx h ho ⟨_, List.mem_singleton_self _, rfl⟩]
          simp [Action.out]
      · rw [single_off _ ha]
        cases x with
        | clifford1 f y => exact linear_zero hx
        | control => simp [Action.out]
        | reset => simp [Action.out, ha]
        | measure => simp [Action.out, ha]
    · push Not at hq
      rw [k2 q hq, single_off]
      · rfl
      · rintro rfl
        rcases h with h | h
        · exact hq _ h rfl
        · exact hq _ h ⟨_, List.mem_singleton_self _, rfl⟩
  rw [hT] at k1
  refine ⟨_, _, 0, by decide, by decide, fun x hx => ?_, h4.snoc k1⟩
  rcases List.mem_append.1 hx with hx | hx
  · exact h3 x hx
  · exact k4.zero (fun _ _ _ _ => rfl) x hx

theorem Reach.turn {A : List Instr} {i : Instr} (hi : Std i) (hm : Action.clifford1 (fun p => (p.2, p.1)) a ∈ i.actions) (h : Reach S a .X A) :
    Reach S a .Z (A ++ [i]) := by
  obtain ⟨s, rec, m, h1, h2, h3, h4⟩ := h
  have off : ∀ x ∈ i.actions, ∀ q, x.On q → q ≠ a → single a s q = 0 := fun x hx q hq h => single_off _ h
  have non : ∀ x ∈ i.actions, x.On a → x = .clifford1 (fun p => (p.2, p.1)) a := fun x hx hq => on_unique hi.disj hx hm hq rfl
  obtain ⟨r1, T1, k1, k2, k3, k4⟩ := hi.runs (T := single a s) (fun P Q d b hm' => by
    rw [single_off _ (by rintro rfl; cases non _ hm' (.inl rfl)), single_off _ (by rintro rfl; cases non _ hm' (.inr rfl))]; exact no_spread P Q) 0
  have hT : T1 = single a (s.2, s.1) := by
    funext q
    by_cases hq : ∃ x ∈ i.actions, x.On q
    · obtain ⟨x, hx, ho⟩ := hq
      rw [k3 x hx q ho]
      by_cases ha : q = a
      · subst ha
        rw [non x hx ho, Action.out, single_self, single_self]
      · rw [single_off _ ha]
        have h0 : single a s q = 0 := single_off _ ha
        cases x with
        | clifford1 f y => rw [Action.out, h0]; exact linear_zero hx
        | control => simp [Action.out, h0]
        | reset => rfl
        | measure => rw [Action.out, h0]; rfl
    · push Not at hq
      have ha : q ≠ a := by rintro rfl; exact hq _ hm rfl
      rw [k2 q hq, single_off _ ha, single_off _ ha]
  rw [hT] at k1
  refine ⟨_, _, m, ?_, ?_, fun x hx => ?_, h4.snoc k1⟩
  · revert h1; clear * -; revert s; decide
  · revert h2; clear * -; revert s; decide
  rcases List.mem_append.1 hx with hx | hx
  · exact h3 x hx
  · refine k4.zero (fun P hP y hy => ?_) x hx
    obtain ⟨z, hz, ho⟩ := measures_on hP hy
    refine single_off _ ?_
    intro e
    rw [← results_actions] at hP
    obtain ⟨w, hw, e'⟩ := List.mem_filterMap.1 hP
    cases w <;> simp [Action.result?] at e'
    subst e'
    cases non _ hw ⟨y, hy, e.symm⟩

theorem Reach.left {A : List Instr} {i : Instr} {P Q t : Basis} (hi : Std i) (hm : Action.control P Q l a ∈ i.actions) (h : Reach S a t A) (hS : S l) :
    Reach S a t (A ++ [i]) := by
  obtain ⟨s, rec, m, h1, h2, h3, h4⟩ := h
  have hla : l ≠ a := hi.basic _ hm
  set u : Pauli := (anti s Q.pauli * P.pauli.1, anti s Q.pauli * P.pauli.2) with hu
  have non : ∀ x ∈ i.actions, x.On a ∨ x.On l → x = .control P Q l a := by
    rintro x hx (hq | hq)
    · exact on_unique hi.disj hx hm hq (.inr rfl)
    · exact on_unique hi.disj hx hm hq (.inl rfl)
  set T : Frame := (single a s).mul l u with hT0
  have Tl : T l = u := by rw [hT0, Frame.mul, if_pos rfl, single_off _ hla, zero_add]
  have Ta : T a = s := by rw [hT0, Frame.mul, if_neg (Ne.symm hla), single_self]
  have T0 : ∀ q, q ≠ a → q ≠ l → T q = 0 := fun q h1 h2 => by rw [hT0, Frame.mul, if_neg h2, single_off _ h1]
  obtain ⟨r1, T1, k1, k2, k3, k4⟩ := hi.runs (T := T) (fun P' Q' d b hm' => by
    by_cases hc : (d = a ∨ b = a) ∨ (d = l ∨ b = l)
    · have := non _ hm' (by
        rcases hc with (rfl | rfl) | (rfl | rfl)
        · exact .inl (.inl rfl)
        · exact .inl (.inr rfl)
        · exact .inr (.inl rfl)
        · exact .inr (.inr rfl))
      rw [Action.control.injEq] at this
      obtain ⟨rfl, rfl, rfl, rfl⟩ := this
      rw [Tl, Ta]
    · push Not at hc
      rw [T0 d hc.1.1 hc.2.1, T0 b hc.1.2 hc.2.2]; exact no_spread P' Q') 0
  have hT : T1 = single a s := by
    funext q
    by_cases hq : ∃ x ∈ i.actions, x.On q
    · obtain ⟨x, hx, ho⟩ := hq
      rw [k3 x hx q ho]
      by_cases hc : q = a ∨ q = l
      · rw [non x hx (by rcases hc with rfl | rfl; exacts [.inl ho, .inr ho]), Action.out]
        rcases hc with rfl | rfl
        · rw [if_neg (Ne.symm hla), Ta, single_self]
        · rw [if_pos rfl, single_off _ hla]
      · push Not at hc
        have h0 := T0 q hc.1 hc.2
        rw [single_off _ hc.1]
        cases x with
        | clifford1 f y => rw [Action.out, h0]; exact linear_zero hx
        | control => simp [Action.out, h0]
        | reset => rfl
        | measure => rw [Action.out, h0]; rfl
    · push Not at hq
      have hqa : q ≠ a := by rintro rfl; exact hq _ hm (.inr rfl)
      have hql : q ≠ l := by rintro rfl; exact hq _ hm (.inl rfl)
      rw [k2 q hq, T0 q hqa hql, single_off _ hqa]
  rw [hT] at k1
  refine ⟨s, _, m + 1, h1, h2, fun x hx => ?_, (h4.join (FaultyRuns.fault (l := [i]) l u hS (.step k1 (.nil _))))⟩
  rw [List.append_nil] at hx
  rcases List.mem_append.1 hx with hx | hx
  · exact h3 x hx
  · refine k4.zero (fun P' hP y hy => ?_) x hx
    rw [← results_actions] at hP
    obtain ⟨w, hw, e'⟩ := List.mem_filterMap.1 hP
    cases w <;> simp [Action.result?] at e'
    subst e'
    refine T0 _ ?_ ?_
    · intro e; cases non _ hw (.inl ⟨y, hy, e.symm⟩)
    · intro e; cases non _ hw (.inr ⟨y, hy, e.symm⟩)

/-- The errors that faults on the left end can cause, after the next instruction. -/
theorem Moves.good {i : Instr} {s s' : St} {A : List Instr} (h : Moves l r a i s s') (hA : ∀ j ∈ A, Std j) (hi : Std i) (hg : s.Good l a A) :
    s'.Good l a (A ++ [i]) := by
  cases h with
  | idle hn =>
    cases s with
    | fresh t b => exact Reach.idle hi hn hg
    | half t => exact Reach.idle hi hn hg
    | full => trivial
  | tick => exact Reach.idle (S := fun _ => False) hi (by simp [Instr.actions, Instr.tick]) hg
  | reset hm => exact Reach.new hA hi (.inl hm)
  | meas hm => exact Reach.new hA hi (.inr hm)
  | turn hm => exact Reach.turn (S := fun _ => False) hi hm hg
  | back => trivial
  | left hm => exact Reach.left hi hm (Reach.mono (S := fun _ => False) hg (by simp)) rfl
  | right => trivial

/-! ## Within a time step -/

/-- After the coupling to the right end, until the next `TICK`. -/
def St.Spent : St → Prop
  | .full => True
  | .fresh _ b => b = false
  | .half _ => False

/-- The instructions of a list, one after the other. -/
inductive Chain (R : Instr → σ → σ → Prop) : List Instr → σ → σ → Prop
  | nil {s} : Chain R [] s s
  | cons {i l s s1 s'} : R i s s1 → Chain R l s1 s' → Chain R (i :: l) s s'

theorem Moves.spent {i : Instr} {s s' : St} (h : Moves l r a i s s') (ht : i.gate ≠ .TICK) (hs : s.Spent) : s'.Spent := by
  cases h with
  | idle => exact hs
  | tick => exact absurd rfl ht
  | reset => rfl
  | meas => rfl
  | turn => exact hs
  | back => trivial
  | left => cases hs
  | right => trivial

theorem Moves.spent_right {i : Instr} {s s' : St} {P Q : Basis} (h : Moves l r a i s s') (hi : Std i) (hlr : l ≠ r)
    (hm : Action.control P Q r a ∈ i.actions) : s'.Spent := by
  have uniq : ∀ x ∈ i.actions, x.On a → x = .control P Q r a := fun x hx hq => on_unique hi.disj hx hm hq (.inr rfl)
  cases h with
  | idle hn => exact absurd (.inr rfl) (hn _ hm)
  | tick => simp [Instr.actions, Instr.tick] at hm
  | reset => rfl
  | meas => rfl
  | turn h => cases uniq _ h rfl
  | back => trivial
  | left h =>
    have := uniq _ h (.inr rfl)
    rw [Action.control.injEq] at this
    exact absurd this.2.2.1 hlr
  | right => trivial

theorem St.Spent.ne_half {s : St} (h : s.Spent) (t : Basis) : s ≠ .half t := by
  rintro rfl
  exact h

end Honeycomb
