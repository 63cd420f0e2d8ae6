import Verif.Spec.Faults
import Verif.Lemmas.PhysStyles

/-! Moving faults to the boundaries of a stretch of circuit in which every qubit takes part in at most one interaction. -/

namespace Honeycomb

/-- The action entangles, resets or measures the qubit. -/
def Action.Couples : Action → Nat → Prop
  | .clifford1 _ _, _ => False
  | .control _ _ a b, q => q = a ∨ q = b
  | .reset _ p, q => q = p
  | .measure P, q => q ∈ P.map Prod.snd

/-- Single-qubit gates act on Paulis by an invertible additive map. -/
def Action.Good : Action → Prop
  | .clifford1 f _ => (∀ x y, f (x + y) = f x + f y) ∧ ∃ g : Pauli → Pauli, ∀ x, f (g x) = x
  | _ => True

theorem instr_good (i : Instr) : ∀ a ∈ i.actions, a.Good := by
  intro a ha
  unfold Instr.actions at ha
  split at ha <;> first
    | (simp only [List.mem_map] at ha; obtain ⟨q, _, rfl⟩ := ha; trivial)
    | (simp only [List.mem_map] at ha; obtain ⟨q, _, rfl⟩ := ha; exact ⟨by decide, fun p => (p.2, p.1), by decide⟩)
    | (simp only [List.mem_map] at ha; obtain ⟨q, _, rfl⟩ := ha; exact ⟨by decide, fun p => (p.1 + p.2, p.2), by decide⟩)
    | (simp only [List.mem_map] at ha; obtain ⟨q, _, rfl⟩ := ha; exact ⟨by decide, fun p => (p.2, p.1 + p.2), by decide⟩)
    | (simp only [List.mem_map] at ha; obtain ⟨q, _, rfl⟩ := ha; exact ⟨by decide, fun p => (p.1 + p.2, p.1), by decide⟩)
    | simp at ha

theorem frame_add_self (F : Frame) : F + F = 0 := by
  funext q
  have : ∀ p : Pauli, p + p = 0 := by decide
  exact this (F q)

theorem frame_add_add (F D : Frame) : F + D + D = F := by rw [add_assoc, frame_add_self, add_zero]

theorem mul_eq_add (F : Frame) (q : Nat) (p : Pauli) : F.mul q p = F + (fun i => if i = q then p else 0) := by
  funext i
  simp only [Frame.mul, Pi.add_apply]
  split_ifs <;> simp

theorem mul_add (F D : Frame) (q : Nat) (p : Pauli) : (F + D).mul q p = F.mul q p + D := by
  rw [mul_eq_add, mul_eq_add, add_right_comm]

theorem kick_add (F D : Frame) (r : ZMod 2) (P : List (Basis × Nat)) : (F + D).kick r P = F.kick r P + D := by
  unfold Frame.kick
  induction P generalizing F with
  | nil => rfl
  | cons x P ih => rw [List.foldl_cons, List.foldl_cons, mul_add, ih]

theorem flips_add {F D : Frame} {P : List (Basis × Nat)} (h : ∀ q ∈ P.map Prod.snd, D q = 0) : (F + D).flips P = F.flips P := by
  unfold Frame.flips
  congr 1
  refine List.map_congr_left fun x hx => ?_
  rw [Pi.add_apply, h x.2 (List.mem_map_of_mem hx), add_zero]

/-- A difference on qubits that take part in no interaction persists. -/
theorem move_forward {as : List Action} (hg : ∀ a ∈ as, a.Good) {F F' D : Frame} {rec : List (ZMod 2)} (hD : ∀ a ∈ as, ∀ q, a.Couples q → D q = 0)
    (h : Runs F as rec F') : ∃ D' : Frame, (∀ q, D q = 0 → D' q = 0) ∧ Runs (F + D) as rec (F' + D') := by
  induction h generalizing D with
  | nil F => exact ⟨D, fun _ h => h, .nil _⟩
  | @clifford1 F F' rec as f q h ih =>
    obtain ⟨ha, _⟩ := hg _ List.mem_cons_self
    have h0 : f 0 = 0 := by
      have := ha 0 0
      rw [add_zero] at this
      exact left_eq_add.1 this
    have hz : ∀ i, D i = 0 → D.set q (f (D q)) i = 0 := by
      intro i hi
      simp only [Frame.set]
      split_ifs with e
      · subst e; rw [hi, h0]
      · exact hi
    obtain ⟨D', h1, h2⟩ := ih (fun a ha => hg a (List.mem_cons_of_mem _ ha)) (D := D.set q (f (D q)))
      (fun a ha i hi => hz i (hD a (List.mem_cons_of_mem _ ha) i hi))
    refine ⟨D', fun i hi => h1 i (hz i hi), .clifford1 f q ?_⟩
    convert h2 using 1
    funext i
    simp only [Frame.set, Pi.add_apply, ha]
    split_ifs <;> rfl
  | @control F F' rec as P Q a b h ih =>
    have h1 := hD _ List.mem_cons_self
    obtain ⟨D', h2, h3⟩ := ih (fun a ha => hg a (List.mem_cons_of_mem _ ha)) (D := D) (fun a ha => hD a (List.mem_cons_of_mem _ ha))
    refine ⟨D', h2, .control P Q a b ?_⟩
    rw [kick_add, kick_add, Pi.add_apply, Pi.add_apply, h1 a (Or.inl rfl), h1 b (Or.inr rfl), add_zero, add_zero]
    exact h3
  | @reset F F' rec as b q r h ih =>
    have h1 := hD _ List.mem_cons_self
    obtain ⟨D', h2, h3⟩ := ih (fun a ha => hg a (List.mem_cons_of_mem _ ha)) (D := D) (fun a ha => hD a (List.mem_cons_of_mem _ ha))
    refine ⟨D', h2, .reset b q r ?_⟩
    rw [← kick_add] at h3
    convert h3 using 2
    funext i
    simp only [Frame.set, Pi.add_apply]
    split_ifs with e
    · rw [e, h1 q rfl, add_zero]
    · rfl
  | @measure F F' rec as P r h ih =>
    have h1 := hD _ List.mem_cons_self
    obtain ⟨D', h2, h3⟩ := ih (fun a ha => hg a (List.mem_cons_of_mem _ ha)) (D := D) (fun a ha => hD a (List.mem_cons_of_mem _ ha))
    refine ⟨D', h2, ?_⟩
    rw [← flips_add (F := F) (D := D) (P := P) h1]
    refine .measure P r ?_
    rw [kick_add]
    exact h3

/-- A difference at the end on qubits that take part in no interaction comes from one at the start. -/
theorem move_back {as : List Action} (hg : ∀ a ∈ as, a.Good) {F F' D : Frame} {rec : List (ZMod 2)} (hD : ∀ a ∈ as, ∀ q, a.Couples q → D q = 0)
    (h : Runs F as rec F') : ∃ D' : Frame, (∀ q, D q = 0 → D' q = 0) ∧ Runs (F + D') as rec (F' + D) := by
  induction h generalizing D with
  | nil F => exact ⟨D, fun _ h => h, .nil _⟩
  | @clifford1 F F' rec as f q h ih =>
    obtain ⟨ha, g, hfg⟩ := hg _ List.mem_cons_self
    have h0 : f 0 = 0 := by
      have := ha 0 0
      rw [add_zero] at this
      exact left_eq_add.1 this
    obtain ⟨D', h1, h2⟩ := ih (fun a ha => hg a (List.mem_cons_of_mem _ ha)) (D := D) (fun a ha => hD a (List.mem_cons_of_mem _ ha))
    refine ⟨D'.set q (if D' q = 0 then 0 else g (D' q)), fun i hi => ?_, .clifford1 f q ?_⟩
    · simp only [Frame.set]
      split_ifs with e1 e2
      · rfl
      · subst e1; exact absurd (h1 i hi) e2
      · exact h1 i hi
    · convert h2 using 1
      funext i
      simp only [Frame.set, Pi.add_apply, ha, if_true]
      by_cases e : i = q
      · simp only [e, if_true]
        split_ifs with e2
        · rw [h0, e2]
        · rw [hfg]
      · simp only [e, if_false]
  | @control F F' rec as P Q a b h ih =>
    have h1 := hD _ List.mem_cons_self
    obtain ⟨D', h2, h3⟩ := ih (fun a ha => hg a (List.mem_cons_of_mem _ ha)) (D := D) (fun a ha => hD a (List.mem_cons_of_mem _ ha))
    refine ⟨D', h2, .control P Q a b ?_⟩
    rw [kick_add, kick_add, Pi.add_apply, Pi.add_apply, h2 a (h1 a (Or.inl rfl)), h2 b (h1 b (Or.inr rfl)), add_zero, add_zero]
    exact h3
  | @reset F F' rec as b q r h ih =>
    have h1 := hD _ List.mem_cons_self
    obtain ⟨D', h2, h3⟩ := ih (fun a ha => hg a (List.mem_cons_of_mem _ ha)) (D := D) (fun a ha => hD a (List.mem_cons_of_mem _ ha))
    refine ⟨D', h2, .reset b q r ?_⟩
    rw [← kick_add] at h3
    convert h3 using 2
    funext i
    simp only [Frame.set, Pi.add_apply]
    split_ifs with e
    · rw [e, h2 q (h1 q rfl), add_zero]
    · rfl
  | @measure F F' rec as P r h ih =>
    have h1 := hD _ List.mem_cons_self
    obtain ⟨D', h2, h3⟩ := ih (fun a ha => hg a (List.mem_cons_of_mem _ ha)) (D := D) (fun a ha => hD a (List.mem_cons_of_mem _ ha))
    refine ⟨D', h2, ?_⟩
    rw [← flips_add (F := F) (D := D') (P := P) (fun q hq => h2 q (h1 q hq))]
    refine .measure P r ?_
    rw [kick_add]
    exact h3

/-- The instruction makes the qubit interact. -/
def Instr.Couples (i : Instr) (q : Nat) : Prop := ∃ a ∈ i.actions, a.Couples q

/-- Every qubit of `S` takes part in at most one interaction. -/
def Once (S : Nat → Prop) (l : List Instr) : Prop := l.Pairwise fun i j => ∀ q, S q → i.Couples q → ¬ j.Couples q

theorem actions_good (l : List Instr) : ∀ a ∈ actions l, a.Good := by
  intro a ha
  obtain ⟨i, _, h⟩ := List.mem_flatMap.1 ha
  exact instr_good i a h

/-- Two frames that differ only on the qubits `qs`. -/
def Near (qs : List Nat) (F F' : Frame) : Prop := ∀ q, q ∉ qs → F' q = F q

theorem FaultyRuns.append {S : Nat → Prop} {a b : List Instr} {F F' : Frame} {rec : List (ZMod 2)} {n : Nat} (h : FaultyRuns S F (a ++ b) rec F' n) :
    ∃ r1 r2 F1 n1 n2, FaultyRuns S F a r1 F1 n1 ∧ FaultyRuns S F1 b r2 F' n2 ∧ rec = r1 ++ r2 ∧ n1 + n2 = n := by
  generalize hl : a ++ b = l at h
  induction h generalizing a with
  | nil F =>
    obtain ⟨rfl, rfl⟩ := List.append_eq_nil_iff.1 hl
    exact ⟨[], [], F, 0, 0, .nil _, .nil _, rfl, rfl⟩
  | @step F F1 F' i l r1 r2 n h1 h2 ih =>
    cases a with
    | nil =>
      rw [List.nil_append] at hl
      subst hl
      exact ⟨[], _, F, 0, n, .nil _, .step h1 h2, rfl, by omega⟩
    | cons j a =>
      rw [List.cons_append, List.cons.injEq] at hl
      obtain ⟨rfl, hl⟩ := hl
      obtain ⟨s1, s2, G, n1, n2, g1, g2, rfl, e⟩ := ih hl
      exact ⟨_, s2, G, n1, n2, .step h1 g1, g2, by rw [List.append_assoc], e⟩
  | fault q p hq h ih =>
    obtain ⟨s1, s2, G, n1, n2, g1, g2, e1, e⟩ := ih hl
    exact ⟨s1, s2, G, n1 + 1, n2, .fault q p hq g1, g2, e1, by omega⟩

open Classical in
/-- All faults can be moved to the start and the end of a stretch in which every qubit interacts at most once. -/
theorem FaultyRuns.normal {S : Nat → Prop} {l : List Instr} {F F' : Frame} {rec : List (ZMod 2)} {n : Nat} (ho : Once S l)
    (h : FaultyRuns S F l rec F' n) :
    ∃ qs1 qs2 F1 F2, Near qs1 F F1 ∧ Runs F1 (actions l) rec F2 ∧ Near qs2 F2 F' ∧ (∀ q ∈ qs1, S q) ∧ (∀ q ∈ qs2, S q) ∧ qs1.length + qs2.length = n := by
  induction h with
  | nil F => exact ⟨[], [], F, F, fun _ _ => rfl, .nil _, fun _ _ => rfl, by simp, by simp, rfl⟩
  | @step F F1 F' i l r1 r2 n h1 h2 ih =>
    obtain ⟨ho1, ho2⟩ := List.pairwise_cons.1 ho
    obtain ⟨qs1, qs2, G1, G2, n1, hr, n2, s1, s2, hn⟩ := ih ho2
    -- the faults before the rest, split by whether their qubit interacts in `i`
    let Da : Frame := fun q => if i.Couples q then 0 else G1 q + F1 q
    let Db : Frame := fun q => if i.Couples q then G1 q + F1 q else 0
    have hpp : ∀ p p' : Pauli, p + (p' + p) = p' := by decide
    have hself : ∀ p : Pauli, p + p = 0 := by decide
    have hz : ∀ q, q ∉ qs1 → G1 q + F1 q = 0 := fun q hq => by rw [n1 q hq]; exact hself _
    have hG : G1 = F1 + Da + Db := by
      funext q
      simp only [Pi.add_apply, Da, Db]
      split_ifs <;> simp [hpp]
    obtain ⟨Da', a1, a2⟩ := move_back (D := Da) (instr_good i) (fun a ha q hq => by
      simp only [Da]; rw [if_pos ⟨a, ha, hq⟩]) h1
    obtain ⟨Db', b1, b2⟩ := move_forward (D := Db) (actions_good l) (fun a ha q hq => by
      obtain ⟨j, hj, ha⟩ := List.mem_flatMap.1 ha
      simp only [Db]
      split_ifs with hc
      · by_contra hne
        have hm : q ∈ qs1 := by
          by_contra hm
          exact hne (hz q hm)
        exact ho1 j hj q (s1 q hm) hc ⟨a, ha, hq⟩
      · rfl) hr
    rw [hG, frame_add_add] at b2
    refine ⟨qs1.filter fun q => ¬ i.Couples q, qs1.filter (fun q => i.Couples q) ++ qs2, F + Da', G2 + Db', ?_, ?_, ?_, ?_, ?_, ?_⟩
    · intro q hq
      have : Da' q = 0 := a1 q (by
        simp only [Da]
        split_ifs with hc
        · rfl
        · exact hz q fun hm => hq (List.mem_filter.2 ⟨hm, by simpa using hc⟩))
      rw [Pi.add_apply, this, add_zero]
    · exact runs_append.2 ⟨_, _, _, a2, b2, rfl⟩
    · intro q hq
      rw [List.mem_append, not_or] at hq
      have : Db' q = 0 := b1 q (by
        simp only [Db]
        split_ifs with hc
        · exact hz q fun hm => hq.1 (List.mem_filter.2 ⟨hm, by simpa using hc⟩)
        · rfl)
      rw [n2 q hq.2, Pi.add_apply, this, add_zero]
    · exact fun q hq => s1 q (List.mem_filter.1 hq).1
    · intro q hq
      rcases List.mem_append.1 hq with hq | hq
      · exact s1 q (List.mem_filter.1 hq).1
      · exact s2 q hq
    · have : (qs1.filter fun q => ¬ i.Couples q).length + (qs1.filter fun q => i.Couples q).length = qs1.length := by
        clear * -
        induction qs1 with
        | nil => rfl
        | cons q l ih =>
          simp only [List.filter_cons]
          by_cases h : i.Couples q <;> simp_all <;> omega
      rw [List.length_append]
      omega
  | @fault F F' l rec n q p hq h ih =>
    obtain ⟨qs1, qs2, G1, G2, n1, hr, n2, s1, s2, hn⟩ := ih ho
    refine ⟨q :: qs1, qs2, G1, G2, ?_, hr, n2, ?_, s2, by rw [List.length_cons]; omega⟩
    · intro i hi
      rw [List.mem_cons, not_or] at hi
      rw [n1 i hi.2, Frame.mul, if_neg hi.1]
    · intro i hi
      rcases List.mem_cons.1 hi with rfl | hi
      · exact hq
      · exact s1 i hi

end Honeycomb
