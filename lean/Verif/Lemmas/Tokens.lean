import Verif.Lemmas.Placed

/-!
# Which error a place was hit by

A place is hit by one of at most fifteen errors, and which one it was decides which detectors fire.
-/

namespace Honeycomb
open scoped ENNReal

/-- Runs whose only error is `P` at the place `a`; 0 stands for a flipped result. -/
inductive HitRuns : Frame → List Instr → List (ZMod 2) → Frame → Nat → Frame → Prop
  | step {F F1 F' P : Frame} {i : Instr} {l : List Instr} {r1 r2 : List (ZMod 2)} {a : Nat} :
      Runs F i.actions r1 F1 → HitRuns F1 l r2 F' a P → HitRuns F (i :: l) (r1 ++ r2) F' (a + i.slots) P
  | error {F F' : Frame} {i : Instr} {l : List Instr} {rec : List (ZMod 2)} {E : PMF Frame} (s : Nat) (P : Frame) :
      i.errors[s]? = some E → P ∈ E.support → NoisyRuns (F + P) (i :: l) rec F' 0 → HitRuns F (i :: l) rec F' s P
  | flip {F F' : Frame} {i : Instr} {l : List Instr} {rec : List (ZMod 2)} (t : Nat) :
      t < i.measures.length → NoisyRuns F (i :: l) rec F' 0 → HitRuns F (i :: l) (rec.modify t (· + 1)) F' (i.errors.length + t) 0

variable {F F' G G' P : Frame} {l : List Instr} {r s : List (ZMod 2)} {a : Nat}

theorem PlacedRuns.hit {H : List Nat} (h : PlacedRuns F l r F' H) : H = [a] → ∃ P, HitRuns F l r F' a P := by
  induction h generalizing a with
  | nil F => intro h0; cases h0
  | step h1 _ ih =>
    intro h0
    obtain ⟨b, t, rfl, rfl, ht⟩ := List.map_eq_cons_iff.1 h0
    rw [List.map_eq_nil_iff] at ht
    subst ht
    obtain ⟨P, hP⟩ := ih rfl
    exact ⟨P, .step h1 hP⟩
  | error s P ha hE hP h _ =>
    intro h0
    obtain ⟨rfl, rfl⟩ := List.cons.inj h0
    exact ⟨P, .error _ P hE hP h.noisy⟩
  | flip t ha ht h _ =>
    intro h0
    obtain ⟨rfl, rfl⟩ := List.cons.inj h0
    exact ⟨0, .flip t ht h.noisy⟩

/-- The same error at the same place twice is no error. -/
theorem HitRuns.cancel (h : HitRuns F l r F' a P) (h' : HitRuns G l s G' a P) : NoisyRuns (F + G) l (addRec r s) (F' + G') 0 := by
  induction h generalizing G s with
  | @step F F1 F' P i l r1 r2 a h1 _ ih =>
    generalize hL : i :: l = L at h'
    generalize ha : a + i.slots = b at h'
    cases h' with
    | step h2 h3 =>
      obtain ⟨rfl, rfl⟩ := List.cons.inj hL
      obtain rfl := Nat.add_right_cancel ha
      rw [addRec_append ((runs_length h1).trans (runs_length h2).symm)]
      exact .step (h1.superpose (instr_additive _) h2) (ih h3)
    | error s P hE hP h3 =>
      obtain ⟨rfl, rfl⟩ := List.cons.inj hL
      have := (List.getElem?_eq_some_iff.1 hE).1
      rw [Instr.slots] at ha
      omega
    | flip t ht h3 =>
      obtain ⟨rfl, rfl⟩ := List.cons.inj hL
      rw [Instr.slots] at ha
      omega
  | @error F F' i l rec E b P hE hP h1 =>
    generalize hL : i :: l = L at h'
    cases h' with
    | step h2 h3 =>
      obtain ⟨rfl, rfl⟩ := List.cons.inj hL
      have := (List.getElem?_eq_some_iff.1 hE).1
      rw [Instr.slots] at this
      omega
    | error _ _ hE hP h3 =>
      obtain ⟨rfl, rfl⟩ := List.cons.inj hL
      have h := h1.superpose h3
      rw [show F + P + (G + P) = F + G by rw [add_add_add_comm, frame_add_self, add_zero]] at h
      exact h
    | flip t ht h3 =>
      obtain ⟨rfl, rfl⟩ := List.cons.inj hL
      have := (List.getElem?_eq_some_iff.1 hE).1
      omega
  | @flip F F' i l rec t ht h1 =>
    generalize hL : i :: l = L at h'
    generalize ha : i.errors.length + t = b at h'
    generalize hz : (0 : Frame) = Z at h'
    cases h' with
    | step h2 h3 =>
      obtain ⟨rfl, rfl⟩ := List.cons.inj hL
      rw [Instr.slots] at ha
      omega
    | error _ _ hE hP h3 =>
      obtain ⟨rfl, rfl⟩ := List.cons.inj hL
      have := (List.getElem?_eq_some_iff.1 hE).1
      omega
    | flip t' ht' h3 =>
      obtain ⟨rfl, rfl⟩ := List.cons.inj hL
      obtain rfl := Nat.add_left_cancel ha
      have h := h1.superpose h3
      have e : ∀ rec rec' : List (ZMod 2), addRec (rec.modify t (· + 1)) (rec'.modify t (· + 1)) = addRec rec rec' := fun rec rec' => by
        rw [addRec_modify, addRec_comm, addRec_modify, addRec_comm]
        have h2 : ∀ z : ZMod 2, z + 1 + 1 = z := by decide
        apply List.ext_getElem?
        intro k
        rw [List.getElem?_modify, List.getElem?_modify]
        split_ifs with hk
        · cases (addRec rec rec')[k]? with
          | none => rfl
          | some z => simp [h2]
        · cases (addRec rec rec')[k]? <;> rfl
      rw [e]
      exact h

theorem errors_few {i : Instr} {E : PMF Frame} (hE : E ∈ i.errors) : ∃ S : Finset Frame, S.card ≤ 15 ∧ ∀ P ∈ E.support, P ∈ S := by
  classical
  unfold Instr.errors at hE
  split at hE
  · obtain ⟨q, hq, rfl⟩ := List.mem_map.1 hE
    exact ⟨{_}, by simp, fun P hP => by rw [PMF.support_pure, Set.mem_singleton_iff] at hP; rw [hP, Finset.mem_singleton]⟩
  · obtain ⟨q, hq, rfl⟩ := List.mem_map.1 hE
    exact ⟨{_}, by simp, fun P hP => by rw [PMF.support_pure, Set.mem_singleton_iff] at hP; rw [hP, Finset.mem_singleton]⟩
  · obtain ⟨q, hq, rfl⟩ := List.mem_map.1 hE
    refine ⟨Finset.univ.image fun b : Basis => Frame.mul (fun _ => 0) q b.pauli, Finset.card_image_le.trans (by decide), fun P hP => ?_⟩
    rw [PMF.mem_support_map_iff] at hP
    obtain ⟨b, -, rfl⟩ := hP
    exact Finset.mem_image_of_mem _ (Finset.mem_univ b)
  · obtain ⟨x, hx, rfl⟩ := List.mem_map.1 hE
    refine ⟨({0}ᶜ : Finset (Pauli × Pauli)).image fun e => Frame.mul (Frame.mul (fun _ => 0) x.1 e.1) x.2 e.2, Finset.card_image_le.trans (by decide), fun P hP => ?_⟩
    rw [PMF.mem_support_map_iff] at hP
    obtain ⟨e, he, rfl⟩ := hP
    exact Finset.mem_image_of_mem _ ((PMF.mem_support_uniformOfFinset_iff _ _).1 he)
  · rw [List.mem_singleton] at hE
    subst hE
    exact ⟨{_}, by simp, fun P hP => by rw [PMF.support_pure, Set.mem_singleton_iff] at hP; rw [hP, Finset.mem_singleton]⟩
  · simp at hE

/-- A place is hit by one of at most fifteen errors. -/
theorem hits_few : ∀ (l : List Instr) (a : Nat), ∃ S : Finset Frame, S.card ≤ 15 ∧ ∀ F r F' P, HitRuns F l r F' a P → P ∈ S
  | [], a => ⟨∅, by simp, fun F r F' P h => by cases h⟩
  | i :: l, a => by
    by_cases h1 : a < i.errors.length
    · obtain ⟨S, hS, h⟩ := errors_few (List.getElem_mem h1)
      refine ⟨S, hS, fun F r F' P hr => ?_⟩
      generalize hL : i :: l = L at hr
      cases hr with
      | step h2 h3 =>
        obtain ⟨rfl, rfl⟩ := List.cons.inj hL
        rw [Instr.slots] at h1
        omega
      | error _ _ hE hP h3 =>
        obtain ⟨rfl, rfl⟩ := List.cons.inj hL
        rw [List.getElem?_eq_getElem h1] at hE
        obtain rfl := Option.some.inj hE
        exact h P hP
      | flip t ht h3 =>
        obtain ⟨rfl, rfl⟩ := List.cons.inj hL
        omega
    · by_cases h2 : a < i.slots
      · refine ⟨{0}, by simp, fun F r F' P hr => ?_⟩
        generalize hL : i :: l = L at hr
        cases hr with
        | step h2 h3 =>
          obtain ⟨rfl, rfl⟩ := List.cons.inj hL
          omega
        | error _ _ hE hP h3 =>
          obtain ⟨rfl, rfl⟩ := List.cons.inj hL
          exact absurd (List.getElem?_eq_some_iff.1 hE).1 h1
        | flip t ht h3 => exact Finset.mem_singleton_self _
      · obtain ⟨S, hS, h⟩ := hits_few l (a - i.slots)
        refine ⟨S, hS, fun F r F' P hr => ?_⟩
        generalize hL : i :: l = L at hr
        cases hr with
        | step h4 h3 =>
          obtain ⟨rfl, rfl⟩ := List.cons.inj hL
          rw [Nat.add_sub_cancel] at h
          exact h _ _ _ _ h3
        | error _ _ hE hP h3 =>
          obtain ⟨rfl, rfl⟩ := List.cons.inj hL
          exact absurd (List.getElem?_eq_some_iff.1 hE).1 h1
        | flip t ht h3 =>
          obtain ⟨rfl, rfl⟩ := List.cons.inj hL
          rw [Instr.slots] at h2
          omega

end Honeycomb
