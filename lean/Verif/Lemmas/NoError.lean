import Verif.Lemmas.Correct

/-! Without noise no error can happen. -/

namespace Honeycomb

/-- Instructions whose results cannot be flipped. -/
def Unflipped (l : List Instr) : Prop := ∀ i ∈ l, i.measures = [] ∨ i.args = []

theorem unflipped_nil : Unflipped [] := by intro i hi; simp at hi

theorem unflipped_append {a b : List Instr} (ha : Unflipped a) (hb : Unflipped b) : Unflipped (a ++ b) := by
  intro i hi
  rcases List.mem_append.1 hi with h | h
  · exact ha i h
  · exact hb i h

theorem unflipped_cons {i : Instr} {l : List Instr} (ha : Unflipped [i]) (hb : Unflipped l) : Unflipped (i :: l) := unflipped_append ha hb

theorem unflipped_ite {p : Prop} [Decidable p] {a b : List Instr} (ha : Unflipped a) (hb : Unflipped b) : Unflipped (if p then a else b) := by
  split_ifs <;> assumption

theorem unflipped_flatMap {α : Type} {l : List α} {f : α → List Instr} (h : ∀ a ∈ l, Unflipped (f a)) : Unflipped (l.flatMap f) := by
  intro i hi
  obtain ⟨a, ha, hi⟩ := List.mem_flatMap.1 hi
  exact h a ha i hi

theorem unflipped_on (g : Gate) (qs : List Nat) : Unflipped [.on g qs] := by
  intro i hi
  rw [List.mem_singleton] at hi
  subst hi
  exact .inr rfl

theorem unflipped_tick : Unflipped [.tick] := by
  intro i hi
  rw [List.mem_singleton] at hi
  subst hi
  exact .inr rfl

theorem unflipped_marks {l : List Instr} (h : ∀ i ∈ l, isMark i = true) : Unflipped l := by
  intro i hi
  have := (isMark_iff i).1 (h i hi)
  left
  rcases this with h | h | h <;> simp [Instr.measures, h]

namespace HoneycombLayout
variable {lay : HoneycombLayout}

theorem unflipped_md (k : Nat) : Unflipped (lay.emitMD k) :=
  unflipped_append (unflipped_ite unflipped_nil (unflipped_on _ _)) (unflipped_marks (emitAnn_marks k))

theorem unflipped_mpp (ts : List Target) : Unflipped [{ gate := .MPP, targets := ts }] := by
  intro i hi
  rw [List.mem_singleton] at hi
  subst hi
  exact .inr rfl

theorem unflipped_coords : Unflipped lay.qubitCoordOps := by
  intro i hi
  obtain ⟨q, _, rfl⟩ := List.mem_map.1 hi
  exact .inl rfl

macro "unflipped" : tactic => `(tactic| repeat' with_reducible first
  | exact unflipped_nil | exact unflipped_on _ _ | exact unflipped_tick | exact unflipped_md _ | exact unflipped_mpp _ | exact unflipped_coords
  | apply unflipped_append | apply unflipped_ite | (apply unflipped_flatMap; intro _ _) | apply unflipped_cons | apply_assumption)

theorem unflipped_closed (N : Nat) : Unflipped (lay.closedCircuit N) := by
  have hb : ∀ b, Unflipped (lay.basisChange b) := fun b => by unfold basisChange; unflipped
  have hc : ∀ a b, Unflipped (lay.cycleData a b) := fun a b => by unfold cycleData; unflipped
  have hr : ∀ k, Unflipped (lay.subRoundResets k) := fun k => unflipped_on _ _
  have h1 : ∀ k, Unflipped (lay.subRound2qOps k).1 := fun k => unflipped_on _ _
  have h2 : ∀ k, Unflipped (lay.subRound2qOps k).2 := fun k => unflipped_on _ _
  have ha : Unflipped lay.sd6Realign := by unfold sd6Realign; unflipped
  have hf : Unflipped (lay.emitFinal N N) := unflipped_marks fun i hi => (isMark_iff i).2 ((emitFinal_gate hi).imp_right Or.inl)
  have ho : Unflipped (lay.pc3ObsEmit N) := unflipped_marks fun i hi => (isMark_iff i).2 (Or.inr (Or.inl (pc3ObsEmit_gate hi)))
  have hall : Unflipped (lay.allRounds N) := by
    unfold allRounds sd6All pc3All em3All si1000All sd6Start sd6Emit sd6EndEmit pc3Emit em3Emit si1000Emit si1000Layer
    unflipped
  unfold closedCircuit
  refine unflipped_append (unflipped_append (unflipped_append unflipped_coords (unflipped_append ?_ (hb _))) hall) (unflipped_append (unflipped_append (hb _) (unflipped_on _ _)) hf)
  unflipped

end HoneycombLayout

/-- If no instruction is a noise channel and no result can be flipped, no error happens. -/
theorem noisyRuns_unflipped {l : List Instr} (h1 : ∀ i ∈ l, isNoise i.gate = false) (h2 : Unflipped l) {F F' : Frame} {rec : List (ZMod 2)} {n : Nat}
    (h : NoisyRuns F l rec F' n) : n = 0 ∧ Runs F (actions l) rec F' := by
  induction h with
  | nil F => exact ⟨rfl, .nil F⟩
  | @step F F1 F' i l r1 r2 n hr _ ih =>
    obtain ⟨e, h⟩ := ih (fun i hi => h1 i (List.mem_cons_of_mem _ hi)) (fun i hi => h2 i (List.mem_cons_of_mem _ hi))
    exact ⟨e, by rw [actions, List.flatMap_cons]; exact runs_append.2 ⟨_, _, _, hr, h, rfl⟩⟩
  | @error F F' i l rec n P hP _ _ =>
    have := h1 i List.mem_cons_self
    obtain ⟨g, ts, args⟩ := i
    exact absurd hP.2 (by cases g <;> simp_all [isNoise])
  | @flip F F' i l rec n t ha ht _ _ =>
    rcases h2 i List.mem_cons_self with e | e
    · rw [e] at ht; simp at ht
    · rw [e] at ha; simp at ha

namespace HoneycombLayout
variable {lay : HoneycombLayout} {d : Circuit}

/-- Without noise no error happens. -/
theorem noiseless_record (hv : lay.Valid) (hs : lay.Supported) (h0 : lay.noise = 0) (hd : lay.makeCircuit = .ok d) {n : Nat} {rec : List (ZMod 2)}
    (h : CanSample n d.flatten rec) : n = 0 ∧ CanRecord d.flatten rec := by
  obtain ⟨N, hN⟩ := Int.eq_ofNat_of_zero_le (show 0 ≤ lay.sub_rounds by have := hs.2.2.1; omega)
  obtain ⟨c, nm, d', hc, hf, hsh, hg, hno, ht, hpm, hnorm, hnm, hp, hr, hd', hmk⟩ := makeCircuit_ok hv hs hN
  obtain rfl := Except.ok.inj (hd.symm.trans hmk)
  rw [h0] at hp
  obtain ⟨d2, hd2, -, he⟩ := c26_zero_noise nm hp c none ht hr
  obtain rfl := Except.ok.inj (hd'.symm.trans hd2)
  have hdc : d.flatten = lay.closedCircuit N := by rw [he hnorm, hf]
  obtain ⟨F, F', hF, hrun⟩ := h
  have hn : ∀ i ∈ d.flatten, isNoise i.gate = false := by
    rw [hdc]
    exact fun i hi => usesGate_notNoise (goodL_closed hs N i hi).gate
  obtain ⟨e, hrun⟩ := noisyRuns_unflipped hn (hdc ▸ unflipped_closed N) hrun
  exact ⟨e, F, F', hF, hrun⟩

end HoneycombLayout
end Honeycomb
