import Verif.Lemmas.FaultyNoise
import Verif.Spec.Damage

/-!
# Faults on ancillas

A fault on an ancilla is the same as faults on the data qubits it is later coupled to and flips of its later results.
-/

namespace Honeycomb
variable {B C S T : Nat → Prop} {F F' G G' : Frame} {rec rec' : List (ZMod 2)} {n : Nat}

/-- Records that differ only in results of measurements that involve a qubit of `S`. -/
inductive RecDiff (S : Nat → Prop) : List (List (Basis × Nat)) → List (ZMod 2) → List (ZMod 2) → Prop
  | nil : RecDiff S [] [] []
  | cons {P ms r r' a b} : (a ≠ b → ∃ x ∈ P, S x.2) → RecDiff S ms r r' → RecDiff S (P :: ms) (a :: r) (b :: r')

theorem RecDiff.mono {ms r r'} (h : RecDiff S ms r r') (hS : ∀ q, S q → T q) : RecDiff T ms r r' := by
  induction h with
  | nil => exact .nil
  | cons h _ ih => exact .cons (fun e => by obtain ⟨x, hx, hs⟩ := h e; exact ⟨x, hx, hS _ hs⟩) ih

theorem RecDiff.append {ms ms' r r' s s'} (h : RecDiff S ms r r') (h' : RecDiff S ms' s s') : RecDiff S (ms ++ ms') (r ++ s) (r' ++ s') := by
  induction h with
  | nil => exact h'
  | cons h _ ih => exact .cons h ih

theorem RecDiff.trans {ms r r' r''} (h : RecDiff S ms r r') (h' : RecDiff S ms r' r'') : RecDiff S ms r r'' := by
  induction h generalizing r'' with
  | nil => exact h'
  | @cons P ms r r' a b h _ ih =>
    cases h' with
    | @cons _ _ _ _ _ c h1 h2 =>
      refine .cons (fun e => ?_) (ih h2)
      by_cases hab : a = b
      · exact h1 (hab ▸ e)
      · exact h hab

theorem RecDiff.lengths {ms r r'} (h : RecDiff S ms r r') : r.length = ms.length ∧ r'.length = ms.length := by
  induction h with
  | nil => simp
  | cons _ _ ih => simp [ih]

theorem RecDiff.get {ms r r'} (h : RecDiff S ms r r') (t : Nat) (ht : r'[t]? ≠ r[t]?) : ∃ P, ms[t]? = some P ∧ ∃ x ∈ P, S x.2 := by
  induction h generalizing t with
  | nil => simp at ht
  | @cons P ms r r' a b h _ ih =>
    cases t with
    | zero =>
      simp only [List.getElem?_cons_zero, ne_eq, Option.some.injEq] at ht
      exact ⟨P, by simp, h (fun e => ht e.symm)⟩
    | succ t =>
      simp only [List.getElem?_cons_succ] at ht ⊢
      exact ih t ht

theorem RecDiff.refl : ∀ {ms : List (List (Basis × Nat))} {r : List (ZMod 2)}, r.length = ms.length → RecDiff S ms r r
  | [], [], _ => .nil
  | [], _ :: _, h => by simp at h
  | _ :: _, [], h => by simp at h
  | P :: ms, a :: r, h => .cons (fun e => absurd rfl e) (.refl (by simpa using h))

theorem RecDiff.modify : ∀ {ms : List (List (Basis × Nat))} {r r' : List (ZMod 2)}, RecDiff S ms r r' → ∀ {t : Nat} {f : ZMod 2 → ZMod 2},
    (∀ P, ms[t]? = some P → ∃ x ∈ P, S x.2) → RecDiff S ms r (r'.modify t f)
  | [], _, _, .nil, t, f, _ => by simp; exact .nil
  | P :: ms, _, _, .cons h h', 0, f, ht => by
    rw [List.modify_zero_cons]
    exact .cons (fun _ => ht P (by simp)) h'
  | P :: ms, _, _, .cons h h', t + 1, f, ht => by
    rw [List.modify_succ_cons]
    exact .cons h (h'.modify fun Q hQ => ht Q (by simpa using hQ))

/-- The qubits an action acts on. -/
def Action.On : Action → Nat → Prop
  | .clifford1 _ q, x => x = q
  | .control _ _ a b, x => x = a ∨ x = b
  | .reset _ q, x => x = q
  | .measure P, x => ∃ y ∈ P, x = y.2

/-- What an action measures. -/
def Action.result? : Action → Option (List (Basis × Nat))
  | .measure P => some P
  | _ => none

/-- Two-qubit gates that touch a qubit of `C` act on a qubit of `B` on the other side. -/
def Action.Tied (B C : Nat → Prop) : Action → Prop
  | .control _ _ a b => (C a → B b) ∧ (C b → B a)
  | _ => True

/-- The frames differ only on qubits of `C` and on some qubits `qs` of `B`. -/
structure Astray (B C : Nat → Prop) (qs : List Nat) (F F' : Frame) : Prop where
  eq : ∀ q, q ∉ qs → ¬ C q → F' q = F q
  sub : ∀ q ∈ qs, B q

theorem kick_same {r : ZMod 2} {P : List (Basis × Nat)} {F G : Frame} {q : Nat} (h : F q = G q) : F.kick r P q = G.kick r P q := by
  induction P generalizing F G with
  | nil => exact h
  | cons x P ih =>
    rw [Frame.kick, List.foldl_cons, Frame.kick, List.foldl_cons]
    refine ih ?_
    rw [Frame.mul, Frame.mul]
    split_ifs
    · rw [h]
    · exact h

theorem kick_away {r : ZMod 2} {P : List (Basis × Nat)} {F : Frame} {q : Nat} (h : ∀ x ∈ P, q ≠ x.2) : F.kick r P q = F q := by
  induction P generalizing F with
  | nil => rfl
  | cons x P ih =>
    rw [Frame.kick, List.foldl_cons]
    refine (ih fun y hy => h y (by simp [hy])).trans ?_
    rw [Frame.mul, if_neg (h x (by simp))]

theorem set_apply (F : Frame) (q : Nat) (p : Pauli) (x : Nat) : F.set q p x = if x = q then p else F x := rfl

theorem flips_same {P : List (Basis × Nat)} {F G : Frame} (h : ∀ x ∈ P, F x.2 = G x.2) : F.flips P = G.flips P := by
  rw [Frame.flips, Frame.flips]
  exact congrArg List.sum (List.map_congr_left fun x hx => by rw [h x hx])

/-- The actions of one instruction, with and without errors on ancillas `C`. -/
theorem absorb_actions {as : List Action} (hd : as.Pairwise fun a b => ∀ q, a.On q → ¬ b.On q) (ht : ∀ a ∈ as, a.Tied B C)
    (hr : Runs F' as rec' G') {qs : List Nat} (hF : Astray B C qs F F') (hq : ∀ q ∈ qs, ∀ a ∈ as, ¬ a.On q) :
    ∃ rec G qs', Runs F as rec G ∧ Astray B C qs' G G' ∧ RecDiff C (as.filterMap Action.result?) rec rec' := by
  induction hr generalizing F qs with
  | nil F' => exact ⟨[], F, qs, .nil F, hF, .nil⟩
  | @clifford1 F0 F1 rec as f q hr ih =>
    rw [List.pairwise_cons] at hd
    obtain ⟨r, G, qs', h1, h2, h3⟩ := ih hd.2 (fun a ha => ht a (by simp [ha])) (F := F.set q (f (F q))) (qs := qs) ⟨fun x hx hc => by
      rw [set_apply, set_apply]
      split_ifs with e
      · subst e; rw [hF.eq x hx hc]
      · exact hF.eq x hx hc, hF.sub⟩ (fun x hx a ha => hq x hx a (by simp [ha]))
    exact ⟨r, G, qs', .clifford1 f q h1, h2, h3⟩
  | @reset F0 F1 rec as b q s hr ih =>
    rw [List.pairwise_cons] at hd
    obtain ⟨r, G, qs', h1, h2, h3⟩ := ih hd.2 (fun a ha => ht a (by simp [ha])) (F := (F.set q 0).kick s [(b, q)]) (qs := qs) ⟨fun x hx hc => by
      refine kick_same ?_
      rw [set_apply, set_apply]
      split_ifs with e
      · rfl
      · exact hF.eq x hx hc, hF.sub⟩ (fun x hx a ha => hq x hx a (by simp [ha]))
    exact ⟨r, G, qs', .reset b q s h1, h2, h3⟩
  | @measure F0 F1 rec as P s hr ih =>
    rw [List.pairwise_cons] at hd
    obtain ⟨r, G, qs', h1, h2, h3⟩ := ih hd.2 (fun a ha => ht a (by simp [ha])) (F := F.kick s P) (qs := qs)
      ⟨fun x hx hc => kick_same (hF.eq x hx hc), hF.sub⟩ (fun x hx a ha => hq x hx a (by simp [ha]))
    refine ⟨_ :: r, G, qs', .measure P s h1, h2, ?_⟩
    refine .cons (fun hne => ?_) h3
    by_contra hc
    push Not at hc
    refine hne (flips_same fun x hx => (hF.eq x.2 (fun hm => ?_) (hc x hx)).symm)
    exact hq _ hm _ List.mem_cons_self ⟨x, hx, rfl⟩
  | @control F0 F1 rec as P Q a b hr ih =>
    rw [List.pairwise_cons] at hd
    have hon : ∀ x, x = a ∨ x = b → x ∉ qs := fun x hx hm => hq x hm _ List.mem_cons_self hx
    have tied := ht _ (List.mem_cons_self : Action.control P Q a b ∈ _)
    set F2 := (F.kick (anti (F b) Q.pauli) [(P, a)]).kick (anti (F a) P.pauli) [(Q, b)] with hF2
    set F3 := (F0.kick (anti (F0 b) Q.pauli) [(P, a)]).kick (anti (F0 a) P.pauli) [(Q, b)] with hF3
    have hoff : ∀ x, x ≠ a → x ≠ b → x ∉ qs → ¬ C x → F3 x = F2 x := by
      intro x ha hb hx hc
      rw [hF2, hF3, kick_away (by simpa using hb), kick_away (by simpa using ha), kick_away (by simpa using hb), kick_away (by simpa using ha)]
      exact hF.eq x hx hc
    have hstep : ∃ qs2, Astray B C qs2 F2 F3 ∧ ∀ q ∈ qs2, ∀ a ∈ as, ¬ a.On q := by
      by_cases hab : C a ∨ C b
      · refine ⟨qs ++ ([a, b].filter fun x => @decide (B x) (Classical.dec _)), ⟨fun x hx hc => ?_, fun x hx => ?_⟩, fun x hx y hy => ?_⟩
        · simp only [List.mem_append, List.mem_filter, List.mem_cons, List.not_mem_nil, or_false, decide_eq_true_eq, not_or, not_and] at hx
          by_cases ha : x = a
          · subst ha
            exact absurd (tied.2 (hab.resolve_left hc)) (hx.2 (.inl rfl))
          · by_cases hb : x = b
            · subst hb
              exact absurd (tied.1 (hab.resolve_right hc)) (hx.2 (.inr rfl))
            · exact hoff x ha hb hx.1 hc
        · rcases List.mem_append.1 hx with hx | hx
          · exact hF.sub x hx
          · simpa using (List.mem_filter.1 hx).2
        · rcases List.mem_append.1 hx with hx | hx
          · exact hq x hx y (by simp [hy])
          · have hx := (List.mem_filter.1 hx).1
            have hx : x = a ∨ x = b := by simpa using hx
            exact hd.1 y hy x hx
      · push Not at hab
        refine ⟨qs, ⟨fun x hx hc => ?_, hF.sub⟩, fun x hx y hy => hq x hx y (by simp [hy])⟩
        have ea := hF.eq a (hon a (.inl rfl)) hab.1
        have eb := hF.eq b (hon b (.inr rfl)) hab.2
        rw [hF2, hF3, ea, eb]
        exact kick_same (kick_same (hF.eq x hx hc))
    obtain ⟨qs2, h4, h5⟩ := hstep
    obtain ⟨r, G, qs', h1, h2, h3⟩ := ih hd.2 (fun a ha => ht a (by simp [ha])) h4 h5
    exact ⟨r, G, qs', .control P Q a b h1, h2, h3⟩

/-- What an instruction measures is what its actions measure. -/
theorem results_actions (i : Instr) : i.actions.filterMap Action.result? = i.measures := by
  rcases i with ⟨g, ts, as⟩
  have h1 : ∀ l : List (List (Basis × Nat)), (l.map Action.measure).filterMap Action.result? = l := by
    intro l
    rw [List.filterMap_map]
    exact (List.filterMap_congr fun x _ => rfl).trans List.filterMap_some
  have h0 : ∀ (l : List Action), (∀ a ∈ l, a.result? = none) → l.filterMap Action.result? = [] := fun l h => List.filterMap_eq_nil_iff.2 h
  cases g <;> first
    | exact h1 _
    | rfl
    | (refine h0 _ fun a ha => ?_
       simp only [Instr.actions] at ha
       obtain ⟨x, _, rfl⟩ := List.mem_map.1 ha
       rfl)

/-- Faults on ancillas `C` can be replaced by faults on the qubits of `B`, as far as the results of measurements without ancillas of `C` are concerned. -/
theorem absorb {l : List Instr} (hd : ∀ i ∈ l, i.actions.Pairwise fun a b => ∀ q, a.On q → ¬ b.On q)
    (ht : ∀ i ∈ l, ∀ a ∈ i.actions, a.Tied B C) (hr : FaultyRuns (fun q => B q ∨ C q) F' l rec' G' n) (hF : Astray B C [] F F') :
    ∃ rec G m, FaultyRuns B F l rec G m ∧ RecDiff C (measured l) rec rec' := by
  induction hr generalizing F with
  | nil F' => exact ⟨[], F, 0, .nil F, .nil⟩
  | @step F0 F1 F2 i l r1 r2 n h1 h2 ih =>
    obtain ⟨r, G, qs, a1, a2, a3⟩ := absorb_actions (hd i (by simp)) (ht i (by simp)) h1 hF (by simp)
    rw [results_actions] at a3
    have hnear : Near qs G fun q => if q ∈ qs then F1 q else G q := fun q hq => if_neg hq
    obtain ⟨rr, G2, m, b1, b2⟩ := ih (fun j hj => hd j (by simp [hj])) (fun j hj => ht j (by simp [hj])) (F := fun q => if q ∈ qs then F1 q else G q)
      ⟨fun q _ hc => by
        by_cases hq : q ∈ qs
        · rw [if_pos hq]
        · rw [if_neg hq]; exact a2.eq q hq hc, by simp⟩
    refine ⟨r ++ rr, G2, _, .step a1 (b1.near hnear a2.sub), ?_⟩
    rw [measured, List.flatMap_cons]
    exact a3.append b2
  | @fault F0 F1 l rec n q p hq h ih =>
    by_cases hc : C q
    · obtain ⟨r, G, m, b1, b2⟩ := ih hd ht (F := F) ⟨fun x hx hcx => by
        rw [Frame.mul, if_neg (fun e : x = q => hcx (e ▸ hc))]
        exact hF.eq x hx hcx, by simp⟩
      exact ⟨r, G, m, b1, b2⟩
    · obtain ⟨r, G, m, b1, b2⟩ := ih hd ht (F := F.mul q p) ⟨fun x hx hcx => by
        rw [Frame.mul, Frame.mul, hF.eq x hx hcx], by simp⟩
      exact ⟨r, G, m + 1, .fault q p (hq.resolve_right hc) b1, b2⟩

end Honeycomb
