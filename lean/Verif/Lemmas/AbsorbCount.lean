import Verif.Lemmas.NoiseEvents

/-!
# How many faults an ancilla spreads

`absorb` (`Absorb.lean`) for a single ancilla, with counts: until it is reset, every operation on it spreads at most two faults and flips at most one result.
-/

namespace Honeycomb
variable {B : Nat → Prop} {F F' G G' : Frame} {rec rec' : List (ZMod 2)} {n c : Nat}

/-- The actions on `c` are resets. -/
def Renews (c : Nat) (as : List Action) : Prop := ∀ a ∈ as, a.On c → ∃ b, a = .reset b c

theorem renew_actions {as : List Action} (hc : Renews c as) (hr : Runs F' as rec' G') (hF : ∀ q, q ≠ c → F' q = F q) :
    ∃ G, Runs F as rec' G ∧ (∀ q, q ≠ c → G' q = G q) ∧ ((∃ a ∈ as, a.On c) ∨ F' c = F c → G' c = G c) := by
  induction hr generalizing F with
  | nil F' => exact ⟨F, .nil F, hF, by simp⟩
  | @clifford1 F0 F1 rec as f q hr ih =>
    have hq : q ≠ c := fun e => by
      obtain ⟨b, hb⟩ := hc _ List.mem_cons_self (show (Action.clifford1 f q).On c from e.symm)
      cases hb
    obtain ⟨G, h1, h2, h3⟩ := ih (fun a ha => hc a (List.mem_cons_of_mem _ ha)) (F := F.set q (f (F q))) (fun x hx => by
      rw [set_apply, set_apply]
      split_ifs with e
      · rw [hF q hq]
      · exact hF x hx)
    refine ⟨G, .clifford1 f q h1, h2, fun h => h3 ?_⟩
    rcases h with ⟨a, ha, hon⟩ | h
    · rcases List.mem_cons.1 ha with rfl | ha
      · exact absurd (show c = q from hon).symm hq
      · exact .inl ⟨a, ha, hon⟩
    · right
      rw [set_apply, set_apply, if_neg (Ne.symm hq), if_neg (Ne.symm hq), h]
  | @reset F0 F1 rec as b q s hr ih =>
    obtain ⟨G, h1, h2, h3⟩ := ih (fun a ha => hc a (List.mem_cons_of_mem _ ha)) (F := (F.set q 0).kick s [(b, q)]) (fun x hx => by
      refine kick_same ?_
      rw [set_apply, set_apply]
      split_ifs with e
      · rfl
      · exact hF x hx)
    refine ⟨G, .reset b q s h1, h2, fun h => h3 ?_⟩
    by_cases hq : c = q
    · right
      refine kick_same ?_
      rw [set_apply, set_apply, if_pos hq, if_pos hq]
    · rcases h with ⟨a, ha, hon⟩ | h
      · rcases List.mem_cons.1 ha with rfl | ha
        · exact absurd (show c = q from hon) hq
        · exact .inl ⟨a, ha, hon⟩
      · right
        refine kick_same ?_
        rw [set_apply, set_apply, if_neg hq, if_neg hq, h]
  | @measure F0 F1 rec as P s hr ih =>
    have hP : ∀ x ∈ P, x.2 ≠ c := fun x hx e => by
      obtain ⟨b, hb⟩ := hc _ List.mem_cons_self (show (Action.measure P).On c from ⟨x, hx, e.symm⟩)
      cases hb
    obtain ⟨G, h1, h2, h3⟩ := ih (fun a ha => hc a (List.mem_cons_of_mem _ ha)) (F := F.kick s P) (fun x hx => kick_same (hF x hx))
    refine ⟨G, ?_, h2, fun h => h3 ?_⟩
    · rw [show F0.flips P = F.flips P from flips_same fun x hx => hF _ (hP x hx)]
      exact .measure P s h1
    · rcases h with ⟨a, ha, hon⟩ | h
      · rcases List.mem_cons.1 ha with rfl | ha
        · obtain ⟨y, hy, e⟩ := hon
          exact absurd e.symm (hP y hy)
        · exact .inl ⟨a, ha, hon⟩
      · exact .inr (kick_same h)
  | @control F0 F1 rec as P Q a b hr ih =>
    have hab : a ≠ c ∧ b ≠ c := by
      constructor <;> intro e
      · obtain ⟨b, hb⟩ := hc _ List.mem_cons_self (show (Action.control P Q a b).On c from .inl e.symm)
        cases hb
      · obtain ⟨b, hb⟩ := hc _ List.mem_cons_self (show (Action.control P Q a b).On c from .inr e.symm)
        cases hb
    have same : ∀ x, F0 x = F x → ((F0.kick (anti (F0 b) Q.pauli) [(P, a)]).kick (anti (F0 a) P.pauli) [(Q, b)]) x =
        ((F.kick (anti (F b) Q.pauli) [(P, a)]).kick (anti (F a) P.pauli) [(Q, b)]) x := fun x hx => by
      rw [hF a hab.1, hF b hab.2]
      exact kick_same (kick_same hx)
    obtain ⟨G, h1, h2, h3⟩ := ih (fun a ha => hc a (List.mem_cons_of_mem _ ha))
      (F := (F.kick (anti (F b) Q.pauli) [(P, a)]).kick (anti (F a) P.pauli) [(Q, b)]) (fun x hx => same x (hF x hx))
    refine ⟨G, .control P Q a b h1, h2, fun h => h3 ?_⟩
    rcases h with ⟨a', ha, hon⟩ | h
    · rcases List.mem_cons.1 ha with rfl | ha
      · rcases hon with e | e
        · exact absurd e.symm hab.1
        · exact absurd e.symm hab.2
      · exact .inl ⟨a', ha, hon⟩
    · exact .inr (same c h)

open Classical in
/-- How many of the actions are on `c`. -/
noncomputable def touches (c : Nat) (as : List Action) : Nat := as.countP fun a => a.On c

theorem touches_le {as : List Action} (hd : as.Pairwise fun a b => ∀ q, a.On q → ¬ b.On q) : touches c as ≤ 1 := by
  classical
  induction as with
  | nil => simp [touches]
  | cons a as ih =>
    rw [List.pairwise_cons] at hd
    rw [touches, List.countP_cons]
    by_cases h : a.On c
    · have : as.countP (fun a => a.On c) = 0 := List.countP_eq_zero.2 fun b hb => by simpa using hd.1 b hb c h
      rw [this]
      split_ifs <;> simp
    · rw [if_neg (by simpa using h)]
      exact ih hd.2

theorem absorb_counted {as : List Action} (hd : as.Pairwise fun a b => ∀ q, a.On q → ¬ b.On q) (ht : ∀ a ∈ as, a.Tied B (· = c))
    (hr : Runs F' as rec' G') {qs : List Nat} (hF : Astray B (· = c) qs F F') (hq : ∀ q ∈ qs, ∀ a ∈ as, ¬ a.On q) :
    ∃ rec G qs', Runs F as rec G ∧ Astray B (· = c) qs' G G' ∧ RecDiff (· = c) (as.filterMap Action.result?) rec rec' ∧
      qs'.length ≤ qs.length + 2 * touches c as ∧ diffs rec rec' ≤ touches c as := by
  classical
  have hcons : ∀ (a : Action) (as : List Action), touches c (a :: as) = touches c as + if a.On c then 1 else 0 := fun a as => by
    rw [touches, List.countP_cons, touches]
    simp
  induction hr generalizing F qs with
  | nil F' => exact ⟨[], F, qs, .nil F, hF, .nil, by simp [touches], by simp [diffs]⟩
  | @clifford1 F0 F1 rec as f q hr ih =>
    rw [List.pairwise_cons] at hd
    obtain ⟨r, G, qs', h1, h2, h3, h4, h5⟩ := ih hd.2 (fun a ha => ht a (by simp [ha])) (F := F.set q (f (F q))) (qs := qs) ⟨fun x hx hc => by
      rw [set_apply, set_apply]
      split_ifs with e
      · subst e; rw [hF.eq x hx hc]
      · exact hF.eq x hx hc, hF.sub⟩ (fun x hx a ha => hq x hx a (by simp [ha]))
    exact ⟨r, G, qs', .clifford1 f q h1, h2, h3, by rw [hcons]; omega, by rw [hcons]; omega⟩
  | @reset F0 F1 rec as b q s hr ih =>
    rw [List.pairwise_cons] at hd
    obtain ⟨r, G, qs', h1, h2, h3, h4, h5⟩ := ih hd.2 (fun a ha => ht a (by simp [ha])) (F := (F.set q 0).kick s [(b, q)]) (qs := qs) ⟨fun x hx hc => by
      refine kick_same ?_
      rw [set_apply, set_apply]
      split_ifs with e
      · rfl
      · exact hF.eq x hx hc, hF.sub⟩ (fun x hx a ha => hq x hx a (by simp [ha]))
    exact ⟨r, G, qs', .reset b q s h1, h2, h3, by rw [hcons]; omega, by rw [hcons]; omega⟩
  | @measure F0 F1 rec as P s hr ih =>
    rw [List.pairwise_cons] at hd
    obtain ⟨r, G, qs', h1, h2, h3, h4, h5⟩ := ih hd.2 (fun a ha => ht a (by simp [ha])) (F := F.kick s P) (qs := qs)
      ⟨fun x hx hc => kick_same (hF.eq x hx hc), hF.sub⟩ (fun x hx a ha => hq x hx a (by simp [ha]))
    have hon : F.flips P ≠ F0.flips P → ∃ x ∈ P, x.2 = c := fun hne => by
      by_contra hc
      push Not at hc
      refine hne (flips_same fun x hx => (hF.eq x.2 (fun hm => ?_) (hc x hx)).symm)
      exact hq _ hm _ List.mem_cons_self ⟨x, hx, rfl⟩
    refine ⟨_ :: r, G, qs', .measure P s h1, h2, .cons hon h3, by rw [hcons]; omega, ?_⟩
    rw [hcons, diffs]
    by_cases hne : F.flips P = F0.flips P
    · rw [if_pos hne]; omega
    · obtain ⟨x, hx, e⟩ := hon hne
      rw [if_neg hne, if_pos (show (Action.measure P).On c from ⟨x, hx, e.symm⟩)]
      omega
  | @control F0 F1 rec as P Q a b hr ih =>
    rw [List.pairwise_cons] at hd
    have hon : ∀ x, x = a ∨ x = b → x ∉ qs := fun x hx hm => hq x hm _ List.mem_cons_self hx
    have tied := ht _ (List.mem_cons_self : Action.control P Q a b ∈ _)
    set F2 := (F.kick (anti (F b) Q.pauli) [(P, a)]).kick (anti (F a) P.pauli) [(Q, b)] with hF2
    set F3 := (F0.kick (anti (F0 b) Q.pauli) [(P, a)]).kick (anti (F0 a) P.pauli) [(Q, b)] with hF3
    have hoff : ∀ x, x ≠ a → x ≠ b → x ∉ qs → x ≠ c → F3 x = F2 x := by
      intro x ha hb hx hc
      rw [hF2, hF3, kick_away (by simpa using hb), kick_away (by simpa using ha), kick_away (by simpa using hb), kick_away (by simpa using ha)]
      exact hF.eq x hx hc
    have hstep : ∃ qs2, Astray B (· = c) qs2 F2 F3 ∧ (∀ q ∈ qs2, ∀ a ∈ as, ¬ a.On q) ∧
        qs2.length ≤ qs.length + 2 * if (Action.control P Q a b).On c then 1 else 0 := by
      by_cases hab : a = c ∨ b = c
      · refine ⟨qs ++ ([a, b].filter fun x => decide (B x)), ⟨fun x hx hc => ?_, fun x hx => ?_⟩, fun x hx y hy => ?_, ?_⟩
        · simp only [List.mem_append, List.mem_filter, List.mem_cons, List.not_mem_nil, or_false, decide_eq_true_eq, not_or, not_and] at hx
          by_cases ha : x = a
          · subst ha
            exact absurd (tied.2 (hab.resolve_left hc)) (hx.2 (.inl rfl))
          · by_cases hb : x = b
            · subst hb
              exact absurd (tied.1 (hab.resolve_right hc)) (hx.2 (.inr rfl))
            · exact hoff x ha hb hx.1 hc
        · rcases List.mem_append.1 hx with hx | hx
          · exact hF.sub x hx
          · simpa using (List.mem_filter.1 hx).2
        · rcases List.mem_append.1 hx with hx | hx
          · exact hq x hx y (by simp [hy])
          · have hx := (List.mem_filter.1 hx).1
            have hx : x = a ∨ x = b := by simpa using hx
            exact hd.1 y hy x hx
        · rw [if_pos (show (Action.control P Q a b).On c from hab.imp Eq.symm Eq.symm), List.length_append]
          have := List.length_filter_le (fun x => decide (B x)) [a, b]
          simp only [List.length_cons, List.length_nil] at this
          omega
      · push Not at hab
        refine ⟨qs, ⟨fun x hx hc => ?_, hF.sub⟩, fun x hx y hy => hq x hx y (by simp [hy]), by omega⟩
        have ea := hF.eq a (hon a (.inl rfl)) hab.1
        have eb := hF.eq b (hon b (.inr rfl)) hab.2
        rw [hF2, hF3, ea, eb]
        exact kick_same (kick_same (hF.eq x hx hc))
    obtain ⟨qs2, h4, h5, h6⟩ := hstep
    obtain ⟨r, G, qs', h1, h2, h3, h7, h8⟩ := ih hd.2 (fun a ha => ht a (by simp [ha])) h4 h5
    exact ⟨r, G, qs', .control P Q a b h1, h2, h3, by rw [hcons]; omega, by rw [hcons]; omega⟩

open Classical in
/-- How many operations act on `c` until it is reset. -/
noncomputable def live (c : Nat) : List Instr → Nat
  | [] => 0
  | i :: l => if Renews c i.actions then (if ∃ a ∈ i.actions, a.On c then 0 else live c l) else live c l + 1

/-- Faults on the ancilla `c` can be replaced by faults on the qubits of `B` and flips of results of `c`, not many if the ancilla is reset soon. -/
theorem absorb_count {l : List Instr} (hd : ∀ i ∈ l, i.actions.Pairwise fun a b => ∀ q, a.On q → ¬ b.On q)
    (ht : ∀ i ∈ l, ∀ a ∈ i.actions, a.Tied B (· = c)) {L : Nat} (hL : ∀ s, s <:+ l → live c s ≤ L)
    (hr : FaultyRuns (fun q => B q ∨ q = c) F' l rec' G' n) (hF : ∀ q, q ≠ c → F' q = F q) :
    ∃ rec G m, FaultyRuns B F l rec G m ∧ RecDiff (· = c) (measured l) rec rec' ∧
      (m ≤ n * (1 + 2 * L) + 2 * live c l ∧ diffs rec rec' ≤ n * L + live c l) ∧
      (F' c = F c → m ≤ n * (1 + 2 * L) ∧ diffs rec rec' ≤ n * L) := by
  induction hr generalizing F with
  | nil F' => exact ⟨[], F, 0, .nil F, .nil, by simp [diffs], by simp [diffs]⟩
  | @step F0 F1 F2 i l r1 r2 n h1 h2 ih =>
    have ih := fun {F : Frame} => ih (F := F) (fun j hj => hd j (by simp [hj])) (fun j hj => ht j (by simp [hj])) (fun s hs => hL s (hs.trans (List.suffix_cons _ _)))
    have hlen := runs_length h1
    rw [results_actions] at hlen
    by_cases hren : Renews c i.actions
    · obtain ⟨G, g1, g2, g3⟩ := renew_actions hren h1 hF
      obtain ⟨rr, G2, m, b1, b2, b3, b4⟩ := ih g2
      have hdf : diffs (r1 ++ rr) (r1 ++ r2) = diffs rr r2 := by rw [diffs_append rfl, diffs_self, Nat.zero_add]
      refine ⟨r1 ++ rr, G2, m, .step g1 b1, ?_, ?_, fun h => ?_⟩
      · rw [measured, List.flatMap_cons]
        exact (RecDiff.refl hlen).append b2
      · rw [hdf, live, if_pos hren]
        split_ifs with hon
        · exact b4 (g3 (.inl hon))
        · exact b3
      · rw [hdf]
        exact b4 (g3 (.inr h))
    · by_cases hc : F0 c = F c
      · have e : F0 = F := funext fun q => by
          by_cases hq : q = c
          · rw [hq, hc]
          · exact hF q hq
        subst e
        obtain ⟨rr, G2, m, b1, b2, -, b4⟩ := ih (F := F1) (fun _ _ => rfl)
        have hdf : diffs (r1 ++ rr) (r1 ++ r2) = diffs rr r2 := by rw [diffs_append rfl, diffs_self, Nat.zero_add]
        have b4 := b4 rfl
        refine ⟨r1 ++ rr, G2, m, .step h1 b1, ?_, ?_, fun h => ?_⟩
        · rw [measured, List.flatMap_cons]
          exact (RecDiff.refl hlen).append b2
        · rw [hdf]; omega
        · rw [hdf]; exact b4
      · obtain ⟨r, G, qs, a1, a2, a3, a4, a5⟩ := absorb_counted (hd i (by simp)) (ht i (by simp)) h1 (qs := []) ⟨fun q _ hq => hF q hq, by simp⟩ (by simp)
        rw [results_actions] at a3
        have htou := touches_le (c := c) (hd i (by simp))
        have hnear : Near qs G fun q => if q ∈ qs then F1 q else G q := fun q hq => if_neg hq
        obtain ⟨rr, G2, m, b1, b2, b3, -⟩ := ih (F := fun q => if q ∈ qs then F1 q else G q) (fun q hc => by
            by_cases hq : q ∈ qs
            · rw [if_pos hq]
            · rw [if_neg hq]; exact a2.eq q hq hc)
        refine ⟨r ++ rr, G2, _, .step a1 (b1.near hnear a2.sub), ?_, ?_, fun h => absurd h hc⟩
        · rw [measured, List.flatMap_cons]
          exact a3.append b2
        · rw [live, if_neg hren, diffs_append (by rw [a3.lengths.1, a3.lengths.2])]
          simp only [List.length_nil] at a4
          omega
  | @fault F0 F1 l rec n q p hq h ih =>
    have hl := hL l (List.suffix_refl l)
    by_cases hc : q = c
    · obtain ⟨r, G, m, b1, b2, b3, b4⟩ := ih hd ht hL (F := F) (fun x hx => by
        rw [Frame.mul, if_neg (fun e : x = q => hx (e.trans hc))]
        exact hF x hx)
      refine ⟨r, G, m, b1, b2, ?_, fun _ => ?_⟩ <;> rw [Nat.succ_mul n, Nat.succ_mul n] <;> omega
    · obtain ⟨r, G, m, b1, b2, b3, b4⟩ := ih hd ht hL (F := F.mul q p) (fun x hx => by
        rw [Frame.mul, Frame.mul, hF x hx])
      refine ⟨r, G, m + 1, .fault q p (hq.resolve_right hc) b1, b2, ?_, fun e => ?_⟩
      · rw [Nat.succ_mul n, Nat.succ_mul n]; omega
      · have := b4 (by rw [Frame.mul, Frame.mul, if_neg (Ne.symm hc), if_neg (Ne.symm hc), e])
        rw [Nat.succ_mul n, Nat.succ_mul n]; omega

end Honeycomb
