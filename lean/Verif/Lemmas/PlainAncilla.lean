import Verif.Lemmas.AbsorbCount

/-!
# Ancillas that are never reset

In the style "PC3" an ancilla is the target of controlled X gates and is measured in the basis Z, but is not reset. After a measurement only an X error can be left
on it, which flips all further results of it in the same way and does not spread.
-/

namespace Honeycomb
variable {B : Nat → Prop} {F F' G G' : Frame} {rec rec' : List (ZMod 2)} {n c : Nat} {b b' : ZMod 2}

theorem kick_shift {r : ZMod 2} {P : List (Basis × Nat)} {F G : Frame} {q : Nat} {δ : Pauli} (h : F q = G q + δ) : F.kick r P q = G.kick r P q + δ := by
  induction P generalizing F G with
  | nil => exact h
  | cons x P ih =>
    rw [Frame.kick, List.foldl_cons, Frame.kick, List.foldl_cons]
    refine ih ?_
    rw [Frame.mul, Frame.mul]
    split_ifs
    · rw [h]; abel
    · exact h

/-- The results of `c` in the two records differ by the bit `b` at first, and this difference changes `K` times, to `b'` in the end; the other results are equal. -/
inductive Turning (c : Nat) : ZMod 2 → List (List (Basis × Nat)) → List (ZMod 2) → List (ZMod 2) → Nat → ZMod 2 → Prop
  | nil (b : ZMod 2) : Turning c b [] [] [] 0 b
  | other {b b' P ms a r r' K} : (∀ x ∈ P, x.2 ≠ c) → Turning c b ms r r' K b' → Turning c b (P :: ms) (a :: r) (a :: r') K b'
  | same {b b' P ms a r r' K} : (∃ x ∈ P, x.2 = c) → Turning c b ms r r' K b' → Turning c b (P :: ms) (a :: r) ((a + b) :: r') K b'
  | turn {b b' P ms a r r' K} (b1 : ZMod 2) : (∃ x ∈ P, x.2 = c) → Turning c b1 ms r r' K b' → Turning c b (P :: ms) (a :: r) ((a + b1) :: r') (K + 1) b'

theorem Turning.append {ms ms' r r' s s' K K'} {b'' : ZMod 2} (h : Turning c b ms r r' K b') (h' : Turning c b' ms' s s' K' b'') :
    Turning c b (ms ++ ms') (r ++ s) (r' ++ s') (K + K') b'' := by
  induction h with
  | nil b => simpa using h'
  | other hP _ ih => exact .other hP (ih h')
  | same hP _ ih => exact .same hP (ih h')
  | turn b1 hP _ ih =>
    rw [Nat.add_right_comm]
    exact .turn b1 hP (ih h')

theorem Turning.refl : ∀ {ms : List (List (Basis × Nat))} {r : List (ZMod 2)}, (∀ P ∈ ms, ∀ x ∈ P, x.2 ≠ c) → r.length = ms.length → Turning c b ms r r 0 b
  | [], [], _, _ => .nil b
  | [], _ :: _, _, h => by simp at h
  | _ :: _, [], _, h => by simp at h
  | P :: ms, a :: r, hc, h => .other (hc P (by simp)) (.refl (fun P hP => hc P (by simp [hP])) (by simpa using h))

/-- The actions on `c` are measurements in the basis Z. -/
def Reading (c : Nat) (as : List Action) : Prop := ∀ a ∈ as, a.On c → a = .measure [(.Z, c)]

/-- The actions on `c` are X gates controlled by other qubits. -/
def Controlling (c : Nat) (as : List Action) : Prop := ∀ a ∈ as, a.On c → ∃ P x, x ≠ c ∧ a = .control P .X x c

theorem plain_actions {as : List Action} (hc : ∀ a ∈ as, a.On c → a = .measure [(.Z, c)] ∨ ∃ P x, x ≠ c ∧ a = .control P .X x c) (hr : Runs F' as rec' G')
    (hF : ∀ q, q ≠ c → F' q = F q) (hb : F' c = F c + (b, 0)) :
    ∃ rec G, Runs F as rec G ∧ (∀ q, q ≠ c → G' q = G q) ∧ G' c = G c + (b, 0) ∧ Turning c b (as.filterMap Action.result?) rec rec' 0 b := by
  induction hr generalizing F with
  | nil F' => exact ⟨[], F, .nil F, hF, hb, .nil b⟩
  | @clifford1 F0 F1 rec as f q hr ih =>
    have hq : q ≠ c := fun e => by
      rcases hc _ List.mem_cons_self (show (Action.clifford1 f q).On c from e.symm) with h | ⟨P, x, -, h⟩ <;> cases h
    obtain ⟨r, G, h1, h2, h3, h4⟩ := ih (fun a ha => hc a (List.mem_cons_of_mem _ ha)) (F := F.set q (f (F q))) (fun x hx => by
      rw [set_apply, set_apply]
      split_ifs with e
      · rw [hF q hq]
      · exact hF x hx) (by rw [set_apply, set_apply, if_neg (Ne.symm hq), if_neg (Ne.symm hq), hb])
    exact ⟨r, G, .clifford1 f q h1, h2, h3, h4⟩
  | @reset F0 F1 rec as p q s hr ih =>
    have hq : q ≠ c := fun e => by
      rcases hc _ List.mem_cons_self (show (Action.reset p q).On c from e.symm) with h | ⟨P, x, -, h⟩ <;> cases h
    obtain ⟨r, G, h1, h2, h3, h4⟩ := ih (fun a ha => hc a (List.mem_cons_of_mem _ ha)) (F := (F.set q 0).kick s [(p, q)]) (fun x hx => by
      refine kick_same ?_
      rw [set_apply, set_apply]
      split_ifs with e
      · rfl
      · exact hF x hx) (kick_shift (by rw [set_apply, set_apply, if_neg (Ne.symm hq), if_neg (Ne.symm hq), hb]))
    exact ⟨r, G, .reset p q s h1, h2, h3, h4⟩
  | @measure F0 F1 rec as P s hr ih =>
    obtain ⟨r, G, h1, h2, h3, h4⟩ := ih (fun a ha => hc a (List.mem_cons_of_mem _ ha)) (F := F.kick s P) (fun x hx => kick_same (hF x hx)) (kick_shift hb)
    refine ⟨_, G, .measure P s h1, h2, h3, ?_⟩
    rw [List.filterMap_cons_some (show (Action.measure P).result? = some P from rfl)]
    by_cases hon : (Action.measure P).On c
    · rcases hc _ List.mem_cons_self hon with h | ⟨P, x, -, h⟩
      · cases h
        have : F0.flips [(.Z, c)] = F.flips [(.Z, c)] + b := by
          simp only [Frame.flips, List.map_cons, List.map_nil, List.sum_cons, List.sum_nil, hb, anti, Basis.pauli, Prod.fst_add, Prod.snd_add]
          ring
        rw [this]
        exact .same ⟨_, List.mem_singleton_self _, rfl⟩ h4
      · cases h
    · rw [show F0.flips P = F.flips P from flips_same fun x hx => hF _ fun e => hon ⟨x, hx, e.symm⟩]
      exact .other (fun x hx e => hon ⟨x, hx, e.symm⟩) h4
  | @control F0 F1 rec as P Q x y hr ih =>
    have same : ∀ {δ : Pauli} z, F0 z = F z + δ → anti (F0 y) Q.pauli = anti (F y) Q.pauli → anti (F0 x) P.pauli = anti (F x) P.pauli →
        ((F0.kick (anti (F0 y) Q.pauli) [(P, x)]).kick (anti (F0 x) P.pauli) [(Q, y)]) z =
          ((F.kick (anti (F y) Q.pauli) [(P, x)]).kick (anti (F x) P.pauli) [(Q, y)]) z + δ := fun z hz h1 h2 => by
      rw [h1, h2]
      exact kick_shift (kick_shift hz)
    have hanti : anti (F0 y) Q.pauli = anti (F y) Q.pauli ∧ anti (F0 x) P.pauli = anti (F x) P.pauli := by
      by_cases hon : (Action.control P Q x y).On c
      · rcases hc _ List.mem_cons_self hon with h | ⟨P', x', hx', h⟩
        · cases h
        · cases h
          refine ⟨?_, by rw [hF _ hx']⟩
          rw [hb]
          simp only [anti, Basis.pauli, Prod.fst_add, Prod.snd_add]
          ring
      · exact ⟨by rw [hF _ fun e => hon (.inr e.symm)], by rw [hF _ fun e => hon (.inl e.symm)]⟩
    obtain ⟨r, G, h1, h2, h3, h4⟩ := ih (fun a ha => hc a (List.mem_cons_of_mem _ ha))
      (F := (F.kick (anti (F y) Q.pauli) [(P, x)]).kick (anti (F x) P.pauli) [(Q, y)])
      (fun z hz => by simpa using same (δ := 0) z (by rw [hF z hz, add_zero]) hanti.1 hanti.2) (same c hb hanti.1 hanti.2)
    exact ⟨r, G, .control P Q x y h1, h2, h3, h4⟩

theorem read_actions {as : List Action} (hc : Reading c as) (hr : Runs F' as rec' G') (hF : ∀ q, q ≠ c → F' q = F q) (b : ZMod 2) :
    ∃ rec G b' K, Runs F as rec G ∧ (∀ q, q ≠ c → G' q = G q) ∧ Turning c b (as.filterMap Action.result?) rec rec' K b' ∧ K ≤ 1 ∧
      ((∃ a ∈ as, a.On c) → G' c = G c + (b', 0)) := by
  induction hr generalizing F with
  | nil F' => exact ⟨[], F, b, 0, .nil F, hF, .nil b, by omega, by simp⟩
  | @clifford1 F0 F1 rec as f q hr ih =>
    have hq : q ≠ c := fun e => by
      have := hc _ List.mem_cons_self (show (Action.clifford1 f q).On c from e.symm)
      cases this
    obtain ⟨r, G, b', K, h1, h2, h3, h4, h5⟩ := ih (fun a ha => hc a (List.mem_cons_of_mem _ ha)) (F := F.set q (f (F q))) (fun x hx => by
      rw [set_apply, set_apply]
      split_ifs with e
      · rw [hF q hq]
      · exact hF x hx)
    refine ⟨r, G, b', K, .clifford1 f q h1, h2, h3, h4, fun h => h5 ?_⟩
    obtain ⟨a, ha, hon⟩ := h
    rcases List.mem_cons.1 ha with rfl | ha
    · exact absurd (show c = q from hon).symm hq
    · exact ⟨a, ha, hon⟩
  | @reset F0 F1 rec as p q s hr ih =>
    have hq : q ≠ c := fun e => by
      have := hc _ List.mem_cons_self (show (Action.reset p q).On c from e.symm)
      cases this
    obtain ⟨r, G, b', K, h1, h2, h3, h4, h5⟩ := ih (fun a ha => hc a (List.mem_cons_of_mem _ ha)) (F := (F.set q 0).kick s [(p, q)]) (fun x hx => by
      refine kick_same ?_
      rw [set_apply, set_apply]
      split_ifs with e
      · rfl
      · exact hF x hx)
    refine ⟨r, G, b', K, .reset p q s h1, h2, h3, h4, fun h => h5 ?_⟩
    obtain ⟨a, ha, hon⟩ := h
    rcases List.mem_cons.1 ha with rfl | ha
    · exact absurd (show c = q from hon).symm hq
    · exact ⟨a, ha, hon⟩
  | @measure F0 F1 rec as P s hr ih =>
    by_cases hon : (Action.measure P).On c
    · have h := hc _ List.mem_cons_self hon
      cases h
      obtain ⟨b1, hb1⟩ : ∃ b1, b1 = (F0 c).1 + (F c).1 := ⟨_, rfl⟩
      obtain ⟨r, G, h1, h2, h3, h4⟩ := plain_actions (b := b1) (F := F.kick (s + (F0 c).2 + (F c).2) [(.Z, c)])
        (fun a ha hon => .inl (hc a (List.mem_cons_of_mem _ ha) hon)) hr (fun q hq => by
          rw [kick_away (by simpa using hq), kick_away (by simpa using hq), hF q hq]) (by
          simp only [Frame.kick, List.foldl_cons, List.foldl_nil, Frame.mul, if_true, Basis.pauli, mul_zero, mul_one]
          rw [hb1]
          refine Prod.ext ?_ ?_ <;> simp only [Prod.fst_add, Prod.snd_add]
          · generalize (F0 c).1 = x
            generalize (F c).1 = y
            revert x y
            decide
          · generalize (F0 c).2 = x
            generalize (F c).2 = y
            clear hr ih
            revert s x y
            decide)
      refine ⟨_, G, b1, 1, .measure _ _ h1, h2, ?_, le_rfl, fun _ => h3⟩
      rw [List.filterMap_cons_some (show (Action.measure [(Basis.Z, c)]).result? = some [(.Z, c)] from rfl)]
      have : F0.flips [(.Z, c)] = F.flips [(.Z, c)] + b1 := by
        simp only [Frame.flips, List.map_cons, List.map_nil, List.sum_cons, List.sum_nil, anti, Basis.pauli, hb1]
        generalize (F0 c).1 = x
        generalize (F c).1 = y
        generalize (F0 c).2 = z
        generalize (F c).2 = t
        revert x y z t
        decide
      rw [this]
      exact .turn b1 ⟨_, List.mem_singleton_self _, rfl⟩ h4
    · obtain ⟨r, G, b', K, h1, h2, h3, h4, h5⟩ := ih (fun a ha => hc a (List.mem_cons_of_mem _ ha)) (F := F.kick s P) (fun x hx => kick_same (hF x hx))
      refine ⟨_, G, b', K, .measure P s h1, h2, ?_, h4, fun h => h5 ?_⟩
      · rw [List.filterMap_cons_some (show (Action.measure P).result? = some P from rfl),
          show F0.flips P = F.flips P from flips_same fun x hx => hF _ fun e => hon ⟨x, hx, e.symm⟩]
        exact .other (fun x hx e => hon ⟨x, hx, e.symm⟩) h3
      · obtain ⟨a, ha, hona⟩ := h
        rcases List.mem_cons.1 ha with rfl | ha
        · exact absurd hona hon
        · exact ⟨a, ha, hona⟩
  | @control F0 F1 rec as P Q x y hr ih =>
    have hon : ¬ (Action.control P Q x y).On c := fun h => by
      have := hc _ List.mem_cons_self h
      cases this
    have hx : F0 x = F x := hF _ fun e => hon (.inl e.symm)
    have hy : F0 y = F y := hF _ fun e => hon (.inr e.symm)
    obtain ⟨r, G, b', K, h1, h2, h3, h4, h5⟩ := ih (fun a ha => hc a (List.mem_cons_of_mem _ ha))
      (F := (F.kick (anti (F y) Q.pauli) [(P, x)]).kick (anti (F x) P.pauli) [(Q, y)])
      (fun z hz => by rw [hx, hy]; exact kick_same (kick_same (hF z hz)))
    refine ⟨r, G, b', K, .control P Q x y h1, h2, h3, h4, fun h => h5 ?_⟩
    obtain ⟨a, ha, hona⟩ := h
    rcases List.mem_cons.1 ha with rfl | ha
    · exact absurd hona hon
    · exact ⟨a, ha, hona⟩

open Classical in
/-- How many operations of the kind `q` there are until one of the kind `p`. -/
noncomputable def upTo (p q : Instr → Prop) : List Instr → Nat
  | [] => 0
  | i :: l => if p i then 0 else upTo p q l + if q i then 1 else 0

/-- The operation acts on `c`. -/
def ActsOn (c : Nat) (i : Instr) : Prop := ∃ a ∈ i.actions, a.On c

/-- The operation measures or resets `c`. -/
def Pins (c : Nat) (i : Instr) : Prop := (Reading c i.actions ∨ Renews c i.actions) ∧ ActsOn c i

/-- After some resets of `c` there are measurements. -/
def Fresh (c : Nat) (l : List Instr) : Prop :=
  ∃ l1 l2, l = l1 ++ l2 ∧ (∀ i ∈ l1, Renews c i.actions ∨ Controlling c i.actions) ∧ ∀ i ∈ l2, Reading c i.actions ∨ Controlling c i.actions

theorem measures_act {i : Instr} {P : List (Basis × Nat)} (hP : P ∈ i.actions.filterMap Action.result?) {x : Basis × Nat} (hx : x ∈ P) :
    ∃ a ∈ i.actions, a.On x.2 ∧ a = .measure P := by
  obtain ⟨a, ha, h⟩ := List.mem_filterMap.1 hP
  cases a <;> simp only [Action.result?, reduceCtorEq, Option.some.injEq] at h
  subst h
  exact ⟨_, ha, ⟨x, hx, rfl⟩, rfl⟩

theorem recDiff_eq {S : Nat → Prop} {ms r r'} (h : RecDiff S ms r r') (hS : ∀ P ∈ ms, ∀ x ∈ P, ¬ S x.2) : r = r' := by
  induction h with
  | nil => rfl
  | @cons P ms r r' a b h _ ih =>
    have : a = b := by
      by_contra hne
      obtain ⟨x, hx, hs⟩ := h hne
      exact hS P (by simp) x hx hs
    rw [this, ih fun P hP => hS P (by simp [hP])]

/-- Faults on an ancilla `c` that is only measured and the target of controlled X gates, after having been reset, can be replaced by faults on the qubits of `B` and few
changes in the difference of its results, not many if the ancilla is measured soon. -/
theorem absorb_plain {l : List Instr} (hd : ∀ i ∈ l, i.actions.Pairwise fun a b => ∀ q, a.On q → ¬ b.On q)
    (ht : ∀ i ∈ l, ∀ a ∈ i.actions, a.Tied B (· = c)) (hp : (∀ i ∈ l, Reading c i.actions ∨ Controlling c i.actions) ∨ (b = 0 ∧ Fresh c l))
    {L : Nat} (hL : ∀ s, s <:+ l → upTo (Pins c) (ActsOn c) s ≤ L)
    (hr : FaultyRuns (fun q => B q ∨ q = c) F' l rec' G' n) (hF : ∀ q, q ≠ c → F' q = F q) :
    ∃ rec G m K b', FaultyRuns B F l rec G m ∧ Turning c b (measured l) rec rec' K b' ∧
      (m ≤ n * (1 + 2 * L) + 2 * upTo (Pins c) (ActsOn c) l ∧ K ≤ n + 1) ∧ (F' c = F c + (b, 0) → m ≤ n * (1 + 2 * L) ∧ K ≤ n) := by
  induction hr generalizing F b with
  | nil F' => exact ⟨[], F, 0, 0, b, .nil F, .nil b, by simp, by simp⟩
  | @step F0 F1 F2 i l r1 r2 n h1 h2 ih =>
    have ih := fun {F : Frame} {b : ZMod 2} hp => ih (F := F) (b := b) (fun j hj => hd j (by simp [hj])) (fun j hj => ht j (by simp [hj]))
      hp (fun s hs => hL s (hs.trans (List.suffix_cons _ _)))
    have hlen := runs_length h1
    rw [results_actions] at hlen
    have hme : measured (i :: l) = i.measures ++ measured l := by rw [measured, List.flatMap_cons, measured]
    have hgo : (∀ j ∈ l, Reading c j.actions ∨ Controlling c j.actions) ∨ (b = 0 ∧ Fresh c l) := by
      rcases hp with hp | ⟨hb, l1, l2, e, q1, q2⟩
      · exact .inl fun j hj => hp j (by simp [hj])
      · rcases l1 with _ | ⟨j, l1⟩
        · rw [List.nil_append] at e
          exact .inl fun j hj => q2 j (by rw [← e]; simp [hj])
        · rw [List.cons_append] at e
          injection e with e1 e2
          exact .inr ⟨hb, l1, l2, e2, fun k hk => q1 k (by simp [hk]), q2⟩
    have hnow : (b = 0 ∧ Renews c i.actions ∧ ActsOn c i) ∨ Controlling c i.actions ∨
        (Reading c i.actions ∧ (ActsOn c i → ∀ j ∈ l, Reading c j.actions ∨ Controlling c j.actions)) := by
      rcases hp with hp | ⟨hb, l1, l2, e, q1, q2⟩
      · rcases hp i (by simp) with h | h
        · exact .inr (.inr ⟨h, fun _ j hj => hp j (by simp [hj])⟩)
        · exact .inr (.inl h)
      · rcases l1 with _ | ⟨j, l1⟩
        · rw [List.nil_append] at e
          rcases q2 i (by rw [← e]; simp) with h | h
          · exact .inr (.inr ⟨h, fun _ j hj => q2 j (by rw [← e]; simp [hj])⟩)
          · exact .inr (.inl h)
        · rw [List.cons_append] at e
          injection e with e1 e2
          rcases q1 i (by rw [e1]; simp) with h | h
          · by_cases ha : ActsOn c i
            · exact .inl ⟨hb, h, ha⟩
            · exact .inr (.inl fun a ha' hon => absurd ⟨a, ha', hon⟩ ha)
          · exact .inr (.inl h)
    rcases hnow with ⟨hb, hren, hact⟩ | hnow
    · have hno : ∀ P ∈ i.actions.filterMap Action.result?, ∀ x ∈ P, x.2 ≠ c := fun P hP x hx e => by
        obtain ⟨a, ha, hon, rfl⟩ := measures_act hP hx
        rw [e] at hon
        obtain ⟨_, h⟩ := hren _ ha hon
        cases h
      rw [results_actions] at hno
      obtain ⟨G, g1, g2, g3⟩ := renew_actions hren h1 hF
      obtain ⟨rr, G2, m, K, b', k1, k2, -, k4⟩ := ih (F := G) hgo g2
      have k4 := k4 (by rw [g3 (.inl hact), hb]; exact (add_zero (G c)).symm)
      refine ⟨r1 ++ rr, G2, m, 0 + K, b', .step g1 k1, ?_, by omega, fun h => by omega⟩
      rw [hme]
      exact (Turning.refl hno hlen).append k2
    have hplain : ∀ a ∈ i.actions, a.On c → a = .measure [(.Z, c)] ∨ ∃ P x, x ≠ c ∧ a = .control P .X x c := fun a ha hon => by
      rcases hnow with h | h
      · exact .inr (h a ha hon)
      · exact .inl (h.1 a ha hon)
    by_cases hX : F0 c = F c + (b, 0)
    · obtain ⟨r, G, g1, g2, g3, g4⟩ := plain_actions hplain h1 hF hX
      rw [results_actions] at g4
      obtain ⟨rr, G2, m, K, b', k1, k2, -, k4⟩ := ih (F := G) (b := b) hgo g2
      have k4 := k4 g3
      refine ⟨r ++ rr, G2, m, 0 + K, b', .step g1 k1, ?_, by omega, fun _ => by omega⟩
      rw [hme]
      exact g4.append k2
    · by_cases hact : ActsOn c i
      · rcases hnow with hcon | ⟨hread, hrest⟩
        · obtain ⟨r, G, qs, a1, a2, a3, a4, a5⟩ := absorb_counted (hd i (by simp)) (ht i (by simp)) h1 (qs := []) ⟨fun q _ hq => hF q hq, by simp⟩ (by simp)
          have hno : ∀ P ∈ i.actions.filterMap Action.result?, ∀ x ∈ P, ¬ x.2 = c := fun P hP x hx e => by
            obtain ⟨a, ha, hon, rfl⟩ := measures_act hP hx
            rw [e] at hon
            obtain ⟨_, _, _, h⟩ := hcon _ ha hon
            cases h
          obtain rfl := recDiff_eq a3 hno
          rw [results_actions] at hno
          have htou := touches_le (c := c) (hd i (by simp))
          have hnear : Near qs G fun q => if q ∈ qs then F1 q else G q := fun q hq => if_neg hq
          obtain ⟨rr, G2, m, K, b', k1, k2, k3, -⟩ := ih (F := fun q => if q ∈ qs then F1 q else G q) (b := b) hgo (fun q hc => by
            by_cases hq : q ∈ qs
            · rw [if_pos hq]
            · rw [if_neg hq]; exact a2.eq q hq hc)
          have hset : ¬ Pins c i := by
            rintro ⟨h | h, a, ha, hon⟩ <;> obtain ⟨_, _, _, e⟩ := hcon a ha hon
            · rw [h a ha hon] at e
              cases e
            · obtain ⟨_, e'⟩ := h a ha hon
              rw [e'] at e
              cases e
          refine ⟨r ++ rr, G2, _, 0 + K, b', .step a1 (k1.near hnear a2.sub), ?_, ?_, fun h => absurd h hX⟩
          · rw [hme]
            exact (Turning.refl hno hlen).append k2
          · rw [upTo, if_neg hset, if_pos hact]
            simp only [List.length_nil] at a4
            omega
        · obtain ⟨r, G, b1, K1, g1, g2, g3, g4, g5⟩ := read_actions hread h1 hF b
          rw [results_actions] at g3
          obtain ⟨rr, G2, m, K, b', k1, k2, -, k4⟩ := ih (F := G) (b := b1) (.inl (hrest hact)) g2
          have k4 := k4 (g5 hact)
          refine ⟨r ++ rr, G2, m, K1 + K, b', .step g1 k1, ?_, by omega, fun h => absurd h hX⟩
          rw [hme]
          exact g3.append k2
      · have hno : ∀ P ∈ i.actions.filterMap Action.result?, ∀ x ∈ P, x.2 ≠ c := fun P hP x hx e => by
          obtain ⟨a, ha, hon, rfl⟩ := measures_act hP hx
          rw [e] at hon
          exact hact ⟨_, ha, hon⟩
        rw [results_actions] at hno
        obtain ⟨G, g1, g2, -⟩ := renew_actions (fun a ha hon => absurd ⟨a, ha, hon⟩ hact) h1 hF
        obtain ⟨rr, G2, m, K, b', k1, k2, k3, -⟩ := ih (F := G) (b := b) hgo g2
        refine ⟨r1 ++ rr, G2, m, 0 + K, b', .step g1 k1, ?_, ?_, fun h => absurd h hX⟩
        · rw [hme]
          exact (Turning.refl hno hlen).append k2
        · rw [upTo, if_neg (fun h => hact h.2), if_neg hact]
          omega
  | @fault F0 F1 l rec n q p hq h ih =>
    have hl := hL l (List.suffix_refl l)
    by_cases hc : q = c
    · obtain ⟨r, G, m, K, b', k1, k2, k3, k4⟩ := ih hd ht hp hL (F := F) (b := b) (fun x hx => by
        rw [Frame.mul, if_neg (fun e : x = q => hx (e.trans hc))]
        exact hF x hx)
      refine ⟨r, G, m, K, b', k1, k2, ?_, fun _ => ?_⟩ <;> rw [Nat.succ_mul n] <;> omega
    · obtain ⟨r, G, m, K, b', k1, k2, k3, k4⟩ := ih hd ht hp hL (F := F.mul q p) (b := b) (fun x hx => by
        rw [Frame.mul, Frame.mul, hF x hx])
      refine ⟨r, G, m + 1, K, b', .fault q p (hq.resolve_right hc) k1, k2, ?_, fun e => ?_⟩
      · rw [Nat.succ_mul n]; omega
      · have := k4 (by rw [Frame.mul, Frame.mul, if_neg (Ne.symm hc), if_neg (Ne.symm hc), e])
        rw [Nat.succ_mul n]; omega

/-- The last result of `c` before `t` is at `s`. -/
def Previous (c : Nat) (ms : List (List (Basis × Nat))) (s t : Nat) : Prop :=
  s < t ∧ (∃ P, ms[s]? = some P ∧ ∃ x ∈ P, x.2 = c) ∧ ∀ u, s < u → u < t → ∀ P, ms[u]? = some P → ¬ ∃ x ∈ P, x.2 = c

theorem turning_places {ms r r' K} (h : Turning c b ms r r' K b') : ∃ ts : List Nat, ts.length = K ∧ ∀ t P, ms[t]? = some P →
    ((∀ x ∈ P, x.2 ≠ c) → recAt r t = recAt r' t) ∧
    ((∃ x ∈ P, x.2 = c) → t ∉ ts → (∃ s, Previous c ms s t ∧ recAt r t + recAt r' t = recAt r s + recAt r' s) ∨
      ((∀ u < t, ∀ P, ms[u]? = some P → ¬ ∃ x ∈ P, x.2 = c) ∧ recAt r t + recAt r' t = b)) := by
  induction h with
  | nil b => exact ⟨[], rfl, fun t P h => by simp at h⟩
  | @other b b' P ms a r r' K hP h ih =>
    obtain ⟨ts, h1, h2⟩ := ih
    refine ⟨ts.map (· + 1), by rw [List.length_map, h1], fun t P' hP' => ?_⟩
    rcases t with _ | t
    · obtain rfl : P = P' := by simpa using hP'
      exact ⟨fun _ => by simp [recAt], fun ⟨x, hx, e⟩ => absurd e (hP x hx)⟩
    · have hs : ∀ (x : ZMod 2) (l : List (ZMod 2)) t, recAt (x :: l) (t + 1) = recAt l t := fun x l t => by simp [recAt]
      simp only [hs]
      obtain ⟨q1, q2⟩ := h2 t P' (by simpa using hP')
      refine ⟨q1, fun hx ht => ?_⟩
      rcases q2 hx (fun e => ht (List.mem_map_of_mem e)) with ⟨s, ⟨p1, p2, p3⟩, e⟩ | ⟨p1, e⟩
      · refine .inl ⟨s + 1, ⟨by omega, by simpa using p2, fun u hu hu' Q hQ => ?_⟩, by rw [hs, hs]; exact e⟩
        rcases u with _ | u
        · omega
        · exact p3 u (by omega) (by omega) Q (by simpa using hQ)
      · refine .inr ⟨fun u hu Q hQ => ?_, e⟩
        rcases u with _ | u
        · obtain rfl : P = Q := by simpa using hQ
          rintro ⟨x, hx, e⟩
          exact hP x hx e
        · exact p1 u (by omega) Q (by simpa using hQ)
  | @same b b' P ms a r r' K hP h ih =>
    obtain ⟨ts, h1, h2⟩ := ih
    refine ⟨ts.map (· + 1), by rw [List.length_map, h1], fun t P' hP' => ?_⟩
    rcases t with _ | t
    · obtain rfl : P = P' := by simpa using hP'
      refine ⟨fun hn => by obtain ⟨x, hx, e⟩ := hP; exact absurd e (hn x hx), fun _ _ => .inr ⟨by simp, ?_⟩⟩
      simp only [recAt, List.getD_cons_zero]
      rw [← add_assoc, CharTwo.add_self_eq_zero, zero_add]
    · have hs : ∀ (x : ZMod 2) (l : List (ZMod 2)) t, recAt (x :: l) (t + 1) = recAt l t := fun x l t => by simp [recAt]
      simp only [hs]
      obtain ⟨q1, q2⟩ := h2 t P' (by simpa using hP')
      refine ⟨q1, fun hx ht => ?_⟩
      rcases q2 hx (fun e => ht (List.mem_map_of_mem e)) with ⟨s, ⟨p1, p2, p3⟩, e⟩ | ⟨p1, e⟩
      · refine .inl ⟨s + 1, ⟨by omega, by simpa using p2, fun u hu hu' Q hQ => ?_⟩, by rw [hs, hs]; exact e⟩
        rcases u with _ | u
        · omega
        · exact p3 u (by omega) (by omega) Q (by simpa using hQ)
      · refine .inl ⟨0, ⟨by omega, ⟨P, by simp, hP⟩, fun u hu hu' Q hQ => ?_⟩, ?_⟩
        · rcases u with _ | u
          · omega
          · exact p1 u (by omega) Q (by simpa using hQ)
        · rw [e]
          simp only [recAt, List.getD_cons_zero]
          rw [← add_assoc, CharTwo.add_self_eq_zero, zero_add]
  | @turn b b' P ms a r r' K b1 hP h ih =>
    obtain ⟨ts, h1, h2⟩ := ih
    refine ⟨0 :: ts.map (· + 1), by rw [List.length_cons, List.length_map, h1], fun t P' hP' => ?_⟩
    rcases t with _ | t
    · obtain rfl : P = P' := by simpa using hP'
      exact ⟨fun hn => by obtain ⟨x, hx, e⟩ := hP; exact absurd e (hn x hx), fun _ h => absurd List.mem_cons_self h⟩
    · have hs : ∀ (x : ZMod 2) (l : List (ZMod 2)) t, recAt (x :: l) (t + 1) = recAt l t := fun x l t => by simp [recAt]
      simp only [hs]
      obtain ⟨q1, q2⟩ := h2 t P' (by simpa using hP')
      refine ⟨q1, fun hx ht => ?_⟩
      rcases q2 hx (fun e => ht (List.mem_cons_of_mem _ (List.mem_map_of_mem e))) with ⟨s, ⟨p1, p2, p3⟩, e⟩ | ⟨p1, e⟩
      · refine .inl ⟨s + 1, ⟨by omega, by simpa using p2, fun u hu hu' Q hQ => ?_⟩, by rw [hs, hs]; exact e⟩
        rcases u with _ | u
        · omega
        · exact p3 u (by omega) (by omega) Q (by simpa using hQ)
      · refine .inl ⟨0, ⟨by omega, ⟨P, by simp, hP⟩, fun u hu hu' Q hQ => ?_⟩, ?_⟩
        · rcases u with _ | u
          · omega
          · exact p1 u (by omega) Q (by simpa using hQ)
        · rw [e]
          simp only [recAt, List.getD_cons_zero]
          rw [← add_assoc, CharTwo.add_self_eq_zero, zero_add]

end Honeycomb
