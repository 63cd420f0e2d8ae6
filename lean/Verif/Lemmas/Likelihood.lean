import Mathlib.Algebra.Ring.Parity
import Mathlib.Data.Finset.SymmDiff
import Verif.Spec.Likelihood
import Verif.Lemmas.ProbOdd
import Verif.Lemmas.DemIds
import Verif.Props.Decoding

/-! # Likelihoods of sets of edges -/

namespace Honeycomb

theorem probability_congr {ms : List Mechanism} {E E' : List Mechanism → Prop} (h : ∀ l, E l ↔ E' l) : probability ms E = probability ms E' := by
  rw [show E = E' from funext fun l => propext (h l)]

/-- What needs a component of probability zero, or is impossible, has probability zero. -/
theorem probability_zero {ms : List Mechanism} {E : List Mechanism → Prop} (h : ∀ l, l.Sublist ms → (∀ e ∈ l, e.p ≠ 0) → ¬ E l) : probability ms E = 0 := by
  induction ms generalizing E with
  | nil => rw [probability, if_neg (h [] (List.Sublist.refl _) (by simp))]
  | cons e ms ih =>
    rw [probability, ih fun l hl hp => h l (hl.cons e) hp, mul_zero, add_zero]
    by_cases h0 : e.p = 0
    · rw [h0, zero_mul]
    · rw [ih fun l hl hp => h (e :: l) (hl.cons_cons e) (by simpa [h0] using hp), mul_zero]

theorem probability_nonneg {ms : List Mechanism} {E : List Mechanism → Prop} (hp : ∀ e ∈ ms, 0 ≤ e.p ∧ e.p ≤ 1) : 0 ≤ probability ms E := by
  induction ms generalizing E with
  | nil => rw [probability]; split_ifs <;> norm_num
  | cons e ms ih =>
    obtain ⟨h1, h2⟩ := hp e (by simp)
    have := fun E => ih (E := E) fun x hx => hp x (by simp [hx])
    rw [probability]
    exact add_nonneg (mul_nonneg h1 (this _)) (mul_nonneg (by linarith) (this _))

/-- The pair of nodes a component connects. -/
def Mechanism.key (b : Nat) (e : Mechanism) : Option (Nat × Nat) :=
  match e.dets with
  | [a] => some (edgeKey a b)
  | [x, y] => some (edgeKey x y)
  | _ => none

theorem edgeKey_ordered (u v : Nat) : (edgeKey u v).1 ≤ (edgeKey u v).2 := by simp only [edgeKey]; omega

theorem edgeKey_of_le {u v : Nat} (h : u ≤ v) : edgeKey u v = (u, v) := by simp only [edgeKey]; rw [Nat.min_eq_left h, Nat.max_eq_right h]

theorem key_ordered {b : Nat} {e : Mechanism} {k : Nat × Nat} (h : e.key b = some k) : k.1 ≤ k.2 := by
  rw [Mechanism.key] at h
  split at h
  · cases h; exact edgeKey_ordered _ _
  · cases h; exact edgeKey_ordered _ _
  · cases h

theorem connects_key {b u v : Nat} (huv : u ≤ v) (e : Mechanism) : e.connects b u v ↔ e.key b = some (u, v) := by
  rw [Mechanism.key]
  split
  · rename_i a h
    rw [connects_single e b a u v h, edgeKey_of_le huv, Option.some.injEq, eq_comm]
  · rename_i x y h
    rw [connects_pair e b x y u v h, edgeKey_of_le huv, Option.some.injEq, eq_comm]
  · rename_i h1 h2
    refine iff_of_false ?_ (by simp)
    rintro (h | h | ⟨h, -⟩ | ⟨h, -⟩)
    exacts [h2 _ _ h, h2 _ _ h, h1 _ h, h1 _ h]

theorem oddOn_iff {b : Nat} {l : List Mechanism} {T : Finset (Nat × Nat)} :
    OddOn b l T ↔ ∀ k : Nat × Nat, k.1 ≤ k.2 → (Odd (l.countP fun e => e.key b = some k) ↔ k ∈ T) := by
  constructor
  · rintro h ⟨u, v⟩ huv
    rw [← h u v huv]
    simp only [connects_key huv]
  · intro h u v huv
    rw [← h (u, v) huv]
    simp only [connects_key huv]

theorem oddOn_cons_none {b : Nat} {e : Mechanism} (he : e.key b = none) (l : List Mechanism) (T : Finset (Nat × Nat)) :
    OddOn b (e :: l) T ↔ OddOn b l T := by
  rw [oddOn_iff, oddOn_iff]
  refine forall_congr' fun k => ?_
  rw [List.countP_cons_of_neg (by simp [he])]

theorem oddOn_cons_some {b : Nat} {e : Mechanism} {k : Nat × Nat} (he : e.key b = some k) (l : List Mechanism) (T : Finset (Nat × Nat)) :
    OddOn b (e :: l) T ↔ OddOn b l (symmDiff T {k}) := by
  rw [oddOn_iff, oddOn_iff]
  refine forall_congr' fun k' => forall_congr' fun _ => ?_
  by_cases hk : k' = k
  · subst hk
    rw [List.countP_cons_of_pos (by simp [he]), Nat.odd_add_one]
    simp only [Finset.mem_symmDiff, Finset.mem_singleton, not_true, and_false, false_or, true_and]
    tauto
  · rw [List.countP_cons_of_neg (by simp [he, Ne.symm hk])]
    simp only [Finset.mem_symmDiff, Finset.mem_singleton, hk, not_false_eq_true, and_true, false_and, or_false]

/-- The probability that an odd number of the components on `k` happen. -/
def oddProb (b : Nat) (ms : List Mechanism) (k : Nat × Nat) : Rat := probOdd ((ms.filter fun e => e.p ≠ 0 ∧ e.key b = some k).map Mechanism.p)

theorem oddProb_cons (b : Nat) (e : Mechanism) (ms : List Mechanism) (k : Nat × Nat) :
    oddProb b (e :: ms) k = if e.key b = some k then e.p * (1 - oddProb b ms k) + oddProb b ms k * (1 - e.p) else oddProb b ms k := by
  rw [oddProb]
  by_cases h : e.key b = some k
  · rw [if_pos h]
    by_cases h0 : e.p = 0
    · rw [List.filter_cons_of_neg (by simp [h0]), h0, ← oddProb]; ring
    · rw [List.filter_cons_of_pos (by simp [h0, h]), List.map_cons, probOdd_cons, ← oddProb]
  · rw [if_neg h, List.filter_cons_of_neg (by simp [h]), ← oddProb]

/-- The edges are independent. -/
theorem probability_oddOn (b : Nat) (U : Finset (Nat × Nat)) (hU : Ordered U) (ms : List Mechanism)
    (hms : ∀ e ∈ ms, e.p ≠ 0 → ∀ k, e.key b = some k → k ∈ U) (T : Finset (Nat × Nat)) (hT : T ⊆ U) :
    probability ms (fun l => OddOn b l T) = ∏ k ∈ U, if k ∈ T then oddProb b ms k else 1 - oddProb b ms k := by
  induction ms generalizing T with
  | nil =>
    have hz : ∀ k, oddProb b [] k = 0 := fun k => probOdd_nil
    have hE : OddOn b [] T ↔ T = ∅ := by
      rw [oddOn_iff]
      constructor
      · intro h
        refine Finset.eq_empty_of_forall_notMem fun k hk => ?_
        have := (h k (hU k (hT hk))).2 hk
        simp at this
      · rintro rfl k _
        simp
    rw [probability]
    simp only [hE, hz, sub_zero]
    split_ifs with h
    · subst h
      simp
    · obtain ⟨k, hk⟩ := Finset.nonempty_iff_ne_empty.2 h
      exact (Finset.prod_eq_zero (f := fun x => if x ∈ T then (0 : Rat) else 1) (hT hk) (if_pos hk)).symm
  | cons e ms ih =>
    have ih := ih fun x hx => hms x (by simp [hx])
    rw [probability]
    cases he : e.key b with
    | none =>
      rw [probability_congr (fun l => oddOn_cons_none he l T), ih T hT]
      simp only [oddProb_cons, he, reduceCtorEq, if_false]
      ring
    | some k =>
      rw [probability_congr (fun l => oddOn_cons_some he l T), ih T hT]
      by_cases h0 : e.p = 0
      · rw [h0, zero_mul, zero_add, sub_zero, one_mul]
        refine Finset.prod_congr rfl fun k' _ => ?_
        rw [oddProb_cons, h0]
        split_ifs <;> ring
      · have hk : k ∈ U := hms e (by simp) h0 k he
        rw [ih _ (fun x hx => by
          rw [Finset.mem_symmDiff, Finset.mem_singleton] at hx
          rcases hx with ⟨hx, -⟩ | ⟨rfl, -⟩
          exacts [hT hx, hk])]
        rw [← Finset.mul_prod_erase U _ hk, ← Finset.mul_prod_erase U _ hk, ← Finset.mul_prod_erase U _ hk,
          Finset.prod_congr rfl (g := fun k' => if k' ∈ T then oddProb b ms k' else 1 - oddProb b ms k') fun k' hk' => by
            have hne := Finset.ne_of_mem_erase hk'
            simp only [Finset.mem_symmDiff, Finset.mem_singleton, hne, not_false_eq_true, and_true, false_and, or_false],
          Finset.prod_congr (s₁ := U.erase k) (f := fun k' => if k' ∈ T then oddProb b (e :: ms) k' else 1 - oddProb b (e :: ms) k') rfl
            (g := fun k' => if k' ∈ T then oddProb b ms k' else 1 - oddProb b ms k') fun k' hk' => by
            have hne := Finset.ne_of_mem_erase hk'
            have hne' : ¬ e.key b = some k' := by rw [he, Option.some.injEq]; exact hne.symm
            simp only [oddProb_cons, if_neg hne']]
        rw [oddProb_cons, if_pos he]
        simp only [Finset.mem_symmDiff, Finset.mem_singleton, not_true, and_false, false_or, true_and]
        by_cases hkT : k ∈ T
        · simp only [hkT, not_true, if_true, if_false]; ring
        · simp only [hkT, not_false_eq_true, if_true, if_false]; ring

theorem two_self (z : ZMod 2) : z + z = 0 := by revert z; decide

theorem sum_toggle (T : Finset (Nat × Nat)) (k : Nat × Nat) (f : Nat × Nat → ZMod 2) : ∑ x ∈ symmDiff T {k}, f x = ∑ x ∈ T, f x + f k := by
  by_cases hk : k ∈ T
  · rw [show symmDiff T {k} = T.erase k by
      ext x
      simp only [Finset.mem_symmDiff, Finset.mem_singleton, Finset.mem_erase]
      constructor
      · rintro (⟨h1, h2⟩ | ⟨rfl, h2⟩)
        exacts [⟨h2, h1⟩, absurd hk h2]
      · rintro ⟨h1, h2⟩
        exact .inl ⟨h2, h1⟩, ← Finset.add_sum_erase T f hk, add_right_comm, two_self, zero_add]
  · rw [show symmDiff T {k} = insert k T by
      ext x
      simp only [Finset.mem_symmDiff, Finset.mem_singleton, Finset.mem_insert]
      constructor
      · rintro (⟨h1, h2⟩ | ⟨rfl, h2⟩)
        exacts [.inr h1, .inl rfl]
      · rintro (rfl | h1)
        · exact .inr ⟨rfl, hk⟩
        · exact .inl ⟨h1, fun h => hk (h ▸ h1)⟩, Finset.sum_insert hk, add_comm]

/-- What the components do is what the edges do that an odd number of them connects. -/
theorem oddOn_sum {b : Nat} {f : Nat × Nat → ZMod 2} {w : Mechanism → ZMod 2} :
    ∀ {l : List Mechanism} {T : Finset (Nat × Nat)}, (∀ e ∈ l, w e = match e.key b with | some k => f k | none => 0) → Ordered T → OddOn b l T →
      (l.map w).sum = ∑ k ∈ T, f k
  | [], T, _, hT, h => by
    rw [oddOn_iff] at h
    rw [Finset.eq_empty_of_forall_notMem (s := T) fun k hk => by simpa using (h k (hT k hk)).2 hk]
    simp
  | e :: l, T, hw, hT, h => by
    have hw' : ∀ e ∈ l, w e = match e.key b with | some k => f k | none => 0 := fun x hx => hw x (by simp [hx])
    have he := hw e (by simp)
    rw [List.map_cons, List.sum_cons, he]
    cases hk : e.key b with
    | none => rw [zero_add]; exact oddOn_sum hw' hT ((oddOn_cons_none hk l T).1 h)
    | some k =>
      have hT' : Ordered (symmDiff T {k}) := fun x hx => by
        rw [Finset.mem_symmDiff, Finset.mem_singleton] at hx
        rcases hx with ⟨hx, -⟩ | ⟨rfl, -⟩
        exacts [hT x hx, key_ordered hk]
      rw [oddOn_sum hw' hT' ((oddOn_cons_some hk l T).1 h), sum_toggle]
      show f k + (_ + f k) = _
      rw [add_left_comm, two_self, add_zero]

theorem odd_iff_cast (n : Nat) : Odd n ↔ (n : ZMod 2) = 1 := by
  have key : ∀ z : ZMod 2, z + 1 = 1 ↔ ¬ z = 1 := by decide
  induction n with
  | zero => exact iff_of_false (by simp) (by decide)
  | succ n ih => exact Nat.odd_add_one.trans ((not_congr ih).trans (by rw [Nat.cast_succ]; exact (key _).symm))

theorem ends_key (u v x : Nat) : ((if (edgeKey u v).1 = x then 1 else 0) + if (edgeKey u v).2 = x then 1 else 0 : Nat) =
    (if u = x then 1 else 0) + if v = x then 1 else 0 := by
  rcases Nat.le_total u v with h | h
  · rw [edgeKey_of_le h]
  · rw [show edgeKey u v = edgeKey v u by simp only [edgeKey]; rw [Nat.min_comm, Nat.max_comm], edgeKey_of_le h, add_comm]

/-- The detectors that components fire have an odd number of ends of these edges. -/
theorem oddOn_fires {b : Nat} {l : List Mechanism} {T : Finset (Nat × Nat)} (h2 : ∀ e ∈ l, e.dets.length ≤ 2) (hT : Ordered T) (h : OddOn b l T)
    {x : Nat} (hx : x < b) : Fires l x ↔ Odd (endsAt T x) := by
  have := oddOn_sum (b := b) (f := fun k => (((if k.1 = x then 1 else 0) + if k.2 = x then 1 else 0 : Nat) : ZMod 2)) (w := fun e => ((e.dets.count x : Nat) : ZMod 2))
    (fun e he => by
      have hl := h2 e he
      rcases hd : e.dets with _ | ⟨a, _ | ⟨c, _ | ⟨d, r⟩⟩⟩
      · rw [show e.key b = none by rw [Mechanism.key, hd]]
        simp
      · rw [show e.key b = some (edgeKey a b) by rw [Mechanism.key, hd]]
        show _ = ((_ : Nat) : ZMod 2)
        rw [ends_key, if_neg (show ¬ b = x by omega), add_zero, List.count_singleton]
        simp only [beq_iff_eq]
      · rw [show e.key b = some (edgeKey a c) by rw [Mechanism.key, hd]]
        show _ = ((_ : Nat) : ZMod 2)
        rw [ends_key]
        simp only [List.count_cons, List.count_nil, beq_iff_eq, zero_add, add_comm]
      · rw [hd] at hl
        simp at hl) hT h
  rw [Fires, odd_iff_cast, odd_iff_cast, endsAt, Nat.cast_sum, ← this, Nat.cast_list_sum, List.map_map]
  rfl

end Honeycomb
