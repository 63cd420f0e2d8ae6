import Verif.Lemmas.Threshold

/-!
# The union bound, for any part of the walk

`union_walks` for walks of which at least one place in `A` is hit.
-/

namespace Honeycomb
open scoped ENNReal

theorem slow_geometric {y : ℝ≥0∞} (hy : y ≤ 1 / 2) {A : Nat} (hA : 0 < A) (n : Nat) : ∑ m ∈ Finset.range n, y ^ (m / A) ≤ 2 * A := by
  have key : ∀ t : Nat, ∑ m ∈ Finset.range (t * A), y ^ (m / A) + 2 * A * y ^ t ≤ 2 * A := fun t => by
    induction t with
    | zero => simp
    | succ t ih =>
      have h1 : ∑ m ∈ Finset.range ((t + 1) * A), y ^ (m / A) = ∑ m ∈ Finset.range (t * A), y ^ (m / A) + A * y ^ t := by
        rw [Nat.succ_mul, Finset.sum_range_add]
        congr 1
        calc ∑ x ∈ Finset.range A, y ^ ((t * A + x) / A) = ∑ _x ∈ Finset.range A, y ^ t := Finset.sum_congr rfl fun x hx => by
              rw [Nat.mul_comm, Nat.mul_add_div hA, Nat.div_eq_of_lt (Finset.mem_range.1 hx), Nat.add_zero]
          _ = A * y ^ t := by rw [Finset.sum_const, Finset.card_range, nsmul_eq_mul]
      have h2 : 2 * A * y ^ (t + 1) ≤ A * y ^ t := by
        calc 2 * A * y ^ (t + 1) = (2 * y) * (A * y ^ t) := by ring
          _ ≤ 1 * (A * y ^ t) := by
              refine mul_le_mul' ?_ le_rfl
              calc 2 * y ≤ 2 * (1 / 2) := mul_le_mul' le_rfl hy
                _ = 1 := by rw [one_div]; exact ENNReal.mul_inv_cancel (by norm_num) (by norm_num)
          _ = _ := one_mul _
      calc _ ≤ ∑ m ∈ Finset.range (t * A), y ^ (m / A) + A * y ^ t + A * y ^ t := by rw [h1]; exact add_le_add le_rfl h2
        _ = ∑ m ∈ Finset.range (t * A), y ^ (m / A) + 2 * A * y ^ t := by ring
        _ ≤ _ := ih
  calc ∑ m ∈ Finset.range n, y ^ (m / A) ≤ ∑ m ∈ Finset.range (n * A), y ^ (m / A) :=
        Finset.sum_le_sum_of_subset (Finset.range_subset_range.2 (Nat.le_mul_of_pos_right n hA))
    _ ≤ _ := le_add_right le_rfl
    _ ≤ _ := key n

variable {α : Type} {q : ℝ≥0∞} {P : PMF α} {f : α → List Bool}

theorem union_walks_of (hcov : Cover q P f) {nb : Nat → Finset Nat} {Δ M D A : Nat} (h1 : 1 ≤ Δ) (hA : 0 < A) (hΔ : ∀ a, (nb a).card ≤ Δ)
    (hy : (2 * Δ : ℝ≥0∞) ^ (2 * A) * q ≤ 1 / 2) {S : Set α} (hS : ∀ x ∈ S, x ∈ P.support → ∃ c, D ≤ c ∧ ∃ w : List (Nat × Bool),
      w.IsChain (fun a b => b.1 ∈ nb a.1) ∧ w.length + 1 = 2 * c ∧ (∀ a ∈ w, a.1 < M) ∧ (∀ a ∈ hitsOf w, (f x)[a]? = some true) ∧ c ≤ A * (hitsOf w).card) :
    P.toOuterMeasure S ≤ 4 * A * M * ((2 * Δ : ℝ≥0∞) ^ (2 * A) * q) ^ (D / A) := by
  classical
  set nb' : Nat × Bool → Finset (Nat × Bool) := fun a => nb a.1 ×ˢ Finset.univ with hnb
  have hΔ' : ∀ a, (nb' a).card ≤ 2 * Δ := fun a => by
    rw [hnb, Finset.card_product, Finset.card_univ, Fintype.card_bool, Nat.mul_comm]
    exact Nat.mul_le_mul le_rfl (hΔ _)
  set W : Nat → Finset (List (Nat × Bool)) := fun c => ((Finset.range M ×ˢ Finset.univ).biUnion fun a => walksFrom nb' (2 * c - 2) a).filter
    fun w => c ≤ A * (hitsOf w).card with hW
  have hWc : ∀ c, (W c).card ≤ 2 * M * (2 * Δ) ^ (2 * c - 2) := fun c => by
    refine (Finset.card_filter_le _ _).trans (Finset.card_biUnion_le.trans ?_)
    calc _ ≤ ∑ _a ∈ Finset.range M ×ˢ (Finset.univ : Finset Bool), (2 * Δ) ^ (2 * c - 2) := Finset.sum_le_sum fun a _ => walksFrom_card hΔ' _ _
      _ = 2 * M * (2 * Δ) ^ (2 * c - 2) := by
        rw [Finset.sum_const, Finset.card_product, Finset.card_range, Finset.card_univ, Fintype.card_bool, smul_eq_mul, Nat.mul_comm M]
  have hq1 : q ≤ 1 := by
    have h4 : (1 : ℝ≥0∞) ≤ (2 * Δ : ℝ≥0∞) ^ (2 * A) := one_le_pow₀ (by exact_mod_cast (by omega : 1 ≤ 2 * Δ))
    calc q = 1 * q := (one_mul q).symm
      _ ≤ (2 * Δ : ℝ≥0∞) ^ (2 * A) * q := mul_le_mul' h4 le_rfl
      _ ≤ 1 / 2 := hy
      _ ≤ 1 := by simp
  have hceil : ∀ c, c ≤ A * ((c + A - 1) / A) ∧ ∀ h, c ≤ A * h → (c + A - 1) / A ≤ h := fun c => by
    constructor
    · have h1 := Nat.div_add_mod (c + A - 1) A
      have h2 := Nat.mod_lt (c + A - 1) hA
      omega
    · intro h hc
      rw [← Nat.lt_succ_iff, Nat.div_lt_iff_lt_mul hA, Nat.succ_mul, Nat.mul_comm h]
      omega
  have hterm : ∀ c, ∑ w ∈ W c, P.toOuterMeasure {x | ∀ j ∈ hitsOf w, (f x)[j]? = some true} ≤
      2 * M * ((2 * Δ : ℝ≥0∞) ^ (2 * A) * q) ^ ((c + A - 1) / A) := fun c => by
    calc _ ≤ ∑ _w ∈ W c, q ^ ((c + A - 1) / A) := Finset.sum_le_sum fun w hw => by
          refine (hcov.prob _).trans (pow_le_pow_right_of_le_one' hq1 ?_)
          exact (hceil c).2 _ (Finset.mem_filter.1 hw).2
      _ = (W c).card * q ^ ((c + A - 1) / A) := by rw [Finset.sum_const, nsmul_eq_mul]
      _ ≤ (2 * M * (2 * Δ) ^ (2 * c - 2) : Nat) * q ^ ((c + A - 1) / A) := mul_le_mul' (by exact_mod_cast hWc c) le_rfl
      _ ≤ (2 * M * (2 * Δ) ^ (2 * A * ((c + A - 1) / A)) : Nat) * q ^ ((c + A - 1) / A) := by
        refine mul_le_mul' ?_ le_rfl
        have := (hceil c).1
        exact_mod_cast Nat.mul_le_mul le_rfl (Nat.pow_le_pow_right (by omega) (by rw [Nat.mul_assoc]; omega))
      _ = _ := by
        rw [mul_pow ((2 * Δ : ℝ≥0∞) ^ (2 * A)), ← pow_mul]
        push_cast
        ring
  set y := (2 * Δ : ℝ≥0∞) ^ (2 * A) * q with hyd
  have hy1 : y ≤ 1 := hy.trans (by simp)
  calc P.toOuterMeasure S ≤ P.toOuterMeasure (⋃ m ∈ Finset.range (A * M + 1), ⋃ w ∈ W (D + m), {x | ∀ j ∈ hitsOf w, (f x)[j]? = some true}) := by
        refine PMF.toOuterMeasure_mono _ ?_
        rintro x ⟨hx, hxs⟩
        obtain ⟨c, hc, w, w1, w2, w3, w4, w5⟩ := hS x hx hxs
        have hcM : c ≤ A * M := by
          refine w5.trans (Nat.mul_le_mul le_rfl ?_)
          rw [← Finset.card_range M]
          refine Finset.card_le_card fun a ha => ?_
          rw [Finset.mem_range]
          exact w3 _ (mem_hitsOf.1 ha)
        rw [Set.mem_iUnion₂]
        refine ⟨c - D, Finset.mem_range.2 (by omega), ?_⟩
        rw [Set.mem_iUnion₂, show D + (c - D) = c by omega]
        refine ⟨w, ?_, w4⟩
        rw [hW]
        refine Finset.mem_filter.2 ⟨?_, w5⟩
        cases w with
        | nil => simp at w2; omega
        | cons a w =>
          rw [Finset.mem_biUnion]
          refine ⟨a, Finset.mem_product.2 ⟨Finset.mem_range.2 (w3 a (by simp)), Finset.mem_univ _⟩,
            mem_walksFrom (R := fun a b : Nat × Bool => b.1 ∈ nb a.1) (fun a b h => Finset.mem_product.2 ⟨h, Finset.mem_univ _⟩) w1 ?_⟩
          simp only [List.length_cons] at w2
          omega
    _ ≤ ∑ m ∈ Finset.range (A * M + 1), P.toOuterMeasure (⋃ w ∈ W (D + m), {x | ∀ j ∈ hitsOf w, (f x)[j]? = some true}) :=
        MeasureTheory.measure_biUnion_finset_le _ _
    _ ≤ ∑ m ∈ Finset.range (A * M + 1), 2 * M * (y ^ (D / A) * y ^ (m / A)) := Finset.sum_le_sum fun m _ => by
        refine ((MeasureTheory.measure_biUnion_finset_le _ _).trans (hterm _)).trans (mul_le_mul' le_rfl ?_)
        rw [← pow_add]
        refine pow_le_pow_right_of_le_one' hy1 ?_
        rw [Nat.le_div_iff_mul_le hA, Nat.add_mul]
        have h1 := Nat.div_mul_le_self D A
        have h2 := Nat.div_mul_le_self m A
        omega
    _ = 2 * M * y ^ (D / A) * ∑ m ∈ Finset.range (A * M + 1), y ^ (m / A) := by
        rw [Finset.mul_sum]
        exact Finset.sum_congr rfl fun m _ => by ring
    _ ≤ 2 * M * y ^ (D / A) * (2 * A) := mul_le_mul' le_rfl (slow_geometric hy hA _)
    _ = _ := by ring

end Honeycomb
