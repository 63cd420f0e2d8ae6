import Mathlib.Algebra.BigOperators.Ring.Finset
import Mathlib.Algebra.BigOperators.Pi
import Mathlib.Data.ENNReal.Inv
import Mathlib.Data.Finset.Max
import Mathlib.Data.ZMod.Basic
import Mathlib.Data.List.Chain
import Mathlib.Tactic.Ring

/-!
# Clusters

A set of errors that fires no detector and flips the observable has a part with this property that can be walked through from error to error along
common detectors; such walks can be counted.
-/

namespace Honeycomb
open scoped ENNReal

section
variable {T Λ : Type} [DecidableEq T] {R : Λ → Λ → Prop} {lab : T → Λ}

/-- `w` is a walk along `R` through exactly the labels of `K`. -/
def Walks (R : Λ → Λ → Prop) (lab : T → Λ) (K : Finset T) (w : List Λ) : Prop :=
  w.IsChain R ∧ w.length + 1 = 2 * K.card ∧ ∀ a, a ∈ w ↔ ∃ t ∈ K, lab t = a

theorem Walks.insert {K : Finset T} {w : List Λ} (h : Walks R lab K w) {x y : T} (hx : x ∉ K) (hy : y ∈ K) (h1 : R (lab y) (lab x)) (h2 : R (lab x) (lab y)) :
    ∃ w', Walks R lab (insert x K) w' := by
  obtain ⟨hc, hl, hm⟩ := h
  obtain ⟨u, v, rfl⟩ := List.append_of_mem ((hm (lab y)).2 ⟨y, hy, rfl⟩)
  refine ⟨u ++ lab y :: lab x :: lab y :: v, ?_, ?_, fun a => ?_⟩
  · rw [List.isChain_split] at hc ⊢
    exact ⟨hc.1, .cons_cons h1 (.cons_cons h2 hc.2)⟩
  · rw [Finset.card_insert_of_notMem hx]
    simp only [List.length_append, List.length_cons] at hl ⊢
    omega
  · have := hm a
    simp only [List.mem_append, List.mem_cons, Finset.mem_insert] at this ⊢
    constructor
    · rintro (h | h | h | h | h)
      · obtain ⟨t, ht, e⟩ := this.1 (.inl h); exact ⟨t, .inr ht, e⟩
      · exact ⟨y, .inr hy, h.symm⟩
      · exact ⟨x, .inl rfl, h.symm⟩
      · exact ⟨y, .inr hy, h.symm⟩
      · obtain ⟨t, ht, e⟩ := this.1 (.inr (.inr h)); exact ⟨t, .inr ht, e⟩
    · rintro ⟨t, rfl | ht, rfl⟩
      · exact .inr (.inr (.inl rfl))
      · rcases this.2 ⟨t, ht, rfl⟩ with h | h | h
        · exact .inl h
        · exact .inr (.inl h)
        · exact .inr (.inr (.inr (.inr h)))

/-- A part that can be walked through, and that nothing else is next to. -/
theorem exists_part (hR : ∀ a b, R a b → R b a) (T0 : Finset T) {r : T} (hr : r ∈ T0) :
    ∃ K ⊆ T0, r ∈ K ∧ (∃ w, Walks R lab K w) ∧ ∀ x ∈ T0, x ∉ K → ∀ y ∈ K, ¬ R (lab y) (lab x) := by
  classical
  obtain ⟨K, hK, hmax⟩ := Finset.exists_max_image (T0.powerset.filter fun K => r ∈ K ∧ ∃ w, Walks R lab K w) Finset.card
    ⟨{r}, by
      rw [Finset.mem_filter, Finset.mem_powerset, Finset.singleton_subset_iff]
      exact ⟨hr, by simp, [lab r], by simp, by simp, fun a => by simp [eq_comm]⟩⟩
  rw [Finset.mem_filter, Finset.mem_powerset] at hK
  obtain ⟨hK, hrK, w, hw⟩ := hK
  refine ⟨K, hK, hrK, ⟨w, hw⟩, fun x hx hxK y hy hyx => ?_⟩
  have := hmax (insert x K) (by
    rw [Finset.mem_filter, Finset.mem_powerset]
    exact ⟨Finset.insert_subset hx hK, Finset.mem_insert_of_mem hrK, hw.insert hxK hy hyx (hR _ _ hyx)⟩)
  rw [Finset.card_insert_of_notMem hxK] at this
  omega

/-- A set of errors that fires nothing but flips the observable has a part of this kind that can be walked through. -/
theorem exists_cluster {ι : Type} (hR : ∀ a b, R a b → R b a) (val : T → (ι → ZMod 2)) (obs : T → ZMod 2)
    (hadj : ∀ x y i, val x i ≠ 0 → val y i ≠ 0 → R (lab x) (lab y)) : ∀ (n : Nat) (T0 : Finset T), T0.card = n → ∑ t ∈ T0, val t = 0 → ∑ t ∈ T0, obs t ≠ 0 →
    ∃ K ⊆ T0, (∃ w, Walks R lab K w) ∧ ∑ t ∈ K, val t = 0 ∧ ∑ t ∈ K, obs t ≠ 0 := by
  intro n
  induction n using Nat.strong_induction_on with
  | _ n ih =>
    intro T0 hn hval hobs
    obtain ⟨r, hr⟩ : T0.Nonempty := by
      rw [Finset.nonempty_iff_ne_empty]
      rintro rfl
      simp at hobs
    obtain ⟨K, hK, hrK, hw, hsep⟩ := exists_part (lab := lab) hR T0 hr
    have hs : ∀ f : T → ZMod 2, ∑ t ∈ T0 \ K, f t + ∑ t ∈ K, f t = ∑ t ∈ T0, f t := fun f => Finset.sum_sdiff hK
    -- no detector belongs to both parts
    have hz : ∑ t ∈ K, val t = 0 := by
      funext i
      rw [Finset.sum_apply]
      by_cases h : ∃ y ∈ K, val y i ≠ 0
      · obtain ⟨y, hy, hyi⟩ := h
        have h0 : ∑ t ∈ T0 \ K, val t i = 0 := Finset.sum_eq_zero fun x hx => by
          by_contra hxi
          obtain ⟨hx1, hx2⟩ := Finset.mem_sdiff.1 hx
          exact hsep x hx1 hx2 y hy (hadj y x i hyi hxi)
        have := hs fun t => val t i
        rw [h0, zero_add] at this
        rw [this, ← Finset.sum_apply, hval]
      · push Not at h
        exact Finset.sum_eq_zero h
    by_cases ho : ∑ t ∈ K, obs t = 0
    · have hlt : (T0 \ K).card < n := by
        rw [← hn]
        exact Finset.card_lt_card ⟨Finset.sdiff_subset, fun h => (Finset.mem_sdiff.1 (h hr)).2 hrK⟩
      have hv' : ∑ t ∈ T0 \ K, val t = 0 := by
        have := Finset.sum_sdiff (f := val) hK
        rwa [hz, add_zero, hval] at this
      have ho' : ∑ t ∈ T0 \ K, obs t ≠ 0 := by
        have := hs obs
        rw [ho, add_zero] at this
        rwa [this]
      obtain ⟨K', hK', h⟩ := ih _ hlt (T0 \ K) rfl hv' ho'
      exact ⟨K', hK'.trans Finset.sdiff_subset, h⟩
    · exact ⟨K, hK, hw, hz, ho⟩

end

/-! ## Counting walks -/

section
variable {Λ : Type} [DecidableEq Λ]

/-- The walks with `n` steps from `a`. -/
def walksFrom (nb : Λ → Finset Λ) : Nat → Λ → Finset (List Λ)
  | 0, a => {[a]}
  | n + 1, a => (nb a).biUnion fun b => (walksFrom nb n b).image (a :: ·)

theorem walksFrom_card {nb : Λ → Finset Λ} {D : Nat} (h : ∀ a, (nb a).card ≤ D) : ∀ n a, (walksFrom nb n a).card ≤ D ^ n
  | 0, a => by simp [walksFrom]
  | n + 1, a => by
    rw [walksFrom]
    refine Finset.card_biUnion_le.trans ?_
    calc ∑ b ∈ nb a, ((walksFrom nb n b).image (a :: ·)).card ≤ ∑ _b ∈ nb a, D ^ n :=
          Finset.sum_le_sum fun b _ => Finset.card_image_le.trans (walksFrom_card h n b)
      _ = (nb a).card * D ^ n := by rw [Finset.sum_const, smul_eq_mul]
      _ ≤ D ^ (n + 1) := by rw [pow_succ, Nat.mul_comm]; exact Nat.mul_le_mul le_rfl (h a)

theorem mem_walksFrom {R : Λ → Λ → Prop} {nb : Λ → Finset Λ} (h : ∀ a b, R a b → b ∈ nb a) : ∀ {n : Nat} {a : Λ} {w : List Λ},
    (a :: w).IsChain R → w.length = n → a :: w ∈ walksFrom nb n a
  | 0, a, w, _, hn => by
    rw [List.length_eq_zero_iff] at hn
    subst hn; simp [walksFrom]
  | n + 1, a, [], _, hn => by simp at hn
  | n + 1, a, b :: w, hc, hn => by
    rw [List.isChain_cons_cons] at hc
    rw [walksFrom, Finset.mem_biUnion]
    exact ⟨b, h _ _ hc.1, Finset.mem_image.2 ⟨_, mem_walksFrom h hc.2 (by simpa using hn), rfl⟩⟩

end

/-- A geometric sum in which every power occurs twice. -/
theorem double_geometric {y : ℝ≥0∞} (hy : y ≤ 1 / 2) : ∀ (n D : Nat), ∑ m ∈ Finset.range n, y ^ ((D + m + 1) / 2) ≤ 4 * y ^ ((D + 1) / 2)
  | 0, D => by simp
  | 1, D => by
    simp only [Finset.range_one, Finset.sum_singleton, Nat.add_zero]
    calc y ^ ((D + 1) / 2) = 1 * y ^ ((D + 1) / 2) := (one_mul _).symm
      _ ≤ _ := mul_le_mul' (by norm_num) le_rfl
  | n + 2, D => by
    have hy1 : y ≤ 1 := hy.trans (by simp)
    rw [Finset.sum_range_succ', Finset.sum_range_succ']
    have ih := double_geometric hy n (D + 2)
    have e : ∀ m, (D + 2 + m + 1) / 2 = (D + (m + 1 + 1) + 1) / 2 := fun m => by omega
    simp only [e] at ih
    have e2 : (D + 2 + 1) / 2 = (D + 1) / 2 + 1 := by omega
    rw [e2, pow_succ] at ih
    have h1 : y ^ ((D + (0 + 1) + 1) / 2) ≤ y ^ ((D + 1) / 2) := pow_le_pow_right_of_le_one' hy1 (by omega)
    have h2 : 4 * (y ^ ((D + 1) / 2) * y) ≤ 2 * y ^ ((D + 1) / 2) := by
      calc 4 * (y ^ ((D + 1) / 2) * y) = y ^ ((D + 1) / 2) * (4 * y) := by ring
        _ ≤ y ^ ((D + 1) / 2) * (4 * (1 / 2)) := mul_le_mul' le_rfl (mul_le_mul' le_rfl hy)
        _ = 2 * y ^ ((D + 1) / 2) := by
          rw [mul_comm]
          congr 1
          rw [show (4 : ℝ≥0∞) = 2 * 2 by norm_num, mul_assoc, one_div, ENNReal.mul_inv_cancel (by norm_num) (by norm_num), mul_one]
    calc _ ≤ 2 * y ^ ((D + 1) / 2) + y ^ ((D + 1) / 2) + y ^ ((D + 1) / 2) := by
          refine add_le_add (add_le_add (ih.trans h2) h1) ?_
          simp
      _ = 4 * y ^ ((D + 1) / 2) := by ring

end Honeycomb
