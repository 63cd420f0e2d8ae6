import Mathlib.Data.Nat.Choose.Sum
import Mathlib.Algebra.BigOperators.Fin
import Verif.Spec.Repeat
import Verif.Lemmas.Sampling
import Verif.Lemmas.LogBinomial
import Verif.Lemmas.Search

/-!
# Tails of the binomial distribution

The likelihood of the true rate is rarely much smaller than the maximum likelihood.
-/

namespace Honeycomb
open scoped ENNReal

/-! ## The number of hits -/

theorem binomial_step {R : Type} [CommSemiring R] (p q : R) (g : Nat → R) (n : Nat) :
    ∑ k ∈ Finset.range (n + 2), ((n + 1).choose k : R) * p ^ k * q ^ (n + 1 - k) * g k =
      p * ∑ k ∈ Finset.range (n + 1), (n.choose k : R) * p ^ k * q ^ (n - k) * g (k + 1) +
      q * ∑ k ∈ Finset.range (n + 1), (n.choose k : R) * p ^ k * q ^ (n - k) * g k := by
  have h1 : q * ∑ k ∈ Finset.range (n + 1), (n.choose k : R) * p ^ k * q ^ (n - k) * g k =
      ∑ k ∈ Finset.range (n + 2), (n.choose k : R) * p ^ k * q ^ (n + 1 - k) * g k := by
    rw [Finset.sum_range_succ _ (n + 1), Nat.choose_succ_self, Finset.mul_sum]
    simp only [Nat.cast_zero, zero_mul, add_zero]
    refine Finset.sum_congr rfl fun k hk => ?_
    have := Finset.mem_range.1 hk
    rw [show n + 1 - k = n - k + 1 by omega, pow_succ]
    ring
  rw [h1, Finset.sum_range_succ', Finset.sum_range_succ' (fun k => (n.choose k : R) * p ^ k * q ^ (n + 1 - k) * g k), ← add_assoc, Finset.mul_sum,
    ← Finset.sum_add_distrib]
  congr 1
  · refine Finset.sum_congr rfl fun k hk => ?_
    rw [Nat.choose_succ_succ, Nat.cast_add, show n + 1 - (k + 1) = n - k by omega, pow_succ]
    ring
  · simp

/-- The number of hits among independent samples has a binomial distribution. -/
theorem mean_independent {α : Type} (D : PMF α) (hit : α → Bool) : ∀ (n : Nat) (g : Nat → ℝ≥0∞),
    mean (independent D n) (fun l => g (l.countP hit)) = ∑ k ∈ Finset.range (n + 1),
      (n.choose k : ℝ≥0∞) * D.toOuterMeasure {x | hit x = true} ^ k * D.toOuterMeasure {x | hit x = false} ^ (n - k) * g k
  | 0, g => by
    rw [independent, mean_pure]
    simp
  | n + 1, g => by
    rw [independent, mean_bind, binomial_step, ← mean_independent D hit n, ← mean_independent D hit n]
    have e : ∀ x, mean ((independent D n).map (x :: ·)) (fun l => g (l.countP hit)) =
        Set.indicator {x | hit x = true} 1 x * mean (independent D n) (fun l => g (l.countP hit + 1)) +
        Set.indicator {x | hit x = false} 1 x * mean (independent D n) (fun l => g (l.countP hit)) := fun x => by
      rw [mean_map]
      cases hx : hit x
      · rw [Set.indicator_of_notMem (by simp [hx]), Set.indicator_of_mem (by simp [hx])]
        simp [List.countP_cons, hx]
      · rw [Set.indicator_of_mem (by simp [hx]), Set.indicator_of_notMem (by simp [hx])]
        simp [List.countP_cons, hx]
    simp only [e]
    have m : ∀ S : Set α, D.toOuterMeasure S = mean D (S.indicator 1) := fun S => by
      rw [PMF.toOuterMeasure_apply, mean]
      refine tsum_congr fun x => ?_
      by_cases h : x ∈ S
      · rw [Set.indicator_of_mem h, Set.indicator_of_mem h, Pi.one_apply, mul_one]
      · rw [Set.indicator_of_notMem h, Set.indicator_of_notMem h, mul_zero]
    rw [m, m, ← mean_mul_const, ← mean_mul_const]
    unfold mean
    rw [← ENNReal.tsum_add]
    simp only [_root_.mul_add]

theorem hit_not {α : Type} (D : PMF α) (hit : α → Bool) : D.toOuterMeasure {x | hit x = true} + D.toOuterMeasure {x | hit x = false} = 1 := by
  have h := mean_independent D hit 1 fun _ => 1
  rw [mean_const] at h
  simp [Finset.sum_range_succ] at h
  rw [add_comm]
  exact h.symm

theorem independent_length {α : Type} (D : PMF α) : ∀ (n : Nat) {l : List α}, l ∈ (independent D n).support → l.length = n
  | 0, l, h => by
    rw [independent, PMF.support_pure, Set.mem_singleton_iff] at h
    rw [h]; rfl
  | n + 1, l, h => by
    rw [independent, PMF.mem_support_bind_iff] at h
    obtain ⟨x, -, h⟩ := h
    rw [PMF.mem_support_map_iff] at h
    obtain ⟨m, hm, rfl⟩ := h
    rw [List.length_cons, independent_length D n hm]

/-! ## Tails -/

theorem binomialProb_nonneg {n k : Nat} {p : ℝ} (h0 : 0 ≤ p) (h1 : p ≤ 1) : 0 ≤ binomialProb n k p :=
  mul_nonneg (mul_nonneg (by positivity) (by positivity)) (pow_nonneg (by linarith) _)

theorem binomialProb_sum (n : Nat) (p : ℝ) : ∑ k ∈ Finset.range (n + 1), binomialProb n k p = 1 := by
  have h := add_pow p (1 - p) n
  rw [show p + (1 - p) = 1 by ring, one_pow] at h
  rw [h]
  refine Finset.sum_congr rfl fun k _ => ?_
  rw [binomialProb]
  ring

theorem binomialProb_symm {n k : Nat} (hk : k ≤ n) (p : ℝ) : binomialProb n (n - k) (1 - p) = binomialProb n k p := by
  rw [binomialProb, binomialProb, Nat.choose_symm hk, Nat.sub_sub_self hk, sub_sub_cancel]
  ring

theorem binomialProb_mle {n k : Nat} (hn : 0 < n) (hk : k ≤ n) : 0 < binomialProb n k ((k : ℝ) / n) := by
  have hn' : (0 : ℝ) < n := by exact_mod_cast hn
  have hk' : (k : ℝ) ≤ n := by exact_mod_cast hk
  have hc : (0 : ℝ) < n.choose k := by exact_mod_cast Nat.choose_pos hk
  refine mul_pos (mul_pos hc ?_) ?_
  · rcases Nat.eq_zero_or_pos k with rfl | h
    · simp
    · have : (0 : ℝ) < k := by exact_mod_cast h
      positivity
  · rcases Nat.eq_or_lt_of_le hk with rfl | h
    · simp
    · have h' : (k : ℝ) < n := by exact_mod_cast h
      refine pow_pos ?_ _
      rw [sub_pos, div_lt_one hn']
      exact h'

/-- Above the true rate. -/
theorem upper_tail {n : Nat} (hn : 0 < n) {p r : ℝ} (h0 : 0 ≤ p) (h1 : p ≤ 1) (hr : 0 ≤ r) (A : Finset Nat)
    (hA : ∀ k ∈ A, k ≤ n ∧ p ≤ (k : ℝ) / n ∧ binomialProb n k p ≤ r * binomialProb n k ((k : ℝ) / n)) : ∑ k ∈ A, binomialProb n k p ≤ r := by
  rcases A.eq_empty_or_nonempty with rfl | hne
  · simpa using hr
  set a := A.min' hne with ha
  obtain ⟨han, hpq, hL⟩ := hA a (A.min'_mem hne)
  set q : ℝ := (a : ℝ) / n with hq
  have hn' : (0 : ℝ) < n := by exact_mod_cast hn
  have hq1 : q ≤ 1 := by
    rw [hq, div_le_one hn']
    exact_mod_cast han
  have hq0 : 0 ≤ q := h0.trans hpq
  have hpos : 0 < binomialProb n a q := binomialProb_mle hn han
  have key : ∀ k ∈ A, binomialProb n k p ≤ r * binomialProb n k q := fun k hk => by
    have hak : a ≤ k := A.min'_le k hk
    have hkn := (hA k hk).1
    obtain ⟨j, rfl⟩ := Nat.exists_eq_add_of_le hak
    -- the likelihood ratio falls
    have hj : p ^ j * (1 - q) ^ j ≤ (1 - p) ^ j * q ^ j := by
      rw [← mul_pow, ← mul_pow]
      exact pow_le_pow_left₀ (mul_nonneg h0 (by linarith)) (by nlinarith) _
    have hc : binomialProb n (a + j) p * binomialProb n a q ≤ binomialProb n a p * binomialProb n (a + j) q := by
      unfold binomialProb
      have e : n - a = n - (a + j) + j := by omega
      rw [e]
      set C : ℝ := (n.choose (a + j) : ℝ) * (n.choose a : ℝ) * p ^ a * q ^ a * (1 - p) ^ (n - (a + j)) * (1 - q) ^ (n - (a + j)) with hC
      have hC0 : 0 ≤ C := by
        have := pow_nonneg (sub_nonneg.2 h1) (n - (a + j))
        have := pow_nonneg (sub_nonneg.2 hq1) (n - (a + j))
        positivity
      calc _ = C * (p ^ j * (1 - q) ^ j) := by rw [hC, pow_add, pow_add]; ring
        _ ≤ C * ((1 - p) ^ j * q ^ j) := mul_le_mul_of_nonneg_left hj hC0
        _ = _ := by rw [hC, pow_add, pow_add]; ring
    have hk0 := binomialProb_nonneg (n := n) (k := a + j) hq0 hq1
    refine le_of_mul_le_mul_right (hc.trans ?_) hpos
    calc _ ≤ r * binomialProb n a q * binomialProb n (a + j) q := mul_le_mul_of_nonneg_right hL hk0
      _ = _ := by ring
  calc ∑ k ∈ A, binomialProb n k p ≤ ∑ k ∈ A, r * binomialProb n k q := Finset.sum_le_sum key
    _ = r * ∑ k ∈ A, binomialProb n k q := by rw [Finset.mul_sum]
    _ ≤ r * ∑ k ∈ Finset.range (n + 1), binomialProb n k q := by
      refine mul_le_mul_of_nonneg_left (Finset.sum_le_sum_of_subset_of_nonneg (fun k hk => ?_) fun k _ _ => binomialProb_nonneg hq0 hq1) hr
      exact Finset.mem_range.2 (Nat.lt_succ_of_le (hA k hk).1)
    _ = r := by rw [binomialProb_sum, mul_one]

/-- Below the true rate. -/
theorem lower_tail {n : Nat} (hn : 0 < n) {p r : ℝ} (h0 : 0 ≤ p) (h1 : p ≤ 1) (hr : 0 ≤ r) (A : Finset Nat)
    (hA : ∀ k ∈ A, k ≤ n ∧ (k : ℝ) / n ≤ p ∧ binomialProb n k p ≤ r * binomialProb n k ((k : ℝ) / n)) : ∑ k ∈ A, binomialProb n k p ≤ r := by
  have hn' : (n : ℝ) ≠ 0 := by exact_mod_cast hn.ne'
  have hinj : Set.InjOn (fun k => n - k) (A : Set Nat) := fun k hk k' hk' e => by
    have := (hA k hk).1
    have := (hA k' hk').1
    dsimp only at e
    omega
  calc ∑ k ∈ A, binomialProb n k p = ∑ k ∈ A, binomialProb n (n - k) (1 - p) := Finset.sum_congr rfl fun k hk => (binomialProb_symm (hA k hk).1 p).symm
    _ = ∑ k ∈ A.image fun k => n - k, binomialProb n k (1 - p) := by rw [Finset.sum_image hinj]
    _ ≤ r := upper_tail hn (by linarith) (by linarith) hr _ fun k' hk' => by
      obtain ⟨k, hk, rfl⟩ := Finset.mem_image.1 hk'
      obtain ⟨h2, h3, h4⟩ := hA k hk
      have e : ((n - k : Nat) : ℝ) / n = 1 - (k : ℝ) / n := by rw [Nat.cast_sub h2, sub_div, div_self hn']
      refine ⟨Nat.sub_le _ _, by rw [e]; linarith, ?_⟩
      rw [e, binomialProb_symm h2, binomialProb_symm h2]
      exact h4

/-! ## Likelihoods -/

/-- Left of the maximum likelihood estimate the likelihood ascends strictly. -/
theorem likelihood_strict {h m : Nat} {p q : ℝ} (hh : 0 < h) (hp : 0 ≤ p) (hpq : p < q) (hq : q * (h + m) ≤ h) (hq1 : q ≤ 1) :
    p ^ h * (1 - p) ^ m < q ^ h * (1 - q) ^ m := by
  have hhR : (0 : ℝ) < h := by exact_mod_cast hh
  have hq0 : 0 < q := hp.trans_lt hpq
  rcases Nat.eq_zero_or_pos m with rfl | hm
  · simpa using pow_lt_pow_left₀ hpq hp hh.ne'
  have hmR : (0 : ℝ) < m := by exact_mod_cast hm
  have hq1 : q < 1 := by
    by_contra hc
    have : (h : ℝ) + m ≤ q * (h + m) := by nlinarith
    linarith
  have hR : 0 < q ^ h * (1 - q) ^ m := mul_pos (pow_pos hq0 _) (pow_pos (by linarith) _)
  rcases eq_or_lt_of_le hp with rfl | hp0
  · rw [zero_pow hh.ne', zero_mul]
    exact hR
  have hL : 0 < p ^ h * (1 - p) ^ m := mul_pos (pow_pos hp0 _) (pow_pos (by linarith) _)
  rw [← Real.log_lt_log_iff hL hR, Real.log_mul (pow_pos hp0 _).ne' (pow_pos (by linarith) _).ne', Real.log_mul (pow_pos hq0 _).ne' (pow_pos (by linarith) _).ne',
    Real.log_pow, Real.log_pow, Real.log_pow, Real.log_pow]
  have e1 : Real.log p - Real.log q < p / q - 1 := by
    rw [← Real.log_div hp0.ne' hq0.ne']
    exact Real.log_lt_sub_one_of_pos (by positivity) (by rw [Ne, div_eq_one_iff_eq hq0.ne']; exact hpq.ne)
  have e2 : Real.log (1 - p) - Real.log (1 - q) ≤ (1 - p) / (1 - q) - 1 := by
    rw [← Real.log_div (by linarith) (by linarith)]
    exact Real.log_le_sub_one_of_pos (div_pos (by linarith) (by linarith))
  have key : (p / q - 1) * h + ((1 - p) / (1 - q) - 1) * m ≤ 0 := by
    have h1q : 1 - q ≠ 0 := by linarith
    have : (p / q - 1) * h + ((1 - p) / (1 - q) - 1) * m = -((q - p) * (h - q * (h + m))) / (q * (1 - q)) := by
      field_simp
      ring
    rw [this]
    apply div_nonpos_of_nonpos_of_nonneg
    · have := mul_nonneg (sub_nonneg.2 hpq.le) (sub_nonneg.2 hq)
      linarith
    · exact (mul_pos hq0 (by linarith)).le
  nlinarith [mul_lt_mul_of_pos_right e1 hhR, mul_le_mul_of_nonneg_right e2 hmR.le]

/-- The same for the binomial probability. -/
theorem binomialProb_strict {n k : Nat} (hk0 : 0 < k) (hk : k ≤ n) {p q : ℝ} (hp : 0 ≤ p) (hpq : p < q) (hq : q ≤ (k : ℝ) / n) :
    binomialProb n k p < binomialProb n k q := by
  have hn' : (0 : ℝ) < n := by exact_mod_cast hk0.trans_le hk
  have hk' : (k : ℝ) ≤ n := by exact_mod_cast hk
  have hc : (0 : ℝ) < n.choose k := by exact_mod_cast Nat.choose_pos hk
  rw [binomialProb, binomialProb, mul_assoc, mul_assoc]
  refine mul_lt_mul_of_pos_left (likelihood_strict hk0 hp hpq ?_ (hq.trans ((div_le_one hn').2 hk'))) hc
  rw [Nat.cast_sub hk, add_sub_cancel]
  exact (le_div_iff₀ hn').1 hq

theorem lnProb_lt {x y : ℝ} (hx : 0 ≤ x) (h : x < y) : lnProb x < lnProb y := by
  rw [lnProb, lnProb, if_neg (hx.trans_lt h).ne']
  split_ifs with h0
  · exact EReal.bot_lt_coe _
  · exact EReal.coe_lt_coe_iff.2 (Real.log_lt_log (lt_of_le_of_ne hx (Ne.symm h0)) h)

theorem lnProb_le {x y r : ℝ} (hy : 0 < y) (hr : 0 < r) (h : lnProb x ≤ lnProb y + ((Real.log r : ℝ) : EReal)) (hx : 0 ≤ x) : x ≤ r * y := by
  rcases eq_or_lt_of_le hx with rfl | hx
  · positivity
  rw [lnProb, lnProb, if_neg hx.ne', if_neg hy.ne', ← EReal.coe_add, EReal.coe_le_coe_iff, ← Real.log_mul hy.ne' hr.ne'] at h
  rw [mul_comm]
  exact (Real.log_le_log_iff hx (by positivity)).1 h

/-- Of two values above the target the closer one is the smaller one. -/
theorem gap_lt {a b : EReal} {t : ℝ} (ha : (t : EReal) < a) (hab : a < b) (hb : b ≠ ⊤) : gap a t < gap b t := by
  induction b with
  | bot => exact absurd hab (by simp)
  | top => exact absurd rfl hb
  | coe b =>
    induction a with
    | bot => exact absurd ha (by simp)
    | top => exact absurd hab (by simp)
    | coe a =>
      unfold gap
      rw [if_neg ha.ne', if_neg (ha.trans hab).ne', ← EReal.coe_sub, ← EReal.coe_sub, EReal.abs_def, EReal.abs_def]
      have h1 : t < a := EReal.coe_lt_coe_iff.1 ha
      have h2 : a < b := EReal.coe_lt_coe_iff.1 hab
      rw [abs_of_pos (by linarith), abs_of_pos (by linarith)]
      exact (ENNReal.ofReal_lt_ofReal_iff (by linarith)).2 (by linarith)

theorem lnProb_ne_top (x : ℝ) : lnProb x ≠ ⊤ := by
  rw [lnProb]
  split_ifs <;> simp

end Honeycomb
