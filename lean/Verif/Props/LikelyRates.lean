import Mathlib.Analysis.SpecialFunctions.Pow.Real
import Verif.Props.Confidence

/-!
# C119: the bounds delimit the likely rates

`binomialProb` (`Spec/Probability.lean`): the probability of a number of hits among independent samples.
-/

namespace Honeycomb

/-- Of two values below the target the closer one is the larger one. -/
theorem gap_lt_below {a b : EReal} {t : ℝ} (hb : b < (t : EReal)) (hab : a < b) : gap b t < gap a t := by
  induction b with
  | bot => exact absurd hab (by simp)
  | top => exact absurd hb (by simp)
  | coe b =>
    have h1 : b < t := EReal.coe_lt_coe_iff.1 hb
    have e : gap (b : EReal) t = ENNReal.ofReal (t - b) := by
      unfold gap
      rw [if_neg hb.ne, ← EReal.coe_sub, EReal.abs_def, abs_of_neg (by linarith), neg_sub]
    rw [e]
    induction a with
    | bot =>
      unfold gap
      rw [if_neg (by simp)]
      simp
    | top => exact absurd hab (by simp)
    | coe a =>
      have h2 : a < b := EReal.coe_lt_coe_iff.1 hab
      unfold gap
      rw [if_neg (hab.trans hb).ne, ← EReal.coe_sub, EReal.abs_def, abs_of_neg (by linarith), neg_sub]
      exact (ENNReal.ofReal_lt_ofReal_iff (by linarith)).2 (by linarith)

/-- A rate above the lower bound (plus a grid step) has enough likelihood. -/
theorem above_low {n h low : Nat} (hn : 0 < n) (hle : h ≤ n) {p ratio : ℝ} (hr : 0 < ratio)
    (hbest : ∀ k, k ≤ 100 * h →
      gap (lnProb (binomialProb n h ((low : ℝ) / (100 * n)))) (lnProb (binomialProb n h ((h : ℝ) / n)) + ((Real.log ratio : ℝ) : EReal)) ≤
      gap (lnProb (binomialProb n h ((k : ℝ) / (100 * n)))) (lnProb (binomialProb n h ((h : ℝ) / n)) + ((Real.log ratio : ℝ) : EReal)))
    (hlt : (low : ℝ) / (100 * n) + 1 / (100 * n) < p) (hph : p ≤ (h : ℝ) / n) : ratio * binomialProb n h ((h : ℝ) / n) ≤ binomialProb n h p := by
  have hn' : (0 : ℝ) < n := by exact_mod_cast hn
  have hle' : (h : ℝ) ≤ n := by exact_mod_cast hle
  have hmle := binomialProb_mle hn hle
  have e : (low : ℝ) / (100 * n) + 1 / (100 * n) = ((low + 1 : Nat) : ℝ) / (100 * n) := by
    push_cast
    ring
  rw [e] at hlt
  have hk0 : (0 : ℝ) < ((low + 1 : Nat) : ℝ) / (100 * n) := by positivity
  have hh : 0 < h := by
    rcases Nat.eq_zero_or_pos h with rfl | h0
    · simp at hph
      linarith
    · exact h0
  have hkh : low + 1 ≤ 100 * h := by
    have h1 := hlt.trans_le hph
    rw [div_lt_div_iff₀ (by positivity) hn'] at h1
    have h2 : ((low + 1 : Nat) : ℝ) < 100 * h := by nlinarith
    exact_mod_cast h2.le
  have h1 : (h : ℝ) / n ≤ 1 := (div_le_one hn').2 hle'
  have hlk : (low : ℝ) / (100 * n) < ((low + 1 : Nat) : ℝ) / (100 * n) := by
    refine div_lt_div_of_pos_right ?_ (by positivity)
    push_cast
    linarith
  have hl0 : (0 : ℝ) ≤ (low : ℝ) / (100 * n) := by positivity
  by_contra hc
  rw [not_le] at hc
  have hp0 : 0 ≤ p := by linarith
  have s1 := lnProb_lt (binomialProb_nonneg (n := n) (k := h) hl0 (by linarith)) (binomialProb_strict hh hle hl0 hlk (hlt.le.trans hph))
  have s2 := lnProb_lt (binomialProb_nonneg (n := n) (k := h) hk0.le (by linarith)) (binomialProb_strict hh hle hk0.le hlt hph)
  have s3 := lnProb_lt (binomialProb_nonneg (n := n) (k := h) hp0 (by linarith)) hc
  have hT : lnProb (ratio * binomialProb n h ((h : ℝ) / n)) = ((Real.log (binomialProb n h ((h : ℝ) / n)) + Real.log ratio : ℝ) : EReal) := by
    rw [lnProb, if_neg (mul_pos hr hmle).ne', Real.log_mul hr.ne' hmle.ne', add_comm]
  have hT' : lnProb (binomialProb n h ((h : ℝ) / n)) + ((Real.log ratio : ℝ) : EReal) = ((Real.log (binomialProb n h ((h : ℝ) / n)) + Real.log ratio : ℝ) : EReal) := by
    rw [lnProb, if_neg hmle.ne', EReal.coe_add]
  have hb := hbest (low + 1) hkh
  rw [hT'] at hb
  rw [hT] at s3
  exact absurd hb (not_le.2 (gap_lt_below (s2.trans s3) s1))

/-- A rate below the upper bound (minus a grid step) has enough likelihood. -/
theorem below_high {n h high : Nat} (hn : 0 < n) (hle : h ≤ n) {p ratio : ℝ} (hr : 0 < ratio) (hhigh : 100 * h ≤ high) (hhn : high ≤ 100 * n)
    (hbest : ∀ k, 100 * h ≤ k → k ≤ 100 * n →
      gap (lnProb (binomialProb n h ((high : ℝ) / (100 * n)))) (lnProb (binomialProb n h ((h : ℝ) / n)) + ((Real.log ratio : ℝ) : EReal)) ≤
      gap (lnProb (binomialProb n h ((k : ℝ) / (100 * n)))) (lnProb (binomialProb n h ((h : ℝ) / n)) + ((Real.log ratio : ℝ) : EReal)))
    (hlt : p < (high : ℝ) / (100 * n) - 1 / (100 * n)) (hph : (h : ℝ) / n ≤ p) : ratio * binomialProb n h ((h : ℝ) / n) ≤ binomialProb n h p := by
  have hn' : (n : ℝ) ≠ 0 := by exact_mod_cast hn.ne'
  have c1 : ∀ k : Nat, k ≤ 100 * n → ((100 * n - k : Nat) : ℝ) / (100 * n) = 1 - (k : ℝ) / (100 * n) := fun k hk => by
    rw [Nat.cast_sub hk]
    push_cast
    rw [sub_div, div_self (by simpa using hn')]
  have c2 : ((n - h : Nat) : ℝ) / n = 1 - (h : ℝ) / n := by rw [Nat.cast_sub hle, sub_div, div_self hn']
  have key := above_low (n := n) (h := n - h) (low := 100 * n - high) hn (Nat.sub_le _ _) (p := 1 - p) hr (fun k hk => by
    have := hbest (100 * n - k) (by omega) (Nat.sub_le _ _)
    rw [c1 _ hhn, c2, binomialProb_symm hle, binomialProb_symm hle]
    rw [c1 k (by omega), ← binomialProb_symm hle (1 - (k : ℝ) / (100 * n)), sub_sub_cancel] at this
    exact this) (by rw [c1 _ hhn]; linarith) (by rw [c2]; linarith)
  rw [c2, binomialProb_symm hle, binomialProb_symm hle] at key
  exact key

/-- C119: the bounds of `likely_error_rate_bounds` delimit, up to a step of the grid, the rates that explain the data at least `ratio` times as well as the observed rate. -/
theorem c119_rates (n h : Nat) (hn : 0 < n) (hle : h ≤ n) (seconds : Rat) (ratio : ℝ) (hr : 0 < ratio) :
    ∃ low high : ℝ, (ShotData.mk n ((n : Int) - h) seconds).likelyErrorRateBounds ratio = .ok (low, high) ∧ 0 ≤ low ∧ low ≤ (h : ℝ) / n ∧ (h : ℝ) / n ≤ high ∧ high ≤ 1 ∧
      ∀ p, 0 ≤ p → p ≤ 1 →
        (p < low - 1 / (100 * n) ∨ high + 1 / (100 * n) < p → binomialProb n h p ≤ ratio * binomialProb n h ((h : ℝ) / n)) ∧
        (low + 1 / (100 * n) < p ∧ p ≤ (h : ℝ) / n ∨ (h : ℝ) / n ≤ p ∧ p < high - 1 / (100 * n) →
          ratio * binomialProb n h ((h : ℝ) / n) ≤ binomialProb n h p) := by
  obtain ⟨low, high, hok, a1, a2, a3, a4, a5⟩ := c44_bounds (ShotData.mk n ((n : Int) - h) seconds) ratio n h rfl (by simp) hn hle hr
  have hn' : (0 : ℝ) < n := by exact_mod_cast hn
  have b1 : (low : ℝ) ≤ 100 * h := by exact_mod_cast a1
  have b2 : (100 * h : ℝ) ≤ high := by exact_mod_cast a2
  have b3 : (high : ℝ) ≤ 100 * n := by exact_mod_cast a3
  refine ⟨_, _, hok, by positivity, ?_, ?_, ?_, fun p hp0 hp1 => ⟨?_, ?_⟩⟩
  · rw [div_le_div_iff₀ (by positivity) hn']
    nlinarith
  · rw [div_le_div_iff₀ hn' (by positivity)]
    nlinarith
  · rw [div_le_one (by positivity)]
    exact b3
  · rintro (h1 | h1)
    · exact (below_low hn hle hr hp0 a1 a4 h1).2
    · exact (above_high hn hle hr hp1 a2 a3 a5 h1).2
  · rintro (⟨h1, h2⟩ | ⟨h1, h2⟩)
    · exact above_low hn hle hr a4 h1 h2
    · exact below_high hn hle hr a2 a3 a5 h2 h1

/-- C119: if no shot was wrong, the lower bound is 0 and the upper bound is `1 - ratio ^ (1 / n)`, up to a step of the grid. -/
theorem c119_no_errors (n : Nat) (hn : 0 < n) (seconds : Rat) (ratio : ℝ) (hr : 0 < ratio) (hr1 : ratio ≤ 1) :
    ∃ high : ℝ, (ShotData.mk n n seconds).likelyErrorRateBounds ratio = .ok (0, high) ∧ |high - (1 - ratio ^ (1 / (n : ℝ)))| ≤ 1 / (100 * n) := by
  obtain ⟨low, high, hok, h1, h2, h3, h4, h⟩ := c119_rates n 0 hn (Nat.zero_le _) seconds ratio hr
  have hn' : (0 : ℝ) < n := by exact_mod_cast hn
  have hstep : (0 : ℝ) < 1 / (100 * n) := by positivity
  rw [Nat.cast_zero, zero_div] at h2 h3 h
  obtain rfl : low = 0 := le_antisymm h2 h1
  rw [Nat.cast_zero, sub_zero] at hok
  refine ⟨high, hok, ?_⟩
  have L : ∀ p, binomialProb n 0 p = (1 - p) ^ n := fun p => by simp [binomialProb]
  simp only [L, sub_zero, one_pow, mul_one] at h
  set x := 1 - ratio ^ (1 / (n : ℝ)) with hx
  have hroot0 : 0 < ratio ^ (1 / (n : ℝ)) := Real.rpow_pos_of_pos hr _
  have hroot1 : ratio ^ (1 / (n : ℝ)) ≤ 1 := Real.rpow_le_one hr.le hr1 (by positivity)
  have hpow : (1 - x) ^ n = ratio := by
    rw [hx, sub_sub_cancel, one_div]
    exact Real.rpow_inv_natCast_pow hr.le hn.ne'
  rw [abs_le]
  constructor
  · by_contra hc
    rw [not_le] at hc
    obtain ⟨p, p1, p2⟩ := exists_between (show high + 1 / (100 * n) < x by linarith)
    have := (h p (by linarith) (by linarith)).1 (.inr p1)
    have hlt : (1 - x) ^ n < (1 - p) ^ n := pow_lt_pow_left₀ (by linarith) (by linarith) hn.ne'
    linarith
  · by_contra hc
    rw [not_le] at hc
    obtain ⟨p, p1, p2⟩ := exists_between (show x < high - 1 / (100 * n) by linarith)
    have := (h p (by linarith) (by linarith)).2 (.inr ⟨by linarith, p2⟩)
    have hlt : (1 - p) ^ n < (1 - x) ^ n := pow_lt_pow_left₀ (by linarith) (by linarith) hn.ne'
    linarith

/-! ## Examples -/

/-- The hypotheses of `c119_rates`: three errors in ten shots, and the ratio of the figures. -/
example : ∃ low high : ℝ, (ShotData.mk 10 7 1).likelyErrorRateBounds (1 / 1000) = .ok (low, high) ∧ low ≤ 3 / 10 ∧ 3 / 10 ≤ high := by
  obtain ⟨low, high, h1, -, h3, h4, -⟩ := c119_rates 10 3 (by norm_num) (by norm_num) 1 (1 / 1000) (by norm_num)
  norm_num at h1 h3 h4 ⊢
  exact ⟨low, high, h1, h3, h4⟩

/-- Ten shots without an error: with the ratio `1 / 1024` the upper bound is `1 / 2`, up to `1 / 1000`. -/
example : ∃ high : ℝ, (ShotData.mk 10 10 1).likelyErrorRateBounds (1 / 1024) = .ok (0, high) ∧ |high - 1 / 2| ≤ 1 / 1000 := by
  obtain ⟨high, h1, h2⟩ := c119_no_errors 10 (by norm_num) 1 (1 / 1024) (by norm_num) (by norm_num)
  have e : (1 / 1024 : ℝ) ^ (1 / ((10 : Nat) : ℝ)) = 1 / 2 := by
    rw [show (1 / 1024 : ℝ) = (1 / 2) ^ 10 by norm_num, one_div ((10 : Nat) : ℝ)]
    exact Real.pow_rpow_inv_natCast (by norm_num) (by norm_num)
  rw [e] at h2
  norm_num at h2 h1 ⊢
  exact ⟨high, h1, h2⟩

end Honeycomb
