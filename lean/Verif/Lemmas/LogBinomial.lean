import Mathlib.Analysis.SpecialFunctions.Stirling
import Verif.Model.Probability
import Verif.Spec.Probability

/-! # Lemmas for `log_factorial` and `log_binomial` -/

namespace Honeycomb

open Classical

theorem sum_log_range (n : Nat) : ((List.range n).map fun k => Real.log ((k + 1 : Nat) : ℝ)).sum = Real.log (n.factorial : ℝ) := by
  induction n with
  | zero => simp
  | succ n ih =>
    rw [List.range_succ, List.map_append, List.sum_append, ih, Nat.factorial_succ]
    push_cast
    rw [Real.log_mul (by positivity) (by positivity)]
    simp [add_comm]

theorem logFactorial_lt (n : Nat) (h : n < 20) : logFactorial n = Real.log (n.factorial : ℝ) := by
  rw [logFactorial, if_pos (by omega)]
  simpa using sum_log_range n

theorem stirling_tail (n : Nat) (hn : n ≠ 0) :
    Real.log (Stirling.stirlingSeq n) - Real.log (√Real.pi) ≤ 1 / (12 * n) := by
  have hstep : ∀ k : Nat, Real.log (Stirling.stirlingSeq n) - Real.log (Stirling.stirlingSeq (n + k)) ≤
      1 / (12 * n) - 1 / (12 * ((n + k : Nat) : ℝ)) := by
    intro k
    induction k with
    | zero => simp
    | succ k ih =>
      have h := Stirling.log_stirlingSeq_sdiff_le (n + k)
      have e : 1 / (12 * ((n + k : Nat) : ℝ) * (((n + k : Nat) : ℝ) + 1)) =
          1 / (12 * ((n + k : Nat) : ℝ)) - 1 / (12 * ((n + (k + 1) : Nat) : ℝ)) := by
        have h1 : ((n + k : Nat) : ℝ) ≠ 0 := by positivity
        have h2 : ((n + k : Nat) : ℝ) + 1 ≠ 0 := by positivity
        rw [show ((n + (k + 1) : Nat) : ℝ) = ((n + k : Nat) : ℝ) + 1 by push_cast; ring]
        field_simp
        ring
      rw [e] at h
      rw [← add_assoc] at *
      linarith
  have hlim : Filter.Tendsto (fun k : Nat => Real.log (Stirling.stirlingSeq n) - Real.log (Stirling.stirlingSeq (n + k)))
      Filter.atTop (nhds (Real.log (Stirling.stirlingSeq n) - Real.log (√Real.pi))) := by
    have h1 := Stirling.tendsto_stirlingSeq_sqrt_pi.log (Real.sqrt_ne_zero'.2 Real.pi_pos)
    have h2 := (Filter.tendsto_add_atTop_iff_nat n).2 h1
    refine Filter.Tendsto.const_sub _ ?_
    simpa [add_comm] using h2
  refine le_of_tendsto hlim (Filter.Eventually.of_forall fun k => (hstep k).trans ?_)
  have : 0 ≤ 1 / (12 * ((n + k : Nat) : ℝ)) := by positivity
  linarith

/-- Error of the approximation. -/
theorem logFactorial_bounds (n : Nat) :
    0 ≤ Real.log (n.factorial : ℝ) - logFactorial n ∧
      (20 ≤ n → Real.log (n.factorial : ℝ) - logFactorial n ≤ 1 / (12 * n)) ∧
      Real.log (n.factorial : ℝ) - logFactorial n ≤ 1 / 240 := by
  by_cases h : n < 20
  · rw [logFactorial_lt n h]
    refine ⟨by simp, fun h' => by omega, by norm_num⟩
  · have hn : n ≠ 0 := by omega
    have e : logFactorial (n : Int) = ((n : ℝ) + 1 / 2) * Real.log n - n + Real.log (2 * Real.pi) / 2 := by
      rw [logFactorial, if_neg (by omega)]
      push_cast
      rfl
    have hlow := Stirling.le_log_factorial_stirling hn
    have hup := stirling_tail n hn
    have hn0 : (n : ℝ) ≠ 0 := by exact_mod_cast hn
    have hbound : Real.log (n.factorial : ℝ) - logFactorial n ≤ 1 / (12 * n) := by
      rw [Stirling.log_stirlingSeq_formula, Real.log_sqrt Real.pi_pos.le,
        Real.log_mul (by norm_num) hn0, Real.log_div hn0 (Real.exp_ne_zero _), Real.log_exp] at hup
      rw [e, Real.log_mul (by norm_num) Real.pi_ne_zero]
      linarith
    refine ⟨by rw [e]; linarith, fun _ => hbound, hbound.trans ?_⟩
    have : (20 : ℝ) ≤ n := by exact_mod_cast (not_lt.1 h)
    rw [div_le_div_iff₀ (by positivity) (by norm_num)]
    linarith

theorem clamp01_eq (p : ℝ) : min (max p 0) 1 = clamp01 p := by
  unfold clamp01
  split_ifs with h1 h2
  · rw [max_eq_right h1.le]; simp
  · rw [max_eq_left (by linarith), min_eq_right h2.le]
  · rw [max_eq_left (by linarith), min_eq_left (by linarith)]

theorem clamp01_mem (p : ℝ) : 0 ≤ clamp01 p ∧ clamp01 p ≤ 1 := by
  rw [← clamp01_eq]
  exact ⟨le_min (le_max_right _ _) (by norm_num), min_le_right _ _⟩

/-- The part of the log likelihood that depends on the probability. -/
noncomputable def logLik (h m : Nat) (q : ℝ) : EReal :=
  if (q = 0 ∧ h ≠ 0) ∨ (q = 1 ∧ m ≠ 0) then ⊥ else ((Real.log q * h + Real.log (1 - q) * m : ℝ) : EReal)

theorem logBinomial_eq (p : ℝ) (n h : Nat) (hn : h ≤ n) :
    logBinomial p n h = logLik h (n - h) (clamp01 p) +
      ((logFactorial n - logFactorial ((n - h : Nat) : Int) - logFactorial h : ℝ) : EReal) := by
  have hm : (n : Int) - h = ((n - h : Nat) : Int) := by omega
  simp only [logBinomial, clamp01_eq, hm]
  congr 1
  generalize clamp01 p = q
  unfold logLik
  by_cases h0 : q = 0
  · subst h0
    by_cases hh : h = 0
    · simp [hh]
    · simp [hh]
  · by_cases h1 : q = 1
    · subst h1
      by_cases hm0 : n - h = 0
      · simp [hm0]
      · have : ((n - h : Nat) : Int) ≠ 0 := by exact_mod_cast hm0
        simp [hm0]
    · simp only [h0, h1, and_false, if_false, ne_eq, not_false_eq_true, if_true, false_and, or_self]
      rw [zero_add, ← EReal.coe_add]
      push_cast
      rfl

theorem log_choose (n h : Nat) (hn : h ≤ n) : Real.log (n.choose h : ℝ) =
    Real.log (n.factorial : ℝ) - Real.log ((n - h).factorial : ℝ) - Real.log (h.factorial : ℝ) := by
  have e : (n.choose h : ℝ) * (h.factorial : ℝ) * ((n - h).factorial : ℝ) = (n.factorial : ℝ) := by
    exact_mod_cast Nat.choose_mul_factorial_mul_factorial hn
  have c0 : (n.choose h : ℝ) ≠ 0 := by exact_mod_cast (Nat.choose_pos hn).ne'
  have h0 : (h.factorial : ℝ) ≠ 0 := by exact_mod_cast h.factorial_ne_zero
  have m0 : ((n - h).factorial : ℝ) ≠ 0 := by exact_mod_cast (n - h).factorial_ne_zero
  rw [← e, Real.log_mul (mul_ne_zero c0 h0) m0, Real.log_mul c0 h0]
  ring

theorem lnProb_eq (n h : Nat) (q : ℝ) (hn : h ≤ n) :
    lnProb (binomialProb n h q) = logLik h (n - h) q + ((Real.log (n.choose h : ℝ) : ℝ) : EReal) := by
  have c0 : (n.choose h : ℝ) ≠ 0 := by exact_mod_cast (Nat.choose_pos hn).ne'
  unfold lnProb logLik binomialProb
  by_cases hz : (q = 0 ∧ h ≠ 0) ∨ (q = 1 ∧ n - h ≠ 0)
  · rw [if_pos hz, if_pos]
    · rfl
    · rcases hz with ⟨rfl, hh⟩ | ⟨rfl, hh⟩
      · simp [hh]
      · simp [hh]
  · rw [if_neg hz]
    have h1 : q ^ h ≠ 0 := by
      intro hc
      exact hz (.inl (by simpa using hc))
    have h2 : (1 - q) ^ (n - h) ≠ 0 := by
      intro hc
      have hm : n - h ≠ 0 := by
        intro h0
        rw [h0, pow_zero] at hc
        exact one_ne_zero hc
      have := (pow_eq_zero_iff hm).1 hc
      exact hz (.inr ⟨by linarith, hm⟩)
    rw [if_neg (mul_ne_zero (mul_ne_zero c0 h1) h2), ← EReal.coe_add, Real.log_mul (mul_ne_zero c0 h1) h2,
      Real.log_mul c0 h1, Real.log_pow, Real.log_pow]
    congr 1
    ring

/-- Left of the maximum likelihood estimate the log likelihood ascends. -/
theorem logLik_mono (h m : Nat) (p q : ℝ) (hp : 0 ≤ p) (hpq : p ≤ q) (hq : q * (h + m) ≤ h) (hq1 : q ≤ 1) :
    logLik h m p ≤ logLik h m q := by
  rcases eq_or_lt_of_le hpq with rfl | hlt
  · exact le_refl _
  by_cases hp0 : p = 0
  · subst hp0
    by_cases hh : h = 0
    · subst hh
      have hq0 : 0 < q := hlt
      have hm : m = 0 := by
        by_contra hm
        have : (0 : ℝ) < m := by exact_mod_cast Nat.pos_of_ne_zero hm
        have := mul_pos hq0 this
        simp at hq
        linarith
      subst hm
      simp [logLik]
    · simp [logLik, hh]
  · have hp' : 0 < p := lt_of_le_of_ne hp (Ne.symm hp0)
    have hq0 : 0 < q := hp'.trans hlt
    by_cases hq1' : q = 1
    · subst hq1'
      have hm : m = 0 := by
        have : (m : ℝ) ≤ 0 := by linarith
        exact_mod_cast le_antisymm this (by positivity)
      subst hm
      have : ¬ (p = 1) := by intro h1; linarith
      simp only [logLik, hp0, false_and, ne_eq, not_true_eq_false, and_false, or_self, if_false, one_ne_zero]
      rw [EReal.coe_le_coe_iff]
      simp only [Real.log_one, zero_mul, Nat.cast_zero, mul_zero, add_zero]
      exact mul_nonpos_of_nonpos_of_nonneg (Real.log_nonpos hp hlt.le) (by positivity)
    · have hq1'' : q < 1 := lt_of_le_of_ne hq1 hq1'
      have hp1 : p < 1 := hlt.trans hq1''
      simp only [logLik, hp0, hp1.ne, hq0.ne', hq1', false_and, or_self, if_false]
      rw [EReal.coe_le_coe_iff]
      have e1 : Real.log p - Real.log q ≤ p / q - 1 := by
        rw [← Real.log_div hp'.ne' hq0.ne']
        exact Real.log_le_sub_one_of_pos (by positivity)
      have e2 : Real.log (1 - p) - Real.log (1 - q) ≤ (1 - p) / (1 - q) - 1 := by
        rw [← Real.log_div (by linarith) (by linarith)]
        exact Real.log_le_sub_one_of_pos (div_pos (by linarith) (by linarith))
      have hh : (0 : ℝ) ≤ h := by positivity
      have hm : (0 : ℝ) ≤ m := by positivity
      have f1 := mul_le_mul_of_nonneg_right e1 hh
      have f2 := mul_le_mul_of_nonneg_right e2 hm
      have key : (p / q - 1) * h + ((1 - p) / (1 - q) - 1) * m ≤ 0 := by
        have h1q : 1 - q ≠ 0 := by linarith
        have : (p / q - 1) * h + ((1 - p) / (1 - q) - 1) * m = -((q - p) * (h - q * (h + m))) / (q * (1 - q)) := by
          field_simp
          ring
        rw [this]
        apply div_nonpos_of_nonpos_of_nonneg
        · have := mul_nonneg (sub_nonneg.2 hpq) (sub_nonneg.2 hq)
          linarith
        · exact (mul_pos hq0 (by linarith)).le
      linarith

theorem logLik_symm (h m : Nat) (q : ℝ) : logLik h m q = logLik m h (1 - q) := by
  unfold logLik
  have e1 : (1 - q = 0) ↔ q = 1 := ⟨fun h => by linarith, fun h => by linarith⟩
  have e2 : (1 - q = 1) ↔ q = 0 := ⟨fun h => by linarith, fun h => by linarith⟩
  by_cases hz : (q = 0 ∧ h ≠ 0) ∨ (q = 1 ∧ m ≠ 0)
  · rw [if_pos hz, if_pos (by rw [e1, e2]; exact hz.symm)]
  · rw [if_neg hz, if_neg (by rw [e1, e2]; exact fun h => hz h.symm)]
    rw [show 1 - (1 - q) = q by ring, add_comm]

/-- Right of the maximum likelihood estimate it descends. -/
theorem logLik_anti (h m : Nat) (p q : ℝ) (hp : 0 ≤ p) (hpq : p ≤ q) (hph : h ≤ p * (h + m)) (hq1 : q ≤ 1) :
    logLik h m q ≤ logLik h m p := by
  rw [logLik_symm h m q, logLik_symm h m p]
  refine logLik_mono m h (1 - q) (1 - p) (by linarith) (by linarith) ?_ (by linarith)
  linarith

end Honeycomb
