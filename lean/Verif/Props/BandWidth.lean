import Mathlib.Analysis.Calculus.Deriv.MeanValue
import Mathlib.Analysis.SpecialFunctions.ExpDeriv
import Verif.Props.LikelyRates

/-!
# C120, C121: the bounds and the ratio, and how the bounds shrink

`binomialProb` (`Spec/Probability.lean`): the probability of a number of hits among independent samples.
-/

namespace Honeycomb

theorem gap_real (a t : ℝ) : gap (a : EReal) t = ENNReal.ofReal |a - t| := by
  unfold gap
  split
  · rename_i h
    rw [EReal.coe_eq_coe_iff] at h
    simp [h]
  · rw [← EReal.coe_sub, EReal.abs_def]

/-- The value closest to a smaller target is not larger. -/
theorem gap_cross {a b : EReal} {t1 t2 : ℝ} (hb : b ≠ ⊤) (hab : a < b) (ht : t1 < t2) (h1 : gap b t1 ≤ gap a t1) (h2 : gap a t2 ≤ gap b t2) : False := by
  induction b with
  | bot => exact absurd hab (by simp)
  | top => exact hb rfl
  | coe b =>
    induction a with
    | bot =>
      rw [gap_real] at h2
      unfold gap at h2
      rw [if_neg (by simp)] at h2
      simp at h2
    | top => exact absurd hab (by simp)
    | coe a =>
      have h3 : a < b := EReal.coe_lt_coe_iff.1 hab
      rw [gap_real, gap_real, ENNReal.ofReal_le_ofReal_iff (abs_nonneg _), ← sq_le_sq] at h1 h2
      nlinarith

theorem grid_lt {n a b : Nat} (hn : 0 < n) (h : a < b) : (a : ℝ) / (100 * n) < (b : ℝ) / (100 * n) := by
  have hn' : (0 : ℝ) < n := by exact_mod_cast hn
  exact div_lt_div_of_pos_right (by exact_mod_cast h) (by positivity)

/-- C120: a smaller ratio never narrows the bounds. -/
theorem c120_ratio (n h : Nat) (hn : 0 < n) (hle : h ≤ n) (seconds : Rat) (r1 r2 : ℝ) (hr : 0 < r1) (h12 : r1 ≤ r2) :
    ∃ low1 high1 low2 high2 : ℝ, (ShotData.mk n ((n : Int) - h) seconds).likelyErrorRateBounds r1 = .ok (low1, high1) ∧
      (ShotData.mk n ((n : Int) - h) seconds).likelyErrorRateBounds r2 = .ok (low2, high2) ∧ low1 ≤ low2 ∧ high2 ≤ high1 := by
  have hn' : (0 : ℝ) < n := by exact_mod_cast hn
  have hmle := binomialProb_mle hn hle
  obtain ⟨low1, high1, hok1, a1, a2, a3, a4, a5⟩ := c44_bounds (ShotData.mk n ((n : Int) - h) seconds) r1 n h rfl (by simp) hn hle hr
  rcases h12.eq_or_lt with rfl | hlt
  · exact ⟨_, _, _, _, hok1, hok1, le_rfl, le_rfl⟩
  obtain ⟨low2, high2, hok2, b1, b2, b3, b4, b5⟩ := c44_bounds (ShotData.mk n ((n : Int) - h) seconds) r2 n h rfl (by simp) hn hle (hr.trans hlt)
  have ht : ∀ r : ℝ, lnProb (binomialProb n h ((h : ℝ) / n)) + ((Real.log r : ℝ) : EReal) = ((Real.log (binomialProb n h ((h : ℝ) / n)) + Real.log r : ℝ) : EReal) := fun r => by
    rw [lnProb, if_neg hmle.ne', EReal.coe_add]
  have hT : Real.log (binomialProb n h ((h : ℝ) / n)) + Real.log r1 < Real.log (binomialProb n h ((h : ℝ) / n)) + Real.log r2 := by
    have := Real.log_lt_log hr hlt
    linarith
  simp only [ht] at a4 a5 b4 b5
  have h1 : (h : ℝ) / n ≤ 1 := (div_le_one hn').2 (by exact_mod_cast hle)
  have hgrid : ∀ k : Nat, k ≤ 100 * h → (k : ℝ) / (100 * n) ≤ (h : ℝ) / n := fun k hk => by
    have : (k : ℝ) ≤ 100 * h := by exact_mod_cast hk
    rw [div_le_div_iff₀ (by positivity) hn']
    nlinarith
  have hlow : low1 ≤ low2 := by
    by_contra hc
    rw [not_le] at hc
    have g0 : (0 : ℝ) ≤ (low2 : ℝ) / (100 * n) := by positivity
    have g1 := grid_lt hn hc
    have g2 := hgrid low1 a1
    have s := lnProb_lt (binomialProb_nonneg (n := n) (k := h) g0 (by linarith)) (binomialProb_strict (by omega) hle g0 g1 g2)
    exact gap_cross (lnProb_ne_top _) s hT (a4 low2 b1) (b4 low1 a1)
  have hhigh : high2 ≤ high1 := by
    by_contra hc
    rw [not_le] at hc
    have g1 := grid_lt hn hc
    have g2 : (h : ℝ) / n ≤ (high1 : ℝ) / (100 * n) := by
      have : (100 * h : ℝ) ≤ high1 := by exact_mod_cast a2
      rw [div_le_div_iff₀ hn' (by positivity)]
      nlinarith
    have g3 : (high2 : ℝ) / (100 * n) ≤ 1 := by
      rw [div_le_one (by positivity)]
      exact_mod_cast b3
    have g4 : 0 ≤ (h : ℝ) / n := by positivity
    have c2 : ((n - h : Nat) : ℝ) / n = 1 - (h : ℝ) / n := by rw [Nat.cast_sub hle, sub_div, div_self hn'.ne']
    have s := binomialProb_strict (n := n) (k := n - h) (p := 1 - (high2 : ℝ) / (100 * n)) (q := 1 - (high1 : ℝ) / (100 * n)) (by omega) (Nat.sub_le _ _) (by linarith) (by linarith) (by rw [c2]; linarith)
    rw [binomialProb_symm hle, binomialProb_symm hle] at s
    have s' := lnProb_lt (binomialProb_nonneg (n := n) (k := h) (by linarith) g3) s
    exact gap_cross (lnProb_ne_top _) s' hT (a5 high2 b2 b3) (b5 high1 a2 a3)
  refine ⟨_, _, _, _, hok1, hok2, ?_, ?_⟩
  · exact div_le_div_of_nonneg_right (by exact_mod_cast hlow) (by positivity)
  · exact div_le_div_of_nonneg_right (by exact_mod_cast hhigh) (by positivity)

theorem hasDerivAt_likelihood (n h : Nat) (hle : h ≤ n) (hn : 0 < n) (p : ℝ) (h0 : 0 < p) (h1 : p < 1) :
    HasDerivAt (binomialProb n h) (n * ((h : ℝ) / n - p) / (p * (1 - p)) * binomialProb n h p) p := by
  have hn' : (n : ℝ) ≠ 0 := by exact_mod_cast hn.ne'
  have d1 : HasDerivAt (fun p : ℝ => p ^ h) (h * p ^ h / p) p := by
    refine (hasDerivAt_pow h p).congr_deriv ?_
    rcases h with - | h
    · simp
    · rw [Nat.add_sub_cancel, pow_succ]
      field_simp
  have d2 : HasDerivAt (fun p : ℝ => (1 - p) ^ (n - h)) (-((n - h : Nat) * (1 - p) ^ (n - h) / (1 - p))) p := by
    have hq : 1 - p ≠ 0 := by linarith
    refine (((hasDerivAt_id p).const_sub 1).pow (n - h)).congr_deriv ?_
    rcases n - h with - | m
    · simp
    · simp only [id, Nat.add_sub_cancel, pow_succ]
      field_simp
  have d := (d1.const_mul (n.choose h : ℝ)).mul d2
  have hq : 1 - p ≠ 0 := by linarith
  have hp : p ≠ 0 := h0.ne'
  refine d.congr_deriv ?_
  rw [binomialProb, Nat.cast_sub hle]
  field_simp
  ring

/-- How fast the likelihood falls off below the observed rate. -/
theorem likelihood_le_left {n h : Nat} (hn : 0 < n) (hle : h ≤ n) {p : ℝ} (h0 : 0 ≤ p) (hp : p ≤ (h : ℝ) / n) :
    binomialProb n h p * Real.exp (2 * n * ((h : ℝ) / n - p) ^ 2) ≤ binomialProb n h ((h : ℝ) / n) := by
  have hn' : (0 : ℝ) < n := by exact_mod_cast hn
  set x := (h : ℝ) / n with hx
  have hx1 : x ≤ 1 := (div_le_one hn').2 (by exact_mod_cast hle)
  have hcont : Continuous (binomialProb n h) := by
    unfold binomialProb
    fun_prop
  have mono : MonotoneOn (fun p => binomialProb n h p * Real.exp (2 * n * (x - p) ^ 2)) (Set.Icc 0 x) := by
    have hd : ∀ q ∈ interior (Set.Icc 0 x), HasDerivAt (fun p => binomialProb n h p * Real.exp (2 * n * (x - p) ^ 2))
        (n * (x - q) * (1 / (q * (1 - q)) - 4) * (binomialProb n h q * Real.exp (2 * n * (x - q) ^ 2))) q := by
      intro q hq
      rw [interior_Icc] at hq
      have e : HasDerivAt (fun p : ℝ => Real.exp (2 * n * (x - p) ^ 2)) (Real.exp (2 * n * (x - q) ^ 2) * (2 * n * (2 * (x - q) * (-1)))) q := by
        refine HasDerivAt.exp (HasDerivAt.const_mul _ ?_)
        refine (((hasDerivAt_id q).const_sub x).pow 2).congr_deriv ?_
        simp
      refine ((hasDerivAt_likelihood n h hle hn q hq.1 (hq.2.trans_le hx1)).mul e).congr_deriv ?_
      rw [← hx]
      ring
    refine monotoneOn_of_deriv_nonneg (convex_Icc 0 x) (by fun_prop) (fun q hq => (hd q hq).differentiableAt.differentiableWithinAt) (fun q hq => ?_)
    rw [(hd q hq).deriv]
    rw [interior_Icc] at hq
    have q1 : q < 1 := hq.2.trans_le hx1
    have hpos : 0 < q * (1 - q) := mul_pos hq.1 (by linarith)
    have h4 : 4 ≤ 1 / (q * (1 - q)) := by
      rw [le_div_iff₀ hpos]
      nlinarith [sq_nonneg (2 * q - 1)]
    refine mul_nonneg (mul_nonneg (mul_nonneg hn'.le ?_) (by linarith)) (mul_nonneg (binomialProb_nonneg hq.1.le q1.le) (Real.exp_pos _).le)
    linarith [hq.2]
  have := mono ⟨h0, hp⟩ ⟨h0.trans hp, le_rfl⟩ hp
  simpa using this

/-- How fast the likelihood falls off above the observed rate. -/
theorem likelihood_le_right {n h : Nat} (hn : 0 < n) (hle : h ≤ n) {p : ℝ} (h1 : p ≤ 1) (hp : (h : ℝ) / n ≤ p) :
    binomialProb n h p * Real.exp (2 * n * (p - (h : ℝ) / n) ^ 2) ≤ binomialProb n h ((h : ℝ) / n) := by
  have hn' : (n : ℝ) ≠ 0 := by exact_mod_cast hn.ne'
  have c2 : ((n - h : Nat) : ℝ) / n = 1 - (h : ℝ) / n := by rw [Nat.cast_sub hle, sub_div, div_self hn']
  have := likelihood_le_left (n := n) (h := n - h) hn (Nat.sub_le _ _) (p := 1 - p) (by linarith) (by rw [c2]; linarith)
  rw [c2, binomialProb_symm hle, binomialProb_symm hle] at this
  rwa [show 1 - (h : ℝ) / n - (1 - p) = p - (h : ℝ) / n by ring] at this

/-- C121: the bounds are within `sqrt (ln (1 / ratio) / (2 n))` of the observed rate, up to a step of the grid. -/
theorem c121_width (n h : Nat) (hn : 0 < n) (hle : h ≤ n) (seconds : Rat) (ratio : ℝ) (hr : 0 < ratio) :
    ∃ low high : ℝ, (ShotData.mk n ((n : Int) - h) seconds).likelyErrorRateBounds ratio = .ok (low, high) ∧
      (h : ℝ) / n - low ≤ Real.sqrt (Real.log (1 / ratio) / (2 * n)) + 1 / (100 * n) ∧
      high - (h : ℝ) / n ≤ Real.sqrt (Real.log (1 / ratio) / (2 * n)) + 1 / (100 * n) := by
  obtain ⟨low, high, hok, h1, h2, h3, h4, H⟩ := c119_rates n h hn hle seconds ratio hr
  have hn' : (0 : ℝ) < n := by exact_mod_cast hn
  have hstep : (0 : ℝ) < 1 / (100 * n) := by positivity
  have hmle := binomialProb_mle hn hle
  set x := (h : ℝ) / n with hx
  have hx0 : 0 ≤ x := by positivity
  have hx1 : x ≤ 1 := h3.trans h4
  set s := Real.sqrt (Real.log (1 / ratio) / (2 * n)) with hs
  have hs0 : 0 ≤ s := Real.sqrt_nonneg _
  have key : ∀ d p, s < d → binomialProb n h p * Real.exp (2 * n * d ^ 2) ≤ binomialProb n h x → ratio * binomialProb n h x ≤ binomialProb n h p → False := by
    intro d p hd hup hlo
    have h5 : Real.log (1 / ratio) / (2 * n) < d ^ 2 := (Real.sqrt_lt' (hs0.trans_lt hd)).1 hd
    rw [div_lt_iff₀ (by positivity)] at h5
    have h6 : 1 / ratio < Real.exp (2 * n * d ^ 2) := by
      rw [← Real.log_lt_iff_lt_exp (by positivity)]
      linarith
    rw [div_lt_iff₀ hr] at h6
    have h7 := mul_le_mul_of_nonneg_right hlo (Real.exp_pos (2 * n * d ^ 2)).le
    nlinarith
  refine ⟨low, high, hok, ?_, ?_⟩
  · by_contra hc
    rw [not_le] at hc
    obtain ⟨p, p1, p2⟩ := exists_between (show low + 1 / (100 * n) < x - s by linarith)
    exact key (x - p) p (by linarith) (likelihood_le_left hn hle (by linarith) (by linarith)) ((H p (by linarith) (by linarith)).2 (.inl ⟨p1, by linarith⟩))
  · by_contra hc
    rw [not_le] at hc
    obtain ⟨p, p1, p2⟩ := exists_between (show x + s < high - 1 / (100 * n) by linarith)
    exact key (p - x) p (by linarith) (likelihood_le_right hn hle (by linarith) (by linarith)) ((H p (by linarith) (by linarith)).2 (.inr ⟨by linarith, p2⟩))

/-! ## Examples -/

/-- The hypotheses of `c120_ratio`: three errors in ten shots, and two ratios. -/
example : ∃ low1 high1 low2 high2 : ℝ, (ShotData.mk 10 7 1).likelyErrorRateBounds (1 / 1000) = .ok (low1, high1) ∧
    (ShotData.mk 10 7 1).likelyErrorRateBounds (1 / 100) = .ok (low2, high2) ∧ low1 ≤ low2 ∧ high2 ≤ high1 := by
  have := c120_ratio 10 3 (by norm_num) (by norm_num) 1 (1 / 1000) (1 / 100) (by norm_num) (by norm_num)
  norm_num at this ⊢
  exact this

/-- The hypotheses of `c121_width`: with a ratio of 1 the bounds are within a step of the observed rate. -/
example : ∃ low high : ℝ, (ShotData.mk 10 7 1).likelyErrorRateBounds 1 = .ok (low, high) ∧ 3 / 10 - low ≤ 1 / 1000 ∧ high - 3 / 10 ≤ 1 / 1000 := by
  obtain ⟨low, high, h1, h2, h3⟩ := c121_width 10 3 (by norm_num) (by norm_num) 1 1 (by norm_num)
  refine ⟨low, high, ?_, ?_, ?_⟩
  · norm_num at h1
    exact h1
  · norm_num at h2 ⊢
    linarith
  · norm_num at h3 ⊢
    linarith

end Honeycomb
