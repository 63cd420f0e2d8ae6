import Verif.Props.Confidence

/-!
# C123: the plotted rates converge to the true ones

`independent` (`Spec/Repeat.lean`): independent repetitions.
-/

namespace Honeycomb

/-- The rate per piece, on both sides of one half. -/
theorem perPiece_form (e : ℝ) (pieces : Nat) (h0 : 0 ≤ e) (h1 : e ≤ 1) (hp : 1 ≤ pieces) :
    ∃ u : ℝ, 0 ≤ u ∧ ((e ≤ 1 / 2 ∧ totalErrorToPerPieceError e pieces = .ok ((1 - u) / 2) ∧ u ^ pieces = 1 - 2 * e) ∨
      (1 / 2 < e ∧ totalErrorToPerPieceError e pieces = .ok ((1 + u) / 2) ∧ u ^ pieces = 2 * e - 1)) := by
  rcases le_or_gt e (1 / 2) with h | h
  · obtain ⟨q, hq, a1, a2, a3⟩ := c45_composes e pieces h0 h hp
    rw [flipParity_eq] at a3
    refine ⟨1 - 2 * q, by linarith, .inl ⟨h, ?_, by linarith⟩⟩
    rw [hq]
    congr 1
    ring
  · obtain ⟨q, hq, hq2, -⟩ := c45_reflection e pieces h h1 hp
    obtain ⟨q', hq', a1, a2, a3⟩ := c45_composes (1 - e) pieces (by linarith) (by linarith) hp
    rw [hq] at hq'
    cases hq'
    rw [flipParity_eq] at a3
    refine ⟨1 - 2 * q, by linarith, .inr ⟨h, ?_, by linarith⟩⟩
    rw [hq2]
    congr 1
    ring

theorem pow_sub_le {u v : ℝ} {k : Nat} (hk : 1 ≤ k) (hv : 0 ≤ v) (h : v ≤ u) : (u - v) ^ k ≤ u ^ k - v ^ k := by
  have := pow_add_pow_le (show 0 ≤ u - v by linarith) hv (show k ≠ 0 by omega)
  rw [sub_add_cancel] at this
  linarith

/-- C123: the conversion is increasing, and close total rates have close rates per piece. -/
theorem c123_continuous (a b : ℝ) (pieces : Nat) (ha : 0 ≤ a) (hab : a ≤ b) (hb : b ≤ 1) (hp : 1 ≤ pieces) :
    ∃ q r, totalErrorToPerPieceError a pieces = .ok q ∧ totalErrorToPerPieceError b pieces = .ok r ∧ q ≤ r ∧ (r - q) ^ pieces ≤ 2 * (b - a) := by
  have hk : pieces ≠ 0 := by omega
  obtain ⟨u, hu, hA⟩ := perPiece_form a pieces ha (hab.trans hb) hp
  obtain ⟨v, hv, hB⟩ := perPiece_form b pieces (ha.trans hab) hb hp
  rcases hA with ⟨a1, a2, a3⟩ | ⟨a1, a2, a3⟩ <;> rcases hB with ⟨b1, b2, b3⟩ | ⟨b1, b2, b3⟩ <;> refine ⟨_, _, a2, b2, ?_⟩
  · have huv : v ≤ u := (pow_le_pow_iff_left₀ hv hu hk).1 (by linarith)
    refine ⟨by linarith, ?_⟩
    have h1 := pow_sub_le hp hv huv
    have h2 : ((1 - v) / 2 - (1 - u) / 2) ^ pieces ≤ (u - v) ^ pieces := pow_le_pow_left₀ (by linarith) (by linarith) _
    linarith
  · refine ⟨by linarith, ?_⟩
    rcases le_total u v with h | h
    · have h2 : ((1 + v) / 2 - (1 - u) / 2) ^ pieces ≤ v ^ pieces := pow_le_pow_left₀ (by linarith) (by linarith) _
      linarith
    · have h2 : ((1 + v) / 2 - (1 - u) / 2) ^ pieces ≤ u ^ pieces := pow_le_pow_left₀ (by linarith) (by linarith) _
      linarith
  · linarith
  · have huv : u ≤ v := (pow_le_pow_iff_left₀ hu hv hk).1 (by linarith)
    refine ⟨by linarith, ?_⟩
    have h1 := pow_sub_le hp hu huv
    have h2 : ((1 + v) / 2 - (1 + u) / 2) ^ pieces ≤ (v - u) ^ pieces := pow_le_pow_left₀ (by linarith) (by linarith) _
    linarith

/-- C123: the plotted rate per piece of `n` independent shots is close to that of the true error rate, with a probability that tends to 1. -/
theorem c123_plotted {α : Type} (D : PMF α) (correct : α → Bool) (n : Nat) (hn : 0 < n) (seconds : Rat) (pieces : Nat) (hp : 1 ≤ pieces) (ε : ℝ) (hε : 0 < ε) :
    (independent D n).toOuterMeasure {shots | ¬ ∃ plotted true_rate,
      totalErrorToPerPieceError (((ShotData.mk n (shots.countP correct) seconds).logical_error_rate : Rat) : ℝ) pieces = .ok plotted ∧
      totalErrorToPerPieceError (D.toOuterMeasure {x | correct x = false}).toReal pieces = .ok true_rate ∧ |plotted - true_rate| < ε} ≤
      ENNReal.ofReal (1 / (n * ε ^ (2 * pieces))) := by
  have hk : pieces ≠ 0 := by omega
  have h := c116_estimate D correct n hn seconds (ε ^ pieces / 2) (by positivity)
  rw [show 4 * (n : ℝ) * (ε ^ pieces / 2) ^ 2 = n * ε ^ (2 * pieces) by rw [Nat.mul_comm, pow_mul]; ring] at h
  refine le_trans (PMF.toOuterMeasure_mono _ ?_) h
  rintro shots ⟨hbad, hs⟩
  rw [Set.mem_setOf_eq]
  by_contra hc
  rw [not_le] at hc
  apply hbad
  have hlen := independent_length D n hs
  have hcnt : shots.countP correct ≤ n := hlen ▸ List.countP_le_length
  set p := (D.toOuterMeasure {x | correct x = false}).toReal
  have hp0 : 0 ≤ p := ENNReal.toReal_nonneg
  have hp1 : p ≤ 1 := ENNReal.toReal_le_of_le_ofReal zero_le_one (by
    rw [ENNReal.ofReal_one]
    exact (MeasureTheory.OuterMeasure.mono _ (Set.subset_univ _)).trans_eq ((PMF.toOuterMeasure_apply_eq_one_iff _ _).2 (Set.subset_univ _)))
  have hn' : (0 : ℝ) < n := by exact_mod_cast hn
  have hrate : (((ShotData.mk n (shots.countP correct) seconds).logical_error_rate : Rat) : ℝ) = ((n : ℝ) - shots.countP correct) / n := by
    rw [ShotData.logical_error_rate]
    dsimp only
    rw [if_neg (by omega)]
    push_cast
    rfl
  have hc' : (shots.countP correct : ℝ) ≤ n := by exact_mod_cast hcnt
  set x := (((ShotData.mk n (shots.countP correct) seconds).logical_error_rate : Rat) : ℝ)
  have hx0 : 0 ≤ x := by
    rw [hrate]
    exact div_nonneg (by linarith) hn'.le
  have hx1 : x ≤ 1 := by
    rw [hrate, div_le_one hn']
    have : (0 : ℝ) ≤ shots.countP correct := Nat.cast_nonneg _
    linarith
  rw [abs_lt] at hc
  rcases le_total x p with hxp | hxp
  · obtain ⟨q, r, h1, h2, h3, h4⟩ := c123_continuous x p pieces hx0 hxp hp1 hp
    refine ⟨q, r, h1, h2, ?_⟩
    rw [abs_sub_comm, abs_of_nonneg (by linarith)]
    exact (pow_lt_pow_iff_left₀ (by linarith) hε.le hk).1 (by linarith)
  · obtain ⟨q, r, h1, h2, h3, h4⟩ := c123_continuous p x pieces hp0 hxp hx1 hp
    refine ⟨r, q, h2, h1, ?_⟩
    rw [abs_of_nonneg (by linarith)]
    exact (pow_lt_pow_iff_left₀ (by linarith) hε.le hk).1 (by linarith)

/-! ## Examples -/

/-- The hypotheses of `c123_continuous`, across one half. -/
example : ∃ q r, totalErrorToPerPieceError (1 / 4) 3 = .ok q ∧ totalErrorToPerPieceError (3 / 4) 3 = .ok r ∧ q ≤ r ∧ (r - q) ^ 3 ≤ 2 * (3 / 4 - 1 / 4) :=
  c123_continuous (1 / 4) (3 / 4) 3 (by norm_num) (by norm_num) (by norm_num) (by norm_num)

/-- A fair coin, a million tosses, two pieces: the plotted rate is within `1 / 10` of the true one except with probability `1 / 100`. -/
example : (independent (PMF.uniformOfFintype Bool) 1000000).toOuterMeasure {shots | ¬ ∃ plotted true_rate,
    totalErrorToPerPieceError (((ShotData.mk (1000000 : Nat) (shots.countP id) 1).logical_error_rate : Rat) : ℝ) (2 : Nat) = .ok plotted ∧
    totalErrorToPerPieceError ((PMF.uniformOfFintype Bool).toOuterMeasure {x | id x = false}).toReal (2 : Nat) = .ok true_rate ∧ |plotted - true_rate| < 1 / 10} ≤
    ENNReal.ofReal (1 / 100) := by
  refine (c123_plotted (PMF.uniformOfFintype Bool) id 1000000 (by norm_num) 1 2 (by norm_num) (1 / 10) (by norm_num)).trans (ENNReal.ofReal_le_ofReal ?_)
  norm_num

end Honeycomb
