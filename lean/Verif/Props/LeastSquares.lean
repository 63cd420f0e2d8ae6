import Verif.Props.Probability

/-!
# Properties of the least squares helpers of `src/probability_util.py` (C61)
-/

namespace Honeycomb

open Classical

/-! ### Sums of squares are quadratic functions -/

theorem sumSquares_eq (xs ys : List ℝ) (i s : ℝ) : sumSquares xs ys i s = squaredResiduals (xs.zip ys) s i := by
  unfold sumSquares squaredResiduals
  rw [List.zip, List.map_zipWith]
  congr 2
  funext x y
  ring

theorem sumSquares_nonneg (xs ys : List ℝ) (i s : ℝ) : 0 ≤ sumSquares xs ys i s := by
  unfold sumSquares
  apply List.sum_nonneg
  intro v hv
  rw [List.mem_iff_getElem] at hv
  obtain ⟨k, hk, rfl⟩ := hv
  rw [List.getElem_zipWith]
  positivity

theorem sumSquares_shift (rx ry s : ℝ) (xs ys : List ℝ) :
    sumSquares (xs.map (· - rx)) (ys.map (· - ry)) 0 s = sumSquares xs ys (ry - rx * s) s := by
  unfold sumSquares
  rw [List.zipWith_map]
  congr 2
  funext x y
  ring

/-- As a function of the slope. -/
theorem sumSquares_slope (i : ℝ) : ∀ xs ys : List ℝ, ∃ A B C : ℝ, 0 ≤ A ∧ (A = 0 → B = 0) ∧
    ∀ s, sumSquares xs ys i s = A * s ^ 2 + B * s + C := by
  intro xs
  induction xs with
  | nil => intro ys; exact ⟨0, 0, 0, by simp, by simp, fun s => by simp [sumSquares]⟩
  | cons x xs ih =>
    intro ys
    cases ys with
    | nil => exact ⟨0, 0, 0, by simp, by simp, fun s => by simp [sumSquares]⟩
    | cons y ys =>
      obtain ⟨A, B, C, h0, h1, h2⟩ := ih ys
      refine ⟨A + x ^ 2, B + 2 * x * (i - y), C + (i - y) ^ 2, by positivity, ?_, ?_⟩
      · intro h
        have hx : x ^ 2 = 0 := by nlinarith [sq_nonneg x]
        have hA : A = 0 := by nlinarith [sq_nonneg x]
        rw [h1 hA, (pow_eq_zero_iff (by norm_num)).1 hx]
        ring
      · intro s
        have := h2 s
        unfold sumSquares at this ⊢
        rw [List.zipWith_cons_cons, List.sum_cons, this]
        ring

/-- As a function of the intercept. -/
theorem sumSquares_intercept (s : ℝ) : ∀ xs ys : List ℝ, ∃ A B C : ℝ, 0 ≤ A ∧ (A = 0 → B = 0) ∧
    ∀ i, sumSquares xs ys i s = A * i ^ 2 + B * i + C := by
  intro xs
  induction xs with
  | nil => intro ys; exact ⟨0, 0, 0, by simp, by simp, fun i => by simp [sumSquares]⟩
  | cons x xs ih =>
    intro ys
    cases ys with
    | nil => exact ⟨0, 0, 0, by simp, by simp, fun s => by simp [sumSquares]⟩
    | cons y ys =>
      obtain ⟨A, B, C, h0, h1, h2⟩ := ih ys
      refine ⟨A + 1, B + 2 * (s * x - y), C + (s * x - y) ^ 2, by positivity, ?_, ?_⟩
      · intro h
        linarith
      · intro i
        have := h2 i
        unfold sumSquares at this ⊢
        rw [List.zipWith_cons_cons, List.sum_cons, this]
        ring

/-- A non-negative quadratic function has a minimiser, so `leastsq` finds one. -/
theorem leastsq_min {leastsq : (ℝ → ℝ) → ℝ} (hl : LeastsqMinimises leastsq) (f : ℝ → ℝ) (hf : ∀ s, 0 ≤ f s)
    (hq : ∃ A B C : ℝ, 0 ≤ A ∧ (A = 0 → B = 0) ∧ ∀ s, f s = A * s ^ 2 + B * s + C) (s : ℝ) : f (leastsq f) ≤ f s := by
  have h := hl f (by
    obtain ⟨A, B, C, h0, h1, h2⟩ := hq
    refine ⟨-B / (2 * A), fun s => ?_⟩
    refine pow_le_pow_left₀ (hf _) ?_ 2
    rw [h2, h2]
    rcases eq_or_lt_of_le h0 with hA | hA
    · rw [h1 hA.symm, ← hA]
      simp
    · have : A * s ^ 2 + B * s + C - (A * (-B / (2 * A)) ^ 2 + B * (-B / (2 * A)) + C) = A * (s + B / (2 * A)) ^ 2 := by
        field_simp
        ring
      have h3 : 0 ≤ A * (s + B / (2 * A)) ^ 2 := by positivity
      linarith) s
  exact le_of_sq_le_sq h (hf s)
where
  le_of_sq_le_sq {a b : ℝ} (h : a ^ 2 ≤ b ^ 2) (hb : 0 ≤ b) : a ≤ b := by nlinarith

/-! ## C61: constrained fits -/

/-- C61. `least_squares_through_point` returns a line through the required point, and no line through that point has a smaller sum of
squared residuals. -/
theorem c61_through_point (leastsq : (ℝ → ℝ) → ℝ) (hl : LeastsqMinimises leastsq) (xs ys : List ℝ) (rx ry : ℝ)
    (hlen : xs.length = ys.length) :
    ∃ fit, leastSquaresThroughPoint leastsq xs ys rx ry = .ok fit ∧ fit.slope * rx + fit.intercept = ry ∧
      ∀ slope intercept, slope * rx + intercept = ry →
        squaredResiduals (xs.zip ys) fit.slope fit.intercept ≤ squaredResiduals (xs.zip ys) slope intercept := by
  rw [leastSquaresThroughPoint, if_pos hlen]
  refine ⟨_, rfl, by ring, fun slope intercept h => ?_⟩
  have := leastsq_min hl (fun slope => sumSquares (xs.map (· - rx)) (ys.map (· - ry)) 0 slope)
    (fun s => sumSquares_nonneg _ _ _ _) (sumSquares_slope 0 _ _) slope
  simp only [sumSquares_shift] at this
  rw [← sumSquares_eq, ← sumSquares_eq, show intercept = ry - rx * slope by linarith]
  simpa only [sumSquares_shift] using this

/-- C61. `least_squares_with_slope` returns a line with the required slope, and no line with that slope has a smaller sum of squared
residuals. -/
theorem c61_with_slope (leastsq : (ℝ → ℝ) → ℝ) (hl : LeastsqMinimises leastsq) (xs ys : List ℝ) (slope : ℝ)
    (hlen : xs.length = ys.length) :
    ∃ fit, leastSquaresWithSlope leastsq xs ys slope = .ok fit ∧ fit.slope = slope ∧
      ∀ intercept, squaredResiduals (xs.zip ys) slope fit.intercept ≤ squaredResiduals (xs.zip ys) slope intercept := by
  rw [leastSquaresWithSlope, if_pos hlen]
  refine ⟨_, rfl, rfl, fun intercept => ?_⟩
  have := leastsq_min hl (fun intercept => sumSquares xs ys intercept slope)
    (fun s => sumSquares_nonneg _ _ _ _) (sumSquares_intercept slope _ _) intercept
  rw [← sumSquares_eq, ← sumSquares_eq]
  exact this

/-- C61. The cost function is the sum of the squared residuals; arrays of different lengths are rejected. -/
theorem c61_cost (leastsq : (ℝ → ℝ) → ℝ) (xs ys : List ℝ) (slope intercept : ℝ) :
    (xs.length = ys.length → leastSquaresCost xs ys intercept slope = .ok (squaredResiduals (xs.zip ys) slope intercept)) ∧
    (xs.length ≠ ys.length → leastSquaresCost xs ys intercept slope = .error .assertion ∧
      leastSquaresThroughPoint leastsq xs ys slope intercept = .error .assertion ∧
      leastSquaresWithSlope leastsq xs ys slope = .error .assertion) := by
  constructor
  · intro h
    rw [leastSquaresCost, if_pos h, sumSquares_eq]
  · intro h
    rw [leastSquaresCost, leastSquaresThroughPoint, leastSquaresWithSlope, if_neg h, if_neg h, if_neg h]
    exact ⟨rfl, rfl, rfl⟩

/-- There are optimisers with the assumed property. -/
theorem exists_leastsq : ∃ leastsq, LeastsqMinimises leastsq := by
  refine ⟨fun f => if h : ∃ m, ∀ s, f m ^ 2 ≤ f s ^ 2 then h.choose else 0, fun f h => ?_⟩
  simp only [dif_pos h]
  exact h.choose_spec

/-! ## C61: ranges of fits whose cost exceeds the optimum by a given amount -/

theorem costForY_spec {leastsq : (ℝ → ℝ) → ℝ} (hl : LeastsqMinimises leastsq) (xs ys : List ℝ) (tx y : ℝ)
    (hlen : xs.length = ys.length) :
    ∃ slope intercept, slope * tx + intercept = y ∧ costForY leastsq xs ys tx y = squaredResiduals (xs.zip ys) slope intercept ∧
      ∀ slope' intercept', slope' * tx + intercept' = y →
        costForY leastsq xs ys tx y ≤ squaredResiduals (xs.zip ys) slope' intercept' := by
  obtain ⟨fit, h1, h2, h3⟩ := c61_through_point leastsq hl xs ys tx y hlen
  have : costForY leastsq xs ys tx y = squaredResiduals (xs.zip ys) fit.slope fit.intercept := by
    rw [costForY, h1, ← sumSquares_eq]
  exact ⟨fit.slope, fit.intercept, h2, this, fun s i h => this ▸ h3 s i h⟩

theorem costForSlope_spec {leastsq : (ℝ → ℝ) → ℝ} (hl : LeastsqMinimises leastsq) (xs ys : List ℝ) (slope : ℝ)
    (hlen : xs.length = ys.length) :
    ∃ intercept, costForSlope leastsq xs ys slope = squaredResiduals (xs.zip ys) slope intercept ∧
      ∀ intercept', costForSlope leastsq xs ys slope ≤ squaredResiduals (xs.zip ys) slope intercept' := by
  obtain ⟨fit, h1, h2, h3⟩ := c61_with_slope leastsq hl xs ys slope hlen
  have : costForSlope leastsq xs ys slope = squaredResiduals (xs.zip ys) slope fit.intercept := by
    rw [costForSlope, h1, ← h2, ← sumSquares_eq]
  exact ⟨fit.intercept, this, fun i => this ▸ h3 i⟩

/-- C61. If `least_squares_output_range` returns `(low, high)` then the value of the regression line at `target_x` lies between them,
and the best line through `(target_x, low)` (and through `(target_x, high)`) costs `cost_increase` more than the
regression line, up to `1e-5`. -/
theorem c61_output_range (leastsq : (ℝ → ℝ) → ℝ) (hl : LeastsqMinimises leastsq) (linregress : List ℝ → List ℝ → LineFit)
    (isinf : ℝ → Prop) (xs ys : List ℝ) (target_x cost_increase : ℝ) (fuel : Nat) (low high : ℝ)
    (h : leastSquaresOutputRange leastsq linregress isinf xs ys target_x cost_increase fuel = some (.ok (low, high))) :
    let fit := linregress xs ys
    let goal := squaredResiduals (xs.zip ys) fit.slope fit.intercept + cost_increase
    low ≤ fit.slope * target_x + fit.intercept ∧ fit.slope * target_x + fit.intercept ≤ high ∧
      (∃ v, IsBestCostAt (xs.zip ys) target_x low v ∧ |v - goal| ≤ 1 / 100000) ∧
      (∃ v, IsBestCostAt (xs.zip ys) target_x high v ∧ |v - goal| ≤ 1 / 100000) := by
  intro fit goal
  by_cases hlen : xs.length = ys.length
  · rw [leastSquaresOutputRange, if_neg (not_not.2 hlen)] at h
    simp only at h
    split at h
    · simp at h
    · simp at h
    · rename_i low' h1
      split at h
      · simp at h
      · simp at h
      · rename_i high' h2
        cases h
        obtain ⟨a1, a2⟩ := c41_sound _ _ _ _ _ _ _ _ (by norm_num) h1
        obtain ⟨b1, b2⟩ := c41_sound _ _ _ _ _ _ _ _ (by norm_num) h2
        rw [sumSquares_eq] at a1 b1
        have hy : fit.slope * target_x + fit.intercept = (linregress xs ys).intercept + target_x * (linregress xs ys).slope := by
          show (linregress xs ys).slope * target_x + (linregress xs ys).intercept = _
          ring
        refine ⟨?_, ?_, ⟨_, ?_, a1⟩, ⟨_, ?_, b1⟩⟩
        · rw [hy]
          rcases a2 with h | h
          · rw [h]
          · linarith
        · rw [hy]
          rcases b2 with h | h
          · rw [h]
          · linarith
        · obtain ⟨s, i, e1, e2, e3⟩ := costForY_spec hl xs ys target_x low hlen
          exact ⟨⟨s, i, e1, e2⟩, e3⟩
        · obtain ⟨s, i, e1, e2, e3⟩ := costForY_spec hl xs ys target_x high hlen
          exact ⟨⟨s, i, e1, e2⟩, e3⟩
  · rw [leastSquaresOutputRange, if_pos hlen] at h
    simp at h

/-- C61. If `least_squares_slope_range` returns `(low, mid, high)` then `mid` is the regression slope, it lies between the others,
and the best line of slope `low` (and `high`) costs `cost_increase` more than the regression line, up to `1e-5`. -/
theorem c61_slope_range (leastsq : (ℝ → ℝ) → ℝ) (hl : LeastsqMinimises leastsq) (linregress : List ℝ → List ℝ → LineFit)
    (isinf : ℝ → Prop) (xs ys : List ℝ) (cost_increase : ℝ) (fuel : Nat) (low mid high : ℝ)
    (h : leastSquaresSlopeRange leastsq linregress isinf xs ys cost_increase fuel = some (.ok (low, mid, high))) :
    let fit := linregress xs ys
    let goal := squaredResiduals (xs.zip ys) fit.slope fit.intercept + cost_increase
    mid = fit.slope ∧ low ≤ mid ∧ mid ≤ high ∧
      (∃ v, IsBestCostForSlope (xs.zip ys) low v ∧ |v - goal| ≤ 1 / 100000) ∧
      (∃ v, IsBestCostForSlope (xs.zip ys) high v ∧ |v - goal| ≤ 1 / 100000) := by
  intro fit goal
  by_cases hlen : xs.length = ys.length
  · rw [leastSquaresSlopeRange, if_neg (not_not.2 hlen)] at h
    simp only at h
    split at h
    · simp at h
    · simp at h
    · rename_i low' h1
      split at h
      · simp at h
      · simp at h
      · rename_i high' h2
        cases h
        obtain ⟨a1, a2⟩ := c41_sound _ _ _ _ _ _ _ _ (by norm_num) h1
        obtain ⟨b1, b2⟩ := c41_sound _ _ _ _ _ _ _ _ (by norm_num) h2
        rw [sumSquares_eq] at a1 b1
        refine ⟨rfl, ?_, ?_, ⟨_, ?_, a1⟩, ⟨_, ?_, b1⟩⟩
        · rcases a2 with h | h
          · rw [h]
          · linarith
        · rcases b2 with h | h
          · rw [h]
          · linarith
        · obtain ⟨i, e2, e3⟩ := costForSlope_spec hl xs ys low hlen
          exact ⟨⟨i, e2⟩, e3⟩
        · obtain ⟨i, e2, e3⟩ := costForSlope_spec hl xs ys high hlen
          exact ⟨⟨i, e2⟩, e3⟩
  · rw [leastSquaresSlopeRange, if_pos hlen] at h
    simp at h

/-! ### The searches succeed -/

/-- The sums the closed form needs. -/
theorem sumSquares_closed : ∀ xs ys : List ℝ, xs.length = ys.length → ∃ Sy Sxy Syy : ℝ, ∀ i s,
    sumSquares xs ys i s = xs.length * i ^ 2 + 2 * i * s * xs.sum + s ^ 2 * (xs.map (· ^ 2)).sum
      - 2 * i * Sy - 2 * s * Sxy + Syy := by
  intro xs
  induction xs with
  | nil =>
    intro ys h
    exact ⟨0, 0, 0, fun i s => by simp [sumSquares]⟩
  | cons x xs ih =>
    intro ys h
    cases ys with
    | nil => simp at h
    | cons y ys =>
      obtain ⟨Sy, Sxy, Syy, hS⟩ := ih ys (by simpa using h)
      refine ⟨Sy + y, Sxy + x * y, Syy + y ^ 2, fun i s => ?_⟩
      have := hS i s
      unfold sumSquares at this ⊢
      rw [List.zipWith_cons_cons, List.sum_cons, this]
      simp only [List.length_cons, List.sum_cons, List.map_cons]
      push_cast
      ring

theorem spread_pos (xs : List ℝ) (hx : ∃ a ∈ xs, ∃ b ∈ xs, a ≠ b) (t : ℝ) :
    0 < xs.length * t ^ 2 - 2 * t * xs.sum + (xs.map (· ^ 2)).sum := by
  have e : ∀ l : List ℝ, (l.length : ℝ) * t ^ 2 - 2 * t * l.sum + (l.map (· ^ 2)).sum = (l.map fun x => (x - t) ^ 2).sum := by
    intro l
    induction l with
    | nil => simp
    | cons x l ih =>
      simp only [List.length_cons, List.sum_cons, List.map_cons]
      rw [← ih]
      push_cast
      ring
  rw [e]
  have hpos : ∀ l : List ℝ, (∃ a ∈ l, a ≠ t) → 0 < (l.map fun x => (x - t) ^ 2).sum := by
    intro l
    induction l with
    | nil => rintro ⟨a, ha, -⟩; simp at ha
    | cons x l ih =>
      rintro ⟨a, ha, hat⟩
      rw [List.map_cons, List.sum_cons]
      have h0 : 0 ≤ (l.map fun x => (x - t) ^ 2).sum := by
        apply List.sum_nonneg
        intro v hv
        obtain ⟨w, -, rfl⟩ := List.mem_map.1 hv
        positivity
      rcases List.mem_cons.1 ha with rfl | ha
      · have : 0 < (a - t) ^ 2 := by
          have : a - t ≠ 0 := sub_ne_zero.2 hat
          positivity
        linarith
      · have := ih ⟨a, ha, hat⟩
        have : 0 ≤ (x - t) ^ 2 := by positivity
        linarith
  obtain ⟨a, ha, b, hb, hab⟩ := hx
  apply hpos
  by_cases h : a = t
  · exact ⟨b, hb, fun h' => hab (h.trans h'.symm)⟩
  · exact ⟨a, ha, h⟩

/-- A quadratic function with positive leading coefficient exceeds every bound at `base ± 2^k` for some `k`. -/
theorem quadratic_grows (K : ℝ → ℝ) (D E F : ℝ) (hD : 0 < D) (hK : ∀ y, K y = D * y ^ 2 + E * y + F) (base T σ : ℝ)
    (hσ : σ = 1 ∨ σ = -1) : ∃ k : Nat, T ≤ K (base + σ * 2 ^ k) := by
  obtain ⟨k, hk⟩ := pow_unbounded_of_one_lt ((|2 * D * base + E| + |D * base ^ 2 + E * base + F| + |T|) / D) (by norm_num : (1 : ℝ) < 2)
  refine ⟨k, ?_⟩
  rw [div_lt_iff₀ hD] at hk
  have h1 : (1 : ℝ) ≤ 2 ^ k := one_le_pow₀ (by norm_num)
  have e : K (base + σ * 2 ^ k) = D * (2 ^ k) ^ 2 + (2 * D * base + E) * (σ * 2 ^ k) + (D * base ^ 2 + E * base + F) := by
    have hs : σ ^ 2 = 1 := by rcases hσ with rfl | rfl <;> norm_num
    rw [hK]
    have : (base + σ * 2 ^ k) ^ 2 = base ^ 2 + 2 * base * (σ * 2 ^ k) + σ ^ 2 * (2 ^ k) ^ 2 := by ring
    rw [this, hs]
    ring
  rw [e]
  generalize (2 : ℝ) ^ k = t at *
  have a1 : -(|2 * D * base + E| * t) ≤ (2 * D * base + E) * (σ * t) := by
    have := abs_le.1 (le_refl |2 * D * base + E|)
    rcases hσ with rfl | rfl <;> nlinarith
  have a2 := neg_abs_le (D * base ^ 2 + E * base + F)
  have a3 := le_abs_self T
  have b1 := abs_nonneg (D * base ^ 2 + E * base + F)
  have b2 := abs_nonneg T
  have b3 := abs_nonneg (2 * D * base + E)
  nlinarith [mul_nonneg b1 (sub_nonneg.2 h1), mul_nonneg b2 (sub_nonneg.2 h1)]

/-- Minimum of a quadratic with positive leading coefficient. -/
theorem quadratic_min {A B C v : ℝ} (hA : 0 < A) (h1 : ∃ s, v = A * s ^ 2 + 2 * B * s + C)
    (h2 : ∀ s, v ≤ A * s ^ 2 + 2 * B * s + C) : v = C - B ^ 2 / A := by
  obtain ⟨s, hs⟩ := h1
  have h3 := h2 (-B / A)
  have e1 : A * (-B / A) ^ 2 + 2 * B * (-B / A) + C = C - B ^ 2 / A := by field_simp; ring
  have e2 : A * s ^ 2 + 2 * B * s + C = A * (s + B / A) ^ 2 + (C - B ^ 2 / A) := by field_simp; ring
  have e3 : 0 ≤ A * (s + B / A) ^ 2 := by positivity
  rw [e1] at h3
  linarith

theorem costForY_quadratic {leastsq : (ℝ → ℝ) → ℝ} (hl : LeastsqMinimises leastsq) (xs ys : List ℝ) (tx : ℝ)
    (hlen : xs.length = ys.length) (hx : ∃ a ∈ xs, ∃ b ∈ xs, a ≠ b) :
    ∃ D E F : ℝ, 0 < D ∧ ∀ y, costForY leastsq xs ys tx y = D * y ^ 2 + E * y + F := by
  obtain ⟨Sy, Sxy, Syy, hS⟩ := sumSquares_closed xs ys hlen
  have hA := spread_pos xs hx tx
  have hn : (0 : ℝ) < xs.length := by
    obtain ⟨a, ha, -⟩ := hx
    exact_mod_cast List.length_pos_of_mem ha
  have hvar := spread_pos xs hx (xs.sum / xs.length)
  generalize hAe : xs.length * tx ^ 2 - 2 * tx * xs.sum + (xs.map (· ^ 2)).sum = A at hA
  generalize (xs.map (· ^ 2)).sum = Sxx at *
  generalize xs.sum = Sx at *
  generalize (xs.length : ℝ) = n at *
  have hdet : 0 < n * Sxx - Sx ^ 2 := by
    have : n * (Sx / n) ^ 2 - 2 * (Sx / n) * Sx + Sxx = (n * Sxx - Sx ^ 2) / n := by field_simp; ring
    rw [this] at hvar
    exact (div_pos_iff_of_pos_right hn).1 hvar
  have hD : 0 < n - (Sx - n * tx) ^ 2 / A := by
    have : n - (Sx - n * tx) ^ 2 / A = (n * Sxx - Sx ^ 2) / A := by
      rw [eq_div_iff hA.ne', sub_mul, div_mul_cancel₀ _ hA.ne', ← hAe]
      ring
    rw [this]
    positivity
  refine ⟨n - (Sx - n * tx) ^ 2 / A, -2 * Sy - 2 * (Sx - n * tx) * (tx * Sy - Sxy) / A, Syy - (tx * Sy - Sxy) ^ 2 / A, hD, fun y => ?_⟩
  obtain ⟨s, i, e1, e2, e3⟩ := costForY_spec hl xs ys tx y hlen
  have hform : ∀ s, squaredResiduals (xs.zip ys) s (y - s * tx) =
      A * s ^ 2 + 2 * (y * (Sx - n * tx) + (tx * Sy - Sxy)) * s + (n * y ^ 2 - 2 * y * Sy + Syy) := by
    intro s
    rw [← sumSquares_eq, hS, ← hAe]
    ring
  rw [quadratic_min hA (v := costForY leastsq xs ys tx y) ⟨s, by rw [← hform s, e2, show i = y - s * tx by linarith]⟩
    (fun s => by rw [← hform s]; exact e3 s _ (by ring))]
  field_simp
  ring

theorem costForSlope_quadratic {leastsq : (ℝ → ℝ) → ℝ} (hl : LeastsqMinimises leastsq) (xs ys : List ℝ)
    (hlen : xs.length = ys.length) (hx : ∃ a ∈ xs, ∃ b ∈ xs, a ≠ b) :
    ∃ D E F : ℝ, 0 < D ∧ ∀ s, costForSlope leastsq xs ys s = D * s ^ 2 + E * s + F := by
  obtain ⟨Sy, Sxy, Syy, hS⟩ := sumSquares_closed xs ys hlen
  have hn : (0 : ℝ) < xs.length := by
    obtain ⟨a, ha, -⟩ := hx
    exact_mod_cast List.length_pos_of_mem ha
  have hvar := spread_pos xs hx (xs.sum / xs.length)
  generalize (xs.map (· ^ 2)).sum = Sxx at *
  generalize xs.sum = Sx at *
  generalize (xs.length : ℝ) = n at *
  have hdet : 0 < Sxx - Sx ^ 2 / n := by
    have : n * (Sx / n) ^ 2 - 2 * (Sx / n) * Sx + Sxx = Sxx - Sx ^ 2 / n := by field_simp; ring
    rwa [this] at hvar
  refine ⟨Sxx - Sx ^ 2 / n, -2 * Sxy + 2 * Sx * Sy / n, Syy - Sy ^ 2 / n, hdet, fun s => ?_⟩
  obtain ⟨i, e2, e3⟩ := costForSlope_spec hl xs ys s hlen
  have hform : ∀ i, squaredResiduals (xs.zip ys) s i =
      n * i ^ 2 + 2 * (s * Sx - Sy) * i + (s ^ 2 * Sxx - 2 * s * Sxy + Syy) := by
    intro i
    rw [← sumSquares_eq, hS]
    ring
  rw [quadratic_min hn (v := costForSlope leastsq xs ys s) ⟨i, by rw [← hform i, e2]⟩ (fun i => by rw [← hform i]; exact e3 i)]
  field_simp
  ring

/-- The search of C41 succeeds for a quadratic function with positive leading coefficient that starts below the target. -/
theorem intercept_quadratic (K : ℝ → ℝ) (D E F : ℝ) (hD : 0 < D) (hK : ∀ y, K y = D * y ^ 2 + E * y + F) (isinf : ℝ → Prop)
    (base T σ : ℝ) (hσ : σ = 1 ∨ σ = -1) (hinf : ∀ j : Nat, ¬ isinf (σ * 2 ^ j)) (hlt : K base < T) :
    ∃ fuel x, binaryIntercept K isinf base σ T (1 / 100000) fuel = some (.ok x) := by
  obtain ⟨k, hk⟩ := quadratic_grows K D E F hD hK base T σ hσ
  refine c41_total K isinf base σ T (1 / 100000) k ?_ (by rcases hσ with rfl | rfl <;> norm_num) (by norm_num)
    (fun j _ => hinf j) (.inl ⟨hlt, hk⟩)
  have : K = fun y => D * y ^ 2 + E * y + F := funext hK
  rw [this]
  fun_prop

/-- C61. In exact arithmetic both searches succeed as soon as two of the `xs` differ and a positive cost increase is asked for. -/
theorem c61_ranges_total (leastsq : (ℝ → ℝ) → ℝ) (hl : LeastsqMinimises leastsq) (linregress : List ℝ → List ℝ → LineFit)
    (isinf : ℝ → Prop) (xs ys : List ℝ) (target_x cost_increase : ℝ) (hlen : xs.length = ys.length)
    (hx : ∃ a ∈ xs, ∃ b ∈ xs, a ≠ b) (hpos : 0 < cost_increase)
    (hinf : ∀ j : Nat, ¬ isinf (1 * 2 ^ j) ∧ ¬ isinf (-1 * 2 ^ j)) :
    ∃ fuel, (∃ r, leastSquaresOutputRange leastsq linregress isinf xs ys target_x cost_increase fuel = some (.ok r)) ∧
      ∃ r, leastSquaresSlopeRange leastsq linregress isinf xs ys cost_increase fuel = some (.ok r) := by
  obtain ⟨D, E, F, hD, hK⟩ := costForY_quadratic hl xs ys target_x hlen hx
  obtain ⟨D', E', F', hD', hK'⟩ := costForSlope_quadratic hl xs ys hlen hx
  have hb : costForY leastsq xs ys target_x ((linregress xs ys).intercept + target_x * (linregress xs ys).slope) <
      sumSquares xs ys (linregress xs ys).intercept (linregress xs ys).slope + cost_increase := by
    obtain ⟨s, i, -, -, h3⟩ := costForY_spec hl xs ys target_x
      ((linregress xs ys).intercept + target_x * (linregress xs ys).slope) hlen
    have := h3 (linregress xs ys).slope (linregress xs ys).intercept (by ring)
    rw [sumSquares_eq]
    linarith
  have hb' : costForSlope leastsq xs ys (linregress xs ys).slope <
      sumSquares xs ys (linregress xs ys).intercept (linregress xs ys).slope + cost_increase := by
    obtain ⟨i, -, h3⟩ := costForSlope_spec hl xs ys (linregress xs ys).slope hlen
    have := h3 (linregress xs ys).intercept
    rw [sumSquares_eq]
    linarith
  obtain ⟨f1, x1, h1⟩ := intercept_quadratic _ D E F hD hK isinf _ _ (-1) (.inr rfl) (fun j => (hinf j).2) hb
  obtain ⟨f2, x2, h2⟩ := intercept_quadratic _ D E F hD hK isinf _ _ 1 (.inl rfl) (fun j => (hinf j).1) hb
  obtain ⟨f3, x3, h3⟩ := intercept_quadratic _ D' E' F' hD' hK' isinf _ _ (-1) (.inr rfl) (fun j => (hinf j).2) hb'
  obtain ⟨f4, x4, h4⟩ := intercept_quadratic _ D' E' F' hD' hK' isinf _ _ 1 (.inl rfl) (fun j => (hinf j).1) hb'
  refine ⟨f1 + f2 + f3 + f4, ⟨(x1, x2), ?_⟩, (x3, (linregress xs ys).slope, x4), ?_⟩
  · rw [leastSquaresOutputRange, if_neg (not_not.2 hlen)]
    simp only
    rw [c41_fuel _ _ _ _ _ _ f1 _ _ (by omega) h1]
    simp only
    rw [c41_fuel _ _ _ _ _ _ f2 _ _ (by omega) h2]
  · rw [leastSquaresSlopeRange, if_neg (not_not.2 hlen)]
    simp only
    rw [c41_fuel _ _ _ _ _ _ f3 _ _ (by omega) h3]
    simp only
    rw [c41_fuel _ _ _ _ _ _ f4 _ _ (by omega) h4]

/-- Three points on a line through `(1, 2)`: the fit through that point is exact. -/
example : ∃ leastsq fit, leastSquaresThroughPoint leastsq [0, 1, 2] [1, 2, 3] 1 2 = .ok fit ∧
    fit.slope + fit.intercept = 2 ∧ squaredResiduals [(0, 1), (1, 2), (2, 3)] fit.slope fit.intercept = 0 := by
  obtain ⟨leastsq, hl⟩ := exists_leastsq
  obtain ⟨fit, h1, h2, h3⟩ := c61_through_point leastsq hl [0, 1, 2] [1, 2, 3] 1 2 rfl
  refine ⟨leastsq, fit, h1, by linarith, le_antisymm ?_ ?_⟩
  · have := h3 1 1 (by norm_num)
    norm_num [squaredResiduals] at this ⊢
    linarith
  · unfold squaredResiduals
    simp only [List.map_cons, List.map_nil, List.sum_cons, List.sum_nil]
    positivity

example : ∃ leastsq fuel r, leastSquaresOutputRange leastsq (fun _ _ => ⟨1, 1⟩) (fun _ => False) [0, 1, 2] [1, 2, 4] 7 1 fuel =
    some (.ok r) := by
  obtain ⟨leastsq, hl⟩ := exists_leastsq
  obtain ⟨fuel, ⟨r, h⟩, -⟩ := c61_ranges_total leastsq hl (fun _ _ => ⟨1, 1⟩) (fun _ => False) [0, 1, 2] [1, 2, 4] 7 1 rfl
    ⟨0, by simp, 1, by simp, by norm_num⟩ (by norm_num) (by simp)
  exact ⟨leastsq, fuel, r, h⟩

end Honeycomb
