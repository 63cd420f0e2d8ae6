import Verif.Lemmas.LambdaFigures
import Verif.Props.LeastSquares
import Verif.Spec.Fits
import Verif.Spec.LambdaFigures

/-!
# C122: the ranges of the line fits are the textbook ones

`sampleMean`, `sampleSpread` (`Spec/Fits.lean`), `LinregressMinimises` (`Spec/LambdaFigures.lean`): scipy's fit is the best line.
-/

namespace Honeycomb

/-- The cost of a line next to another one. -/
theorem residuals_shift (m b a c : ℝ) (pts : List (ℝ × ℝ)) : squaredResiduals pts (m + a) (b + c) = squaredResiduals pts m b +
    2 * a * (pts.map fun q => q.1 * (m * q.1 + b - q.2)).sum + 2 * c * (pts.map fun q => m * q.1 + b - q.2).sum +
    (a ^ 2 * (pts.map fun q => q.1 ^ 2).sum + 2 * a * c * (pts.map Prod.fst).sum + c ^ 2 * pts.length) := by
  unfold squaredResiduals
  induction pts with
  | nil => simp
  | cons q pts ih =>
    simp only [List.map_cons, List.sum_cons, List.length_cons, ih]
    push_cast
    ring

theorem slope_zero {R N : ℝ} (hN : 0 ≤ N) (h : ∀ c : ℝ, 0 ≤ 2 * c * R + c ^ 2 * N) : R = 0 := by
  have h1 := h (-R / (N + 1))
  have e : 2 * (-R / (N + 1)) * R + (-R / (N + 1)) ^ 2 * N = -(R ^ 2 * (N + 2) / (N + 1) ^ 2) := by
    field_simp
    ring
  rw [e] at h1
  have h2 : R ^ 2 * (N + 2) / (N + 1) ^ 2 ≤ 0 := by linarith
  by_contra hR
  have : 0 < R ^ 2 * (N + 2) / (N + 1) ^ 2 := by positivity
  linarith

/-- The cost of a line compared with the best one. -/
theorem residuals_best {pts : List (ℝ × ℝ)} {m b : ℝ} (h : ∀ s i, squaredResiduals pts m b ≤ squaredResiduals pts s i) (a c : ℝ) :
    squaredResiduals pts (m + a) (b + c) = squaredResiduals pts m b +
      (a ^ 2 * (pts.map fun q => q.1 ^ 2).sum + 2 * a * c * (pts.map Prod.fst).sum + c ^ 2 * pts.length) := by
  have hX : 0 ≤ (pts.map fun q => q.1 ^ 2).sum := List.sum_nonneg fun v hv => by
    obtain ⟨q, -, rfl⟩ := List.mem_map.1 hv
    positivity
  have r0 : (pts.map fun q => m * q.1 + b - q.2).sum = 0 := slope_zero (Nat.cast_nonneg pts.length) fun c => by
    have := residuals_shift m b 0 c pts
    have := h (m + 0) (b + c)
    linarith
  have r1 : (pts.map fun q => q.1 * (m * q.1 + b - q.2)).sum = 0 := slope_zero hX fun a => by
    have := residuals_shift m b a 0 pts
    have := h (m + a) (b + 0)
    linarith
  rw [residuals_shift, r0, r1]
  ring

theorem spread_aux (t : ℝ) (xs : List ℝ) : (xs.map fun x => (x - t) ^ 2).sum = (xs.map fun x => x ^ 2).sum - 2 * t * xs.sum + t ^ 2 * xs.length := by
  induction xs with
  | nil => simp
  | cons x xs ih =>
    simp only [List.map_cons, List.sum_cons, List.length_cons, ih]
    push_cast
    ring

theorem spread_eq {xs : List ℝ} (hx : xs ≠ []) : (xs.map fun x => x ^ 2).sum = sampleSpread xs + xs.length * sampleMean xs ^ 2 ∧ xs.sum = xs.length * sampleMean xs := by
  have hn : (xs.length : ℝ) ≠ 0 := by
    have := List.length_pos_iff.2 hx
    positivity
  have h : xs.sum = xs.length * sampleMean xs := by
    rw [sampleMean]
    field_simp
  refine ⟨?_, h⟩
  rw [sampleSpread, spread_aux, h]
  ring

theorem sampleSpread_pos {xs : List ℝ} (hx : ∃ a ∈ xs, ∃ b ∈ xs, a ≠ b) : 0 < sampleSpread xs := by
  obtain ⟨a, ha, b, hb, hab⟩ := hx
  have hall : ∀ v ∈ xs.map fun x => (x - sampleMean xs) ^ 2, 0 ≤ v := fun v hv => by
    obtain ⟨q, -, rfl⟩ := List.mem_map.1 hv
    positivity
  have hle : ∀ x ∈ xs, (x - sampleMean xs) ^ 2 ≤ sampleSpread xs := fun x hx => List.single_le_sum hall _ (List.mem_map.2 ⟨x, hx, rfl⟩)
  rcases eq_or_ne a (sampleMean xs) with e | e
  · have : b - sampleMean xs ≠ 0 := fun h => hab (by linarith)
    exact lt_of_lt_of_le (by positivity) (hle b hb)
  · have : a - sampleMean xs ≠ 0 := fun h => e (by linarith)
    exact lt_of_lt_of_le (by positivity) (hle a ha)

section
variable {xs ys : List ℝ} (hlen : xs.length = ys.length) (hx : ∃ a ∈ xs, ∃ b ∈ xs, a ≠ b)
include hlen hx

theorem residuals_zip {m b : ℝ} (h : ∀ s i, squaredResiduals (xs.zip ys) m b ≤ squaredResiduals (xs.zip ys) s i) (a c : ℝ) :
    squaredResiduals (xs.zip ys) (m + a) (b + c) = squaredResiduals (xs.zip ys) m b +
      (a ^ 2 * sampleSpread xs + xs.length * (a * sampleMean xs + c) ^ 2) := by
  have hne : xs ≠ [] := by
    rintro rfl
    simp at hx
  have e1 : (xs.zip ys).map Prod.fst = xs := List.map_fst_zip hlen.le
  have e2 : ((xs.zip ys).map fun q => q.1 ^ 2) = xs.map fun x => x ^ 2 := by
    rw [← congrArg (List.map fun x : ℝ => x ^ 2) e1, List.map_map]
    rfl
  have e3 : (xs.zip ys).length = xs.length := by simp [hlen]
  rw [residuals_best h, e1, e2, e3, (spread_eq hne).1, (spread_eq hne).2]
  ring

theorem best_slope {m b s v : ℝ} (h : ∀ s i, squaredResiduals (xs.zip ys) m b ≤ squaredResiduals (xs.zip ys) s i)
    (hv : IsBestCostForSlope (xs.zip ys) s v) : v = squaredResiduals (xs.zip ys) m b + (s - m) ^ 2 * sampleSpread xs := by
  obtain ⟨⟨i, hi⟩, hmin⟩ := hv
  have k := fun c => residuals_zip hlen hx h (s - m) c
  simp only [add_sub_cancel] at k
  apply le_antisymm
  · have h1 := hmin (b + -((s - m) * sampleMean xs))
    rw [k] at h1
    simpa using h1
  · have h1 := k (i - b)
    rw [add_sub_cancel, ← hi] at h1
    have : 0 ≤ (xs.length : ℝ) * ((s - m) * sampleMean xs + (i - b)) ^ 2 := by positivity
    linarith

theorem best_at {m b t y v : ℝ} (h : ∀ s i, squaredResiduals (xs.zip ys) m b ≤ squaredResiduals (xs.zip ys) s i)
    (hv : IsBestCostAt (xs.zip ys) t y v) :
    v = squaredResiduals (xs.zip ys) m b + (y - (m * t + b)) ^ 2 / (1 / xs.length + (t - sampleMean xs) ^ 2 / sampleSpread xs) := by
  obtain ⟨⟨s, i, hsi, hi⟩, hmin⟩ := hv
  have hS := sampleSpread_pos hx
  have hN : (0 : ℝ) < xs.length := by
    obtain ⟨a, ha, -⟩ := hx
    exact_mod_cast List.length_pos_of_mem ha
  set S := sampleSpread xs
  set N : ℝ := (xs.length : ℝ)
  set u := t - sampleMean xs with hu
  set d := y - (m * t + b) with hd
  have hP : 0 < S + N * u ^ 2 := by positivity
  have e : d ^ 2 / (1 / N + u ^ 2 / S) = d ^ 2 * N * S / (S + N * u ^ 2) := by
    field_simp
  rw [e]
  have k : ∀ a, squaredResiduals (xs.zip ys) (m + a) (b + (d - a * t)) = squaredResiduals (xs.zip ys) m b +
      (d ^ 2 * N * S / (S + N * u ^ 2) + (S + N * u ^ 2) * (a - d * N * u / (S + N * u ^ 2)) ^ 2) := fun a => by
    rw [residuals_zip hlen hx h, show a * sampleMean xs + (d - a * t) = d - a * u by rw [hu]; ring]
    change _ + (a ^ 2 * S + N * (d - a * u) ^ 2) = _
    congr 1
    field_simp
    ring
  apply le_antisymm
  · have h1 := hmin (m + d * N * u / (S + N * u ^ 2)) (b + (d - d * N * u / (S + N * u ^ 2) * t)) (by rw [hd]; ring)
    rw [k] at h1
    simpa using h1
  · have h1 := k (s - m)
    rw [show m + (s - m) = s by ring, show b + (d - (s - m) * t) = i by rw [hd, ← hsi]; ring, ← hi] at h1
    have : 0 ≤ (S + N * u ^ 2) * (s - m - d * N * u / (S + N * u ^ 2)) ^ 2 := by positivity
    linarith

end

/-- C122: the slopes at the ends of the range differ from the fitted one by `sqrt (cost_increase / spread)` (up to the tolerance of the search, `1e-5` in the cost). -/
theorem c122_slope_range (leastsq : (ℝ → ℝ) → ℝ) (hl : LeastsqMinimises leastsq) (linregress : List ℝ → List ℝ → LineFit) (hlin : LinregressMinimises linregress)
    (isinf : ℝ → Prop) (xs ys : List ℝ) (cost_increase : ℝ) (hlen : xs.length = ys.length) (hx : ∃ a ∈ xs, ∃ b ∈ xs, a ≠ b) (fuel : Nat) (low mid high : ℝ)
    (h : leastSquaresSlopeRange leastsq linregress isinf xs ys cost_increase fuel = some (.ok (low, mid, high))) :
    low ≤ mid ∧ mid ≤ high ∧ |(mid - low) ^ 2 * sampleSpread xs - cost_increase| ≤ 1 / 100000 ∧ |(high - mid) ^ 2 * sampleSpread xs - cost_increase| ≤ 1 / 100000 := by
  obtain ⟨h1, h2, h3, ⟨v, hv, hv'⟩, w, hw, hw'⟩ := c61_slope_range leastsq hl linregress isinf xs ys cost_increase fuel low mid high h
  have best := hlin xs ys hlen hx
  rw [best_slope hlen hx best hv] at hv'
  rw [best_slope hlen hx best hw] at hw'
  rw [← h1] at hv' hw'
  refine ⟨h2, h3, ?_, ?_⟩
  · convert hv' using 2
    ring
  · convert hw' using 2
    ring

/-- C122: the values at the ends of the range at `target_x` differ from the fitted value by `sqrt (cost_increase * (1 / n + (target_x - mean)^2 / spread))` (up to the tolerance of the search, `1e-5` in the cost). -/
theorem c122_output_range (leastsq : (ℝ → ℝ) → ℝ) (hl : LeastsqMinimises leastsq) (linregress : List ℝ → List ℝ → LineFit) (hlin : LinregressMinimises linregress)
    (isinf : ℝ → Prop) (xs ys : List ℝ) (target_x cost_increase : ℝ) (hlen : xs.length = ys.length) (hx : ∃ a ∈ xs, ∃ b ∈ xs, a ≠ b) (fuel : Nat) (low high : ℝ)
    (h : leastSquaresOutputRange leastsq linregress isinf xs ys target_x cost_increase fuel = some (.ok (low, high))) :
    let mid := (linregress xs ys).slope * target_x + (linregress xs ys).intercept
    let scale := 1 / (xs.length : ℝ) + (target_x - sampleMean xs) ^ 2 / sampleSpread xs
    low ≤ mid ∧ mid ≤ high ∧ |(mid - low) ^ 2 / scale - cost_increase| ≤ 1 / 100000 ∧ |(high - mid) ^ 2 / scale - cost_increase| ≤ 1 / 100000 := by
  intro mid scale
  obtain ⟨h2, h3, ⟨v, hv, hv'⟩, w, hw, hw'⟩ := c61_output_range leastsq hl linregress isinf xs ys target_x cost_increase fuel low high h
  have best := hlin xs ys hlen hx
  rw [best_at hlen hx best hv] at hv'
  rw [best_at hlen hx best hw] at hw'
  refine ⟨h2, h3, ?_, ?_⟩
  · rw [show (mid - low) ^ 2 = (low - mid) ^ 2 by ring]
    convert hv' using 2
    ring
  · convert hw' using 2
    ring

/-! ## Example -/

/-- The hypotheses of both theorems: three points, and external functions that do what their documentation says. -/
example : ∃ leastsq linregress fuel low mid high low' high', LeastsqMinimises leastsq ∧ LinregressMinimises linregress ∧
    leastSquaresSlopeRange leastsq linregress (fun _ => False) [0, 1, 2] [1, 2, 4] 2 fuel = some (.ok (low, mid, high)) ∧
    leastSquaresOutputRange leastsq linregress (fun _ => False) [0, 1, 2] [1, 2, 4] 7 2 fuel = some (.ok (low', high')) ∧
    |(high - mid) ^ 2 * 2 - 2| ≤ 1 / 100000 := by
  obtain ⟨leastsq, hl⟩ := exists_leastsq
  obtain ⟨linregress, hr⟩ := exists_linregress
  have hx : ∃ a ∈ [(0 : ℝ), 1, 2], ∃ b ∈ [(0 : ℝ), 1, 2], a ≠ b := ⟨0, by simp, 1, by simp, by norm_num⟩
  obtain ⟨fuel, ⟨⟨low', high'⟩, h1⟩, ⟨low, mid, high⟩, h2⟩ := c61_ranges_total leastsq hl linregress (fun _ => False) [0, 1, 2] [1, 2, 4] 7 2 rfl hx (by norm_num) (by simp)
  have e : sampleSpread [0, 1, 2] = 2 := by norm_num [sampleSpread, sampleMean]
  have := (c122_slope_range leastsq hl linregress hr (fun _ => False) [0, 1, 2] [1, 2, 4] 2 rfl hx fuel low mid high h2).2.2.2
  rw [e] at this
  exact ⟨leastsq, linregress, fuel, low, mid, high, low', high', hl, hr, h2, h1, this⟩

end Honeycomb
