import Verif.Props.FitRanges
import Verif.Props.Projection

/-!
# C124: the fitted trend is close to the law that the data follow

`sampleMean`, `sampleSpread` (`Spec/Fits.lean`), `LinregressMinimises` (`Spec/LambdaFigures.lean`): scipy's fit is the best line.
-/

namespace Honeycomb

open LambdaGroup

theorem residuals_le {pts : List (ℝ × ℝ)} {s c δ : ℝ} (h : ∀ q ∈ pts, |q.2 - (s * q.1 + c)| ≤ δ) : squaredResiduals pts s c ≤ pts.length * δ ^ 2 := by
  unfold squaredResiduals
  induction pts with
  | nil => simp
  | cons q pts ih =>
    have h1 := ih fun r hr => h r (List.mem_cons_of_mem _ hr)
    have h2 := h q List.mem_cons_self
    have h3 : (s * q.1 + c - q.2) ^ 2 ≤ δ ^ 2 := by
      rw [show (s * q.1 + c - q.2) ^ 2 = |q.2 - (s * q.1 + c)| ^ 2 by rw [sq_abs]; ring]
      exact pow_le_pow_left₀ (abs_nonneg _) h2 2
    simp only [List.map_cons, List.sum_cons, List.length_cons]
    push_cast
    linarith

/-- The best line through points near another line. -/
theorem best_near {xs ys : List ℝ} (hlen : xs.length = ys.length) (hx : ∃ a ∈ xs, ∃ b ∈ xs, a ≠ b) {m b s c δ : ℝ}
    (h : ∀ s i, squaredResiduals (xs.zip ys) m b ≤ squaredResiduals (xs.zip ys) s i) (hlaw : ∀ q ∈ xs.zip ys, |q.2 - (s * q.1 + c)| ≤ δ) :
    (m - s) ^ 2 * sampleSpread xs ≤ xs.length * δ ^ 2 ∧
      ∀ t, (m * t + b - (s * t + c)) ^ 2 ≤ δ ^ 2 * (1 + xs.length * (t - sampleMean xs) ^ 2 / sampleSpread xs) := by
  have hS := sampleSpread_pos hx
  have hN : (0 : ℝ) < xs.length := by
    obtain ⟨a, ha, -⟩ := hx
    exact_mod_cast List.length_pos_of_mem ha
  have h0 : 0 ≤ squaredResiduals (xs.zip ys) m b := List.sum_nonneg fun v hv => by
    obtain ⟨q, -, rfl⟩ := List.mem_map.1 hv
    positivity
  have h1 := residuals_le hlaw
  rw [List.length_zip, ← hlen, min_self] at h1
  have h2 := residuals_zip hlen hx h (s - m) (c - b)
  rw [add_sub_cancel, add_sub_cancel] at h2
  set S := sampleSpread xs
  set N : ℝ := (xs.length : ℝ)
  set v := (s - m) * sampleMean xs + (c - b) with hv
  have hsq : (s - m) ^ 2 * S + N * v ^ 2 ≤ N * δ ^ 2 := by linarith
  refine ⟨?_, fun t => ?_⟩
  · have : 0 ≤ N * v ^ 2 := by positivity
    nlinarith
  · set w := t - sampleMean xs with hw
    have e : m * t + b - (s * t + c) = -(v + (s - m) * w) := by
      rw [hv, hw]
      ring
    rw [e, neg_sq]
    -- Cauchy-Schwarz
    have cs : (v + (s - m) * w) ^ 2 * (N * S) ≤ ((s - m) ^ 2 * S + N * v ^ 2) * (S + N * w ^ 2) := by
      have : 0 ≤ (v * N * w - (s - m) * S) ^ 2 := sq_nonneg _
      nlinarith
    have h3 : (v + (s - m) * w) ^ 2 * (N * S) ≤ N * δ ^ 2 * (S + N * w ^ 2) :=
      cs.trans (mul_le_mul_of_nonneg_right hsq (by positivity))
    rw [show δ ^ 2 * (1 + N * w ^ 2 / S) = N * δ ^ 2 * (S + N * w ^ 2) / (N * S) by field_simp]
    exact (le_div_iff₀ (by positivity)).2 h3

/-- C124: if the logarithms of the combined error rates of a group are within `δ` of `s * distance + c`, then the fitted trend is close to that line at every distance. -/
theorem c124_trend (linregress : List ℝ → List ℝ → LineFit) (hlin : LinregressMinimises linregress) (g : LambdaGroup) (hg : GoodTables g) (hr : 1 ≤ g.rep.rounds)
    (hd : 1 ≤ g.rep.code_distance) (xs : List Int) (ys : List ℝ) (hdata : g.comboData = .ok (xs, ys)) (h2 : 2 ≤ xs.length) (s c δ : ℝ)
    (hlaw : ∀ d y, (d, y) ∈ xs.zip ys → |Real.log y - (s * d + c)| ≤ δ) :
    ∃ r, g.linearFit linregress = .ok r ∧ (r.slope - s) ^ 2 * sampleSpread (xs.map fun x : Int => (x : ℝ)) ≤ xs.length * δ ^ 2 ∧
      ∀ t, ∃ e, g.projectedError linregress t = .ok e ∧ (Real.log e - (s * t + c)) ^ 2 ≤
        δ ^ 2 * (1 + xs.length * (t - sampleMean (xs.map fun x : Int => (x : ℝ))) ^ 2 / sampleSpread (xs.map fun x : Int => (x : ℝ))) := by
  obtain ⟨_, xs', ys', _, h1, hl, h3, _⟩ := c59_combined g hg hr hd
  rw [hdata] at h1
  simp only [Except.ok.injEq, Prod.mk.injEq] at h1
  obtain ⟨rfl, rfl⟩ := h1
  obtain ⟨xs', ys', h1', hfit⟩ := c65_fit linregress g hg hr hd
  rw [hdata] at h1'
  simp only [Except.ok.injEq, Prod.mk.injEq] at h1'
  obtain ⟨rfl, rfl⟩ := h1'
  rw [if_neg (by omega)] at hfit
  have hlen : (xs.map fun x : Int => (x : ℝ)).length = (ys.map Real.log).length := by simp [hl]
  have hx : ∃ a ∈ xs.map (fun x : Int => (x : ℝ)), ∃ b ∈ xs.map (fun x : Int => (x : ℝ)), a ≠ b := by
    match xs, h2, h3 with
    | x :: y :: l, _, h3 =>
      refine ⟨x, by simp, y, by simp, ?_⟩
      have : x < y := (List.pairwise_cons.1 h3).1 y (by simp)
      exact_mod_cast this.ne
  obtain ⟨n1, n2⟩ := best_near hlen hx (hlin _ _ hlen hx) (s := s) (c := c) (δ := δ) fun q hq => by
    rw [List.zip_map, List.mem_map] at hq
    obtain ⟨⟨d, y⟩, hm, rfl⟩ := hq
    exact hlaw d y hm
  rw [List.length_map] at n1 n2
  set r := linregress (xs.map fun x : Int => (x : ℝ)) (ys.map Real.log)
  refine ⟨r, hfit, n1, fun t => ⟨Real.exp (r.slope * t + r.intercept), ?_, ?_⟩⟩
  · rw [projectedError, hfit]
    rfl
  · rw [Real.log_exp]
    exact n2 t

/-- C124: data that follow an exponential law exactly are extrapolated exactly. -/
theorem c124_exact (linregress : List ℝ → List ℝ → LineFit) (hlin : LinregressMinimises linregress) (g : LambdaGroup) (hg : GoodTables g) (hr : 1 ≤ g.rep.rounds)
    (hd : 1 ≤ g.rep.code_distance) (xs : List Int) (ys : List ℝ) (hdata : g.comboData = .ok (xs, ys)) (h2 : 2 ≤ xs.length) (s c : ℝ)
    (hlaw : ∀ d y, (d, y) ∈ xs.zip ys → y = Real.exp (s * d + c)) :
    (∀ t, g.projectedError linregress t = .ok (Real.exp (s * t + c))) ∧
      (s ≠ 0 → ∀ t, g.projectedDistance linregress (Real.exp (s * t + c)) = .ok (some t)) := by
  obtain ⟨r, hfit, h1, h3⟩ := c124_trend linregress hlin g hg hr hd xs ys hdata h2 s c 0 fun d y hm => by
    rw [hlaw d y hm, Real.log_exp, sub_self, abs_zero]
  have line : ∀ t, r.slope * t + r.intercept = s * t + c := fun t => by
    obtain ⟨e, he, hsq⟩ := h3 t
    rw [projectedError, hfit] at he
    simp only [bind, Except.bind, pure, Except.pure, Except.ok.injEq] at he
    rw [← he, Real.log_exp] at hsq
    have : (r.slope * t + r.intercept - (s * t + c)) ^ 2 ≤ 0 := by simpa using hsq
    have := pow_eq_zero_iff (two_ne_zero) |>.1 (le_antisymm this (sq_nonneg _))
    linarith
  have hc : r.intercept = c := by simpa using line 0
  have hs : r.slope = s := by
    have := line 1
    linarith
  refine ⟨fun t => ?_, fun hne t => ?_⟩
  · rw [projectedError, hfit]
    simp only [bind, Except.bind, pure, Except.pure, line]
  · rw [projectedDistance, hfit]
    simp only [bind, Except.bind, pure, Except.pure, pyLog, if_pos (Real.exp_pos _), hs, hc, if_neg hne, Real.log_exp, add_sub_cancel_right, mul_div_cancel_left₀ _ hne]

/-! ## Example -/

/-- A group with two distances. -/
def trendDemo : LambdaGroup :=
  ⟨1 / 100, (HoneycombLayout.mk 4 6 36 "SD6" "H" (1 / 100)).asDecoderProblemDesc "internal",
    [(8, ⟨100, 99, 1⟩), (4, ⟨100, 90, 1⟩)], [(4, ⟨100, 80, 1⟩), (8, ⟨100, 98, 1⟩)]⟩

/-- The hypotheses of `c124_trend` and `c124_exact`: two points lie on a line. -/
example : ∃ linregress s c, LinregressMinimises linregress ∧ ∀ t, trendDemo.projectedError linregress t = .ok (Real.exp (s * t + c)) := by
  obtain ⟨linregress, hlin⟩ := exists_linregress
  have hg : GoodTables trendDemo := ⟨by decide, by decide, by decide, by decide⟩
  have hr : 1 ≤ trendDemo.rep.rounds := by
    show 1 ≤ ⌈((36 : Int) : Rat) / 3⌉
    norm_num
  have hd : 1 ≤ trendDemo.rep.code_distance := by decide
  obtain ⟨_, xs, ys, _, hdata, hlen, hsort, hmem, hpt⟩ := c59_combined trendDemo hg hr hd
  have m4 : (4 : Int) ∈ xs := (hmem 4).2 ⟨1 / 10, 1 / 5, .inl ⟨⟨100, 90, 1⟩, by simp [trendDemo], by norm_num [ShotData.logical_error_rate]⟩,
    .inl ⟨⟨100, 80, 1⟩, by simp [trendDemo], by norm_num [ShotData.logical_error_rate]⟩, by norm_num, by norm_num⟩
  have m8 : (8 : Int) ∈ xs := (hmem 8).2 ⟨1 / 100, 1 / 50, .inl ⟨⟨100, 99, 1⟩, by simp [trendDemo], by norm_num [ShotData.logical_error_rate]⟩,
    .inl ⟨⟨100, 98, 1⟩, by simp [trendDemo], by norm_num [ShotData.logical_error_rate]⟩, by norm_num, by norm_num⟩
  have sub : ∀ d ∈ xs, d = 4 ∨ d = 8 := fun d h => by
    obtain ⟨_, _, h1, -⟩ := (hmem d).1 h
    rcases h1 with ⟨_, h1, -⟩ | ⟨-, _, h1, -⟩ <;> simp [trendDemo] at h1 <;> omega
  have hxs : xs = [4, 8] := by
    refine List.Perm.eq_of_pairwise (le := (· < ·)) (fun a b _ _ h1 h2 => absurd h1 (by omega)) hsort (by simp) ?_
    rw [List.perm_ext_iff_of_nodup (hsort.imp fun h => h.ne) (by decide)]
    intro d
    constructor
    · intro h
      have := sub d h
      simpa using this
    · intro h
      rcases (by simpa using h : d = 4 ∨ d = 8) with rfl | rfl
      · exact m4
      · exact m8
  subst hxs
  match ys, hlen with
  | [y1, y2], _ =>
    have p1 := (hpt 4 y1 (by simp)).1
    have p2 := (hpt 8 y2 (by simp)).1
    refine ⟨linregress, (Real.log y2 - Real.log y1) / 4, 2 * Real.log y1 - Real.log y2, hlin,
      (c124_exact linregress hlin trendDemo hg hr hd _ _ hdata (by simp) _ _ fun d y hm => ?_).1⟩
    simp only [List.zip_cons_cons, List.zip_nil_right, List.mem_cons, Prod.mk.injEq, List.not_mem_nil, or_false] at hm
    rcases hm with ⟨rfl, rfl⟩ | ⟨rfl, rfl⟩
    · rw [← Real.exp_log p1]
      congr 1
      rw [Real.exp_log p1]
      push_cast
      ring
    · rw [← Real.exp_log p2]
      congr 1
      rw [Real.exp_log p2]
      push_cast
      ring

end Honeycomb
