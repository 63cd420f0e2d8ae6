import Verif.Lemmas.Search
import Verif.Lemmas.LogBinomial
import Verif.Model.ShotData

/-!
# Properties of `src/probability_util.py` and `src/plotting.py` (C40-C45)
-/

namespace Honeycomb

open Classical

/-! ## C40: `binary_search` -/

/-- C40. For every function ascending on the range (with values possibly infinite) and every target, `binary_search` returns an
integer of the range whose value is at least as close to the target as the value at every other integer of the range. -/
theorem c40_closest (func : Int → EReal) (target : EReal) (min_x max_x : Int) (hle : min_x ≤ max_x)
    (hmono : ∀ x y, min_x ≤ x → x ≤ y → y ≤ max_x → func x ≤ func y) :
    min_x ≤ binarySearch func target min_x max_x ∧ binarySearch func target min_x max_x ≤ max_x ∧
      ∀ y, min_x ≤ y → y ≤ max_x → gap (func (binarySearch func target min_x max_x)) target ≤ gap (func y) target :=
  binarySearch_spec func target min_x max_x hmono _ min_x max_x rfl (le_refl _) hle (le_refl _) (.inl rfl) (.inl rfl)

/-- C40. If the target is attained at exactly one integer of the range, that integer is returned. -/
theorem c40_exact (func : Int → EReal) (target : EReal) (min_x max_x x : Int) (h1 : min_x ≤ x) (h2 : x ≤ max_x)
    (hmono : ∀ x y, min_x ≤ x → x ≤ y → y ≤ max_x → func x ≤ func y)
    (hx : ∀ y, min_x ≤ y → y ≤ max_x → (func y = target ↔ y = x)) :
    binarySearch func target min_x max_x = x := by
  obtain ⟨h3, h4, h5⟩ := c40_closest func target min_x max_x (by omega) hmono
  rw [← hx _ h3 h4]
  have := h5 x h1 h2
  rw [(hx x h1 h2).2 rfl, gap_self, nonpos_iff_eq_zero] at this
  by_contra hne
  rw [gap, if_neg hne, EReal.abs_eq_zero_iff] at this
  generalize func (binarySearch func target min_x max_x) = v at *
  induction v <;> induction target <;> simp_all
  rename_i a b
  rw [← EReal.coe_sub] at this
  have h0 : a - b = 0 := by exact_mod_cast this
  exact hne (by linarith)

/-- The distances are the ordinary ones between real numbers. -/
example (a b : ℝ) : gap (a : EReal) (b : EReal) = ENNReal.ofReal |a - b| := by
  unfold gap
  by_cases h : a = b
  · simp [h]
  · rw [if_neg (by exact_mod_cast h), ← EReal.coe_sub, EReal.abs_def]

example : gap (⊥ : EReal) 3 = ⊤ := by
  rw [gap, if_neg (by decide)]
  rfl

/-- A function with an infinite value: the squares, with `-inf` at 0. -/
example : binarySearch (fun x => if x ≤ 0 then ⊥ else ((x : ℝ) : EReal) * ((x : ℝ) : EReal)) 36 0 10 = 6 := by
  refine c40_exact _ _ _ _ _ (by decide) (by decide) ?_ ?_
  · intro x y hx hxy hy
    split_ifs with h1 h2
    · exact le_refl _
    · exact bot_le
    · omega
    · rw [← EReal.coe_mul, ← EReal.coe_mul, EReal.coe_le_coe_iff]
      have a : (0 : ℝ) ≤ x := by exact_mod_cast (by omega : (0 : Int) ≤ x)
      have b : (x : ℝ) ≤ y := by exact_mod_cast hxy
      nlinarith
  · intro y h1 h2
    split_ifs with h
    · constructor
      · intro h3
        exact absurd h3.symm (EReal.coe_ne_bot 36)
      · omega
    · rw [← EReal.coe_mul]
      constructor
      · intro h3
        have : ((y : ℝ) * (y : ℝ)) = 36 := EReal.coe_injective h3
        have h4 : y * y = 36 := by exact_mod_cast this
        nlinarith
      · rintro rfl
        norm_num
        rfl

/-! ## C41: `binary_intercept` -/

/-- C41. A returned `x` is within the tolerance; it is `start_x` or lies strictly on the side of `start_x` that `step` points to. No
assumption on the function, on overflow (`isinf`) or on the number of iterations. -/
theorem c41_sound (func : ℝ → ℝ) (isinf : ℝ → Prop) (start_x step target_y atol : ℝ) (fuel : Nat) (x : ℝ)
    (hstep : step ≠ 0)
    (h : binaryIntercept func isinf start_x step target_y atol fuel = some (.ok x)) :
    |func x - target_y| ≤ atol ∧ (x = start_x ∨ 0 < (x - start_x) * step) := by
  rw [binaryIntercept] at h
  simp only at h
  by_cases h0 : |func start_x - target_y| ≤ atol
  · rw [if_pos h0] at h
    cases h
    exact ⟨h0, .inl rfl⟩
  · rw [if_neg h0] at h
    cases hE : interceptExpand func isinf start_x (func start_x) target_y fuel step with
    | none => rw [hE] at h; simp at h
    | some r =>
      rw [hE] at h
      cases r with
      | error e => simp at h
      | ok r =>
        simp only at h
        obtain ⟨⟨k, rfl⟩, hcross⟩ := interceptExpand_ok _ _ _ hE
        have hk : (0 : ℝ) < 2 ^ k := by positivity
        rcases lt_or_gt_of_ne hstep with hs | hs
        · have hr : step * 2 ^ k < 0 := mul_neg_of_neg_of_pos hs hk
          rw [min_eq_right (by linarith), max_eq_left (by linarith)] at h
          obtain ⟨h1, h2, h3⟩ := interceptBisect_ok _ _ _ _ (by linarith) h
          exact ⟨h1, .inr (mul_pos_of_neg_of_neg (by linarith) hs)⟩
        · have hr : 0 < step * 2 ^ k := mul_pos hs hk
          rw [min_eq_left (by linarith), max_eq_right (by linarith)] at h
          obtain ⟨h1, h2, h3⟩ := interceptBisect_ok _ _ _ _ (by linarith) h
          exact ⟨h1, .inr (mul_pos (by linarith) hs)⟩

/-- C41. More iterations do not change the outcome, so "returns" does not depend on the fuel of the model. -/
theorem c41_fuel (func : ℝ → ℝ) (isinf : ℝ → Prop) (start_x step target_y atol : ℝ) (fuel fuel' : Nat) (r : Except PyErr ℝ)
    (hf : fuel ≤ fuel') (h : binaryIntercept func isinf start_x step target_y atol fuel = some r) :
    binaryIntercept func isinf start_x step target_y atol fuel' = some r := by
  rw [binaryIntercept] at h ⊢
  simp only at h ⊢
  split_ifs at h ⊢ with h0
  · exact h
  · cases hE : interceptExpand func isinf start_x (func start_x) target_y fuel step with
    | none => rw [hE] at h; simp at h
    | some v =>
      rw [hE] at h
      rw [interceptExpand_mono _ _ _ _ hf hE]
      cases v with
      | error e => exact h
      | ok v => exact interceptBisect_mono _ _ _ _ _ hf h

/-- C41. For a continuous function that is on the other side of the target at some `start_x + step*2^k` (and if `step*2^k` does not
overflow) `binary_intercept` returns. -/
theorem c41_total (func : ℝ → ℝ) (isinf : ℝ → Prop) (start_x step target_y atol : ℝ) (k : Nat)
    (hc : Continuous func) (hstep : step ≠ 0) (hatol : 0 < atol) (hinf : ∀ j, j ≤ k → ¬ isinf (step * 2 ^ j))
    (hcross : (func start_x < target_y ∧ target_y ≤ func (start_x + step * 2 ^ k)) ∨
      (target_y ≤ func start_x ∧ func (start_x + step * 2 ^ k) < target_y)) :
    ∃ fuel x, binaryIntercept func isinf start_x step target_y atol fuel = some (.ok x) := by
  by_cases h0 : |func start_x - target_y| ≤ atol
  · exact ⟨0, start_x, by rw [binaryIntercept]; simp only; rw [if_pos h0]⟩
  obtain ⟨r, hr⟩ := interceptExpand_total (func := func) (isinf := isinf) (start_x := start_x) (start_y := func start_x)
    (target_y := target_y) k step hstep hinf (by
      intro heq
      have := heq.to_iff
      rcases hcross with ⟨h1, h2⟩ | ⟨h1, h2⟩
      · exact absurd (this.1 h2) (not_le.2 h1)
      · exact absurd (this.2 h1) (not_le.2 h2))
  obtain ⟨⟨j, hj⟩, hx⟩ := interceptExpand_ok _ _ _ hr
  have hr0 : r ≠ 0 := by rw [hj]; exact mul_ne_zero hstep (by positivity)
  -- the two ends are separated by the target
  have hsep : (func start_x < target_y ∧ target_y ≤ func (start_x + r)) ∨
      (target_y < func start_x ∧ func (start_x + r) < target_y) := by
    by_cases h1 : target_y ≤ func start_x
    · right
      refine ⟨lt_of_le_of_ne h1 (fun he => h0 (by rw [he]; simpa using hatol.le)), ?_⟩
      by_contra h2
      exact hx (propext ⟨fun _ => h1, fun _ => not_lt.1 h2⟩)
    · left
      refine ⟨not_le.1 h1, ?_⟩
      by_contra h2
      exact hx (propext ⟨fun h => absurd h h2, fun h => absurd h h1⟩)
  obtain ⟨a, ha⟩ : ∃ a, a = min start_x (start_x + r) := ⟨_, rfl⟩
  obtain ⟨b, hb⟩ : ∃ b, b = max start_x (start_x + r) := ⟨_, rfl⟩
  have hab : a < b ∧ ((a = start_x ∧ b = start_x + r) ∨ (a = start_x + r ∧ b = start_x)) := by
    rcases lt_or_gt_of_ne hr0 with hneg | hpos
    · rw [ha, hb, min_eq_right (by linarith), max_eq_left (by linarith)]
      exact ⟨by linarith, .inr ⟨rfl, rfl⟩⟩
    · rw [ha, hb, min_eq_left (by linarith), max_eq_right (by linarith)]
      exact ⟨by linarith, .inl ⟨rfl, rfl⟩⟩
  have hinc : ((func a < target_y) = (func a < func b)) ∧ ((func b < target_y) ≠ (func a < func b)) := by
    have p1 : ∀ {p q : Prop}, (p ↔ q) → p = q := fun h => propext h
    rcases hab.2 with ⟨rfl, rfl⟩ | ⟨rfl, rfl⟩ <;> rcases hsep with ⟨h1, h2⟩ | ⟨h1, h2⟩
    · exact ⟨p1 ⟨fun _ => by linarith, fun _ => h1⟩, fun h => by have := h.to_iff.2 (by linarith); linarith⟩
    · exact ⟨p1 ⟨fun _ => by linarith, fun _ => by linarith⟩, fun h => by have := h.to_iff.1 h2; linarith⟩
    · exact ⟨p1 ⟨fun _ => by linarith, fun _ => by linarith⟩, fun h => by have := h.to_iff.1 h1; linarith⟩
    · exact ⟨p1 ⟨fun _ => by linarith, fun _ => h2⟩, fun h => by have := h.to_iff.2 (by linarith); linarith⟩
  have huc := (isCompact_Icc (a := a) (b := b)).uniformContinuousOn_of_continuous hc.continuousOn
  rw [Metric.uniformContinuousOn_iff] at huc
  obtain ⟨δ, hδ, hu⟩ := huc atol hatol
  obtain ⟨n, hn⟩ := pow_unbounded_of_one_lt ((b - a) / δ) (by norm_num : (1 : ℝ) < 2)
  obtain ⟨x, hx'⟩ := interceptBisect_total (func := func) (target_y := target_y) (atol := atol)
    (increasing := func a < func b) δ hδ a b hc.continuousOn
    (fun x hx y hy hxy => (hu x hx y hy hxy).le) n a b (le_refl _) hab.1 (le_refl _)
    (by rw [div_lt_iff₀ hδ] at hn; linarith) hinc.1 hinc.2
  refine ⟨(k + 1) + (n + 1), x, ?_⟩
  rw [binaryIntercept]
  simp only
  rw [if_neg h0, interceptExpand_mono _ _ _ _ (by omega) hr]
  simp only
  rw [← ha, ← hb]
  exact interceptBisect_mono _ _ _ _ _ (by omega) hx'

/-- C41. A zero step never finds anything: ValueError unless the start is already good. -/
theorem c41_zero_step (func : ℝ → ℝ) (isinf : ℝ → Prop) (start_x target_y atol : ℝ) (fuel : Nat)
    (h0 : atol < |func start_x - target_y|) :
    binaryIntercept func isinf start_x 0 target_y atol (fuel + 1) = some (.error .valueError) := by
  rw [binaryIntercept]
  simp only
  rw [if_neg (not_le.2 h0), interceptExpand]
  simp

/-- Solving `x^2 = 2` from 0 to the right. -/
example : ∃ fuel x, binaryIntercept (fun x => x ^ 2) (fun s => 1000000 < |s|) 0 1 2 (1 / 1000) fuel = some (.ok x) ∧
    |x ^ 2 - 2| ≤ 1 / 1000 ∧ 0 < x := by
  obtain ⟨fuel, x, h⟩ := c41_total (fun x => x ^ 2) (fun s => 1000000 < |s|) 0 1 2 (1 / 1000) 1 (by fun_prop) (by norm_num)
    (by norm_num) (by
      intro j hj
      interval_cases j <;> norm_num) (by norm_num)
  obtain ⟨h1, h2⟩ := c41_sound _ _ _ _ _ _ _ _ (by norm_num) h
  refine ⟨fuel, x, h, h1, ?_⟩
  rcases h2 with rfl | h2
  · norm_num at h1
  · simpa using h2

/-! ## C42: `log_factorial` -/

/-- C42. `log_factorial(n)` is exactly `ln(n!)` below 20; from 20 on it is smaller by at most `1/(12 n)` (and at least 0). -/
theorem c42_log_factorial (n : Nat) :
    (n < 20 → logFactorial n = Real.log (n.factorial : ℝ)) ∧
    (20 ≤ n → logFactorial n ≤ Real.log (n.factorial : ℝ) ∧
      Real.log (n.factorial : ℝ) - logFactorial n ≤ 1 / (12 * (n : ℝ))) := by
  refine ⟨logFactorial_lt n, fun h => ?_⟩
  obtain ⟨h1, h2, -⟩ := logFactorial_bounds n
  exact ⟨by linarith, h2 h⟩

/-- C42. The jump at 20 is below half a percent in absolute terms, for all n. -/
theorem c42_uniform (n : Nat) : |logFactorial n - Real.log (n.factorial : ℝ)| ≤ 1 / 240 := by
  obtain ⟨h1, -, h3⟩ := logFactorial_bounds n
  rw [abs_le]
  constructor <;> linarith

/-- C42. For negative arguments the sum is empty. -/
theorem c42_negative (n : Int) (h : n < 0) : logFactorial n = 0 := by
  rw [logFactorial, if_pos (by omega), show n.toNat = 0 by omega]
  simp

example : logFactorial 5 = Real.log 120 := by
  rw [show (5 : Int) = ((5 : Nat) : Int) from rfl, (c42_log_factorial 5).1 (by norm_num)]
  norm_num [Nat.factorial]

/-! ## C43: `log_binomial` -/

/-- C43. For fewer than 20 samples `log_binomial` is the logarithm of the binomial probability, with `p` clamped to `[0,1]` and
`ln 0 = -inf`. -/
theorem c43_exact (p : ℝ) (n hits : Nat) (hn : n < 20) (hh : hits ≤ n) :
    logBinomial p n hits = lnProb (binomialProb n hits (clamp01 p)) := by
  rw [logBinomial_eq p n hits hh, lnProb_eq n hits _ hh, log_choose n hits hh, logFactorial_lt n hn,
    logFactorial_lt hits (by omega), logFactorial_lt (n - hits) (by omega)]

/-- C43. For every number of samples the difference is the same for every `p`, namely the error of the `log_factorial`
approximations; it lies between `-1/240` and `1/120`. -/
theorem c43_approx (n hits : Nat) (hh : hits ≤ n) :
    ∃ c : ℝ, -(1 / 240) ≤ c ∧ c ≤ 1 / 120 ∧
      ∀ p, logBinomial p n hits = lnProb (binomialProb n hits (clamp01 p)) + ((c : ℝ) : EReal) := by
  obtain ⟨a1, -, a3⟩ := logFactorial_bounds n
  obtain ⟨b1, -, b3⟩ := logFactorial_bounds hits
  obtain ⟨c1, -, c3⟩ := logFactorial_bounds (n - hits)
  refine ⟨(logFactorial n - logFactorial ((n - hits : Nat) : Int) - logFactorial hits) - Real.log (n.choose hits : ℝ), ?_, ?_, ?_⟩
  · rw [log_choose n hits hh]; linarith
  · rw [log_choose n hits hh]; linarith
  · intro p
    rw [logBinomial_eq p n hits hh, lnProb_eq n hits _ hh, add_assoc, ← EReal.coe_add]
    congr 2
    ring

/-- C43. Minus infinity exactly when the probability is 0. -/
theorem c43_bot (p : ℝ) (n hits : Nat) (hh : hits ≤ n) :
    logBinomial p n hits = ⊥ ↔ binomialProb n hits (clamp01 p) = 0 := by
  obtain ⟨c, -, -, h⟩ := c43_approx n hits hh
  rw [h p, lnProb]
  split_ifs with h0
  · simp [h0]
  · rw [← EReal.coe_add]
    simp [h0]

/-- C43. The array version does this entry by entry. -/
theorem c43_array (ps : List ℝ) (n hits : Int) (i : Nat) (hi : i < ps.length) :
    (logBinomialArray ps n hits)[i]? = some (logBinomial ps[i] n hits) := by
  simp [logBinomialArray, hi]

/-- Two heads of three with a coin of probability 1/2: 3/8. -/
example : logBinomial (1 / 2) 3 2 = ((Real.log (3 / 8) : ℝ) : EReal) := by
  rw [show (3 : Int) = ((3 : Nat) : Int) from rfl, show (2 : Int) = ((2 : Nat) : Int) from rfl,
    c43_exact _ 3 2 (by norm_num) (by norm_num)]
  have : clamp01 (1 / 2) = 1 / 2 := by unfold clamp01; norm_num
  rw [this, lnProb, binomialProb]
  norm_num [Nat.choose]

example : logBinomial (-1) 3 2 = ⊥ := by
  rw [show (3 : Int) = ((3 : Nat) : Int) from rfl, show (2 : Int) = ((2 : Nat) : Int) from rfl, c43_bot _ _ _ (by norm_num)]
  simp [clamp01, binomialProb]

/-! ## C44: likelihood bounds -/

theorem gap_add_coe (a b : EReal) (c : ℝ) : gap (a + (c : EReal)) (b + (c : EReal)) = gap a b := by
  unfold gap
  induction a with
  | bot =>
    induction b with
    | bot => simp
    | top => simp
    | coe b => rw [if_neg (by simp [← EReal.coe_add]), if_neg (by simp)]; rfl
  | top =>
    induction b with
    | bot => simp
    | top => simp
    | coe b => rw [if_neg (by simp [← EReal.coe_add]), if_neg (by simp)]; rfl
  | coe a =>
    induction b with
    | bot => rw [if_neg (by simp [← EReal.coe_add]), if_neg (by simp)]; rfl
    | top => rw [if_neg (by simp [← EReal.coe_add]), if_neg (by simp)]; rfl
    | coe b =>
      rw [← EReal.coe_add, ← EReal.coe_add]
      by_cases h : a = b
      · simp [h]
      · rw [if_neg (by intro hc; have := EReal.coe_injective hc; exact h (by linarith)), if_neg (by exact_mod_cast h), ← EReal.coe_sub, ← EReal.coe_sub]
        congr 2
        ring

/-- C44. The bounds are points of the grid of step `1/(100 num_shots)` in `[0,1]`, one on each side of the maximum likelihood estimate
`num_errors / num_shots`; no other grid point on the same side has a log likelihood closer to the requested one
(`ln(ratio * maximum likelihood)`). The likelihoods are the exact binomial ones, also where `log_factorial` is approximate. -/
theorem c44_bounds (d : ShotData) (ratio : ℝ) (n h : Nat) (hn : d.num_shots = n) (hh : d.num_shots - d.num_correct = h)
    (hn0 : 0 < n) (hle : h ≤ n) (hr : 0 < ratio) :
    ∃ low high : Nat, d.likelyErrorRateBounds ratio = .ok ((low : ℝ) / (100 * n), (high : ℝ) / (100 * n)) ∧
      low ≤ 100 * h ∧ 100 * h ≤ high ∧ high ≤ 100 * n ∧
      (∀ k, k ≤ 100 * h →
        gap (lnProb (binomialProb n h ((low : ℝ) / (100 * n)))) (lnProb (binomialProb n h ((h : ℝ) / n)) + ((Real.log ratio : ℝ) : EReal)) ≤
        gap (lnProb (binomialProb n h ((k : ℝ) / (100 * n)))) (lnProb (binomialProb n h ((h : ℝ) / n)) + ((Real.log ratio : ℝ) : EReal))) ∧
      (∀ k, 100 * h ≤ k → k ≤ 100 * n →
        gap (lnProb (binomialProb n h ((high : ℝ) / (100 * n)))) (lnProb (binomialProb n h ((h : ℝ) / n)) + ((Real.log ratio : ℝ) : EReal)) ≤
        gap (lnProb (binomialProb n h ((k : ℝ) / (100 * n)))) (lnProb (binomialProb n h ((h : ℝ) / n)) + ((Real.log ratio : ℝ) : EReal))) := by
  obtain ⟨c, -, -, hc⟩ := c43_approx n h hle
  have hnR : (0 : ℝ) < n := by exact_mod_cast hn0
  have hhR : (h : ℝ) ≤ n := by exact_mod_cast hle
  have hnh : ((n - h : Nat) : ℝ) = n - h := by rw [Nat.cast_sub hle]
  have hcl : ∀ x : ℝ, 0 ≤ x → x ≤ 1 → clamp01 x = x := by
    intro x h1 h2
    unfold clamp01
    rw [if_neg (not_lt.2 h1), if_neg (not_lt.2 h2)]
  -- the target
  obtain ⟨T, hT⟩ : ∃ T, T = lnProb (binomialProb n h ((h : ℝ) / n)) + ((Real.log ratio : ℝ) : EReal) := ⟨_, rfl⟩
  have htarget : logBinomial (((h : Int) : ℝ) / ((n : Int) : ℝ)) (n : Int) (h : Int) + ((Real.log ratio : ℝ) : EReal) =
      T + (c : EReal) := by
    rw [hc, hT]
    push_cast
    rw [hcl _ (by positivity) (by rw [div_le_one hnR]; exact hhR), add_assoc, add_assoc, add_comm (c : EReal)]
  have hgrid : ∀ k : Int, 0 ≤ k → k ≤ 100 * n → 0 ≤ (k : ℝ) / (100 * n) ∧ (k : ℝ) / (100 * n) ≤ 1 := by
    intro k h1 h2
    have a : (0 : ℝ) ≤ k := by exact_mod_cast h1
    have b : (k : ℝ) ≤ 100 * n := by exact_mod_cast h2
    exact ⟨by positivity, by rw [div_le_one (by positivity)]; exact b⟩
  have hfun : ∀ k : Int, 0 ≤ k → k ≤ 100 * n →
      logBinomial ((k : ℝ) / ((100 * (n : Int) : Int) : ℝ)) (n : Int) (h : Int) =
        lnProb (binomialProb n h ((k : ℝ) / (100 * n))) + (c : EReal) := by
    intro k h1 h2
    rw [hc]
    push_cast
    rw [hcl _ (hgrid k h1 h2).1 (hgrid k h1 h2).2]
  have hln : ∀ x : ℝ, lnProb (binomialProb n h x) = logLik h (n - h) x + ((Real.log (n.choose h : ℝ) : ℝ) : EReal) :=
    fun x => lnProb_eq n h x hle
  have hle100 : (h : Int) * 100 ≤ 100 * n := by omega
  -- ascending left of the estimate
  have hup : ∀ x y : Int, 0 ≤ x → x ≤ y → y ≤ (h : Int) * 100 →
      logBinomial ((x : ℝ) / ((100 * (n : Int) : Int) : ℝ)) (n : Int) (h : Int) ≤
        logBinomial ((y : ℝ) / ((100 * (n : Int) : Int) : ℝ)) (n : Int) (h : Int) := by
    intro x y h1 h2 h3
    rw [hfun x h1 (by omega), hfun y (by omega) (by omega), hln, hln]
    refine add_le_add_left (add_le_add_left ?_ _) _
    have hxy : (x : ℝ) ≤ y := by exact_mod_cast h2
    have hyh : (y : ℝ) ≤ h * 100 := by exact_mod_cast h3
    refine logLik_mono h (n - h) _ _ (hgrid x h1 (by omega)).1 (by gcongr) ?_ (hgrid y (by omega) (by omega)).2
    rw [hnh, div_mul_eq_mul_div, div_le_iff₀ (by positivity)]
    nlinarith
  -- descending right of it
  have hdown : ∀ x y : Int, (h : Int) * 100 ≤ x → x ≤ y → y ≤ (n : Int) * 100 →
      -logBinomial ((x : ℝ) / ((100 * (n : Int) : Int) : ℝ)) (n : Int) (h : Int) ≤
        -logBinomial ((y : ℝ) / ((100 * (n : Int) : Int) : ℝ)) (n : Int) (h : Int) := by
    intro x y h1 h2 h3
    rw [EReal.neg_le_neg_iff, hfun x (by omega) (by omega), hfun y (by omega) (by omega), hln, hln]
    refine add_le_add_left (add_le_add_left ?_ _) _
    have hxy : (x : ℝ) ≤ y := by exact_mod_cast h2
    have hyh : (h : ℝ) * 100 ≤ x := by exact_mod_cast h1
    refine logLik_anti h (n - h) _ _ (hgrid x (by omega) (by omega)).1 (by gcongr) ?_ (hgrid y (by omega) (by omega)).2
    rw [hnh, div_mul_eq_mul_div, le_div_iff₀ (by positivity)]
    nlinarith
  obtain ⟨l1, l2, l3⟩ := c40_closest (fun k => logBinomial ((k : ℝ) / ((100 * (n : Int) : Int) : ℝ)) (n : Int) (h : Int))
    (T + (c : EReal)) 0 ((h : Int) * 100) (by omega) hup
  obtain ⟨r1, r2, r3⟩ := c40_closest (fun k => -logBinomial ((k : ℝ) / ((100 * (n : Int) : Int) : ℝ)) (n : Int) (h : Int))
    (-(T + (c : EReal))) ((h : Int) * 100) ((n : Int) * 100) (by omega) hdown
  obtain ⟨low, hlow⟩ := Int.eq_ofNat_of_zero_le l1
  obtain ⟨high, hhigh⟩ := Int.eq_ofNat_of_zero_le ((show (0 : Int) ≤ (h : Int) * 100 by omega).trans r1)
  refine ⟨low, high, ?_, by omega, by omega, by omega, ?_, ?_⟩
  · rw [ShotData.likelyErrorRateBounds]
    simp only [hh]
    simp only [hn]
    rw [if_neg (by omega), if_neg (not_le.2 hr), htarget, hlow, hhigh]
    push_cast
    rw [div_div, div_div]
  · intro k hk
    have := l3 k (by omega) (by omega)
    rw [hlow] at this
    rw [hfun _ (by omega) (by omega), hfun _ (by omega) (by omega), gap_add_coe, gap_add_coe, hT] at this
    simpa only [Int.ofNat_eq_natCast, Int.cast_natCast] using this
  · intro k hk1 hk2
    have := r3 k (by omega) (by omega)
    rw [hhigh] at this
    rw [gap_neg, gap_neg, hfun _ (by omega) (by omega), hfun _ (by omega) (by omega), gap_add_coe, gap_add_coe, hT] at this
    simpa only [Int.ofNat_eq_natCast, Int.cast_natCast] using this

/-- C44, the coarse consequence: `low <= estimate <= high` inside `[0,1]`. -/
theorem c44_bracket (d : ShotData) (ratio : ℝ) (h0 : 0 < d.num_shots) (h1 : 0 ≤ d.num_correct) (h2 : d.num_correct ≤ d.num_shots)
    (hr : 0 < ratio) :
    ∃ low high : ℝ, d.likelyErrorRateBounds ratio = .ok (low, high) ∧ 0 ≤ low ∧ low ≤ (d.logical_error_rate : ℝ) ∧
      (d.logical_error_rate : ℝ) ≤ high ∧ high ≤ 1 := by
  obtain ⟨n, hn⟩ := Int.eq_ofNat_of_zero_le h0.le
  obtain ⟨h, hh⟩ := Int.eq_ofNat_of_zero_le (show 0 ≤ d.num_shots - d.num_correct by omega)
  obtain ⟨low, high, he, a1, a2, a3, -⟩ := c44_bounds d ratio n h hn hh (by omega) (by omega) hr
  have hnR : (0 : ℝ) < n := by exact_mod_cast (by omega : 0 < n)
  have er : (d.logical_error_rate : ℝ) = h / n := by
    rw [ShotData.logical_error_rate, if_neg (by omega), hh, hn]
    push_cast
    rfl
  have b1 : (low : ℝ) ≤ 100 * h := by exact_mod_cast a1
  have b2 : (100 * h : ℝ) ≤ high := by exact_mod_cast a2
  have b3 : (high : ℝ) ≤ 100 * n := by exact_mod_cast a3
  refine ⟨_, _, he, by positivity, ?_, ?_, ?_⟩
  · rw [er, div_le_div_iff₀ (by positivity) hnR]; nlinarith
  · rw [er, div_le_div_iff₀ hnR (by positivity)]; nlinarith
  · rw [div_le_one (by positivity)]; exact b3

/-- C44. No shots: ZeroDivisionError. -/
theorem c44_no_shots (d : ShotData) (ratio : ℝ) (h : d.num_shots = 0) :
    d.likelyErrorRateBounds ratio = .error .zeroDivision := by
  simp [ShotData.likelyErrorRateBounds, h]

example : ∃ low high : ℝ, (ShotData.mk 1000 990 5).likelyErrorRateBounds (1 / 1000) = .ok (low, high) ∧
    0 ≤ low ∧ low ≤ 1 / 100 ∧ 1 / 100 ≤ high ∧ high ≤ 1 := by
  obtain ⟨l, h, h1, h2, h3, h4, h5⟩ := c44_bracket (ShotData.mk 1000 990 5) (1 / 1000) (by norm_num) (by norm_num) (by norm_num)
    (by norm_num)
  norm_num [ShotData.logical_error_rate] at h3 h4
  exact ⟨l, h, h1, h2, by norm_num; exact h3, by norm_num; exact h4, h5⟩

/-! ## C45: error rates per piece -/

theorem flipParity_eq (q : ℝ) (k : Nat) : oddFlips q k = (1 - (1 - 2 * q) ^ k) / 2 := by
  induction k with
  | zero => simp [oddFlips]
  | succ k ih => rw [oddFlips, ih]; ring

/-- C45. For rates up to one half the result lies in `[0, 1/2]`, and `pieces` independent flips with that probability give the
total flip probability. -/
theorem c45_composes (e : ℝ) (pieces : Nat) (h0 : 0 ≤ e) (h1 : e ≤ 1 / 2) (hp : 1 ≤ pieces) :
    ∃ q, totalErrorToPerPieceError e pieces = .ok q ∧ 0 ≤ q ∧ q ≤ 1 / 2 ∧ oddFlips q pieces = e := by
  have hb : 0 ≤ 1 - 2 * e := by linarith
  have hb1 : 1 - 2 * e ≤ 1 := by linarith
  have hx : (0 : ℝ) ≤ 1 / (((pieces : Int) : ℝ)) := by positivity
  refine ⟨(1 - (1 - 2 * e) ^ ((1 : ℝ) / ((pieces : Int) : ℝ))) / 2, ?_, ?_, ?_, ?_⟩
  · rw [totalErrorToPerPieceError, if_neg (by linarith), perPieceLow, if_pos ⟨h0, h1⟩, if_neg (by omega),
      if_neg (by rintro ⟨-, h⟩; omega)]
  · have := Real.rpow_le_one hb hb1 hx
    linarith
  · have := Real.rpow_nonneg hb ((1 : ℝ) / ((pieces : Int) : ℝ))
    linarith
  · rw [flipParity_eq]
    have : 1 - 2 * ((1 - (1 - 2 * e) ^ ((1 : ℝ) / ((pieces : Int) : ℝ))) / 2) = (1 - 2 * e) ^ ((1 : ℝ) / ((pieces : Int) : ℝ)) := by ring
    rw [this, ← Real.rpow_natCast, ← Real.rpow_mul hb]
    have hp' : (pieces : ℝ) ≠ 0 := by exact_mod_cast (by omega : pieces ≠ 0)
    push_cast
    rw [one_div, inv_mul_cancel₀ hp', Real.rpow_one]
    ring

/-- C45. The result is strictly monotone in the total rate. -/
theorem c45_monotone (e e' : ℝ) (pieces : Nat) (h0 : 0 ≤ e) (hlt : e < e') (h1 : e' ≤ 1 / 2) (hp : 1 ≤ pieces) :
    ∃ q q', totalErrorToPerPieceError e pieces = .ok q ∧ totalErrorToPerPieceError e' pieces = .ok q' ∧ q < q' := by
  obtain ⟨q, hq, a1, a2, a3⟩ := c45_composes e pieces h0 (by linarith) hp
  obtain ⟨q', hq', b1, b2, b3⟩ := c45_composes e' pieces (by linarith) h1 hp
  refine ⟨q, q', hq, hq', ?_⟩
  by_contra hcon
  rw [flipParity_eq] at a3 b3
  have := pow_le_pow_left₀ (show 0 ≤ 1 - 2 * q by linarith) (show 1 - 2 * q ≤ 1 - 2 * q' by linarith) pieces
  linarith

/-- C45. Rates above one half are handled by reflection. -/
theorem c45_reflection (e : ℝ) (pieces : Nat) (h0 : 1 / 2 < e) (h1 : e ≤ 1) (hp : 1 ≤ pieces) :
    ∃ q, totalErrorToPerPieceError (1 - e) pieces = .ok q ∧ totalErrorToPerPieceError e pieces = .ok (1 - q) ∧
      1 / 2 ≤ 1 - q ∧ 1 - q ≤ 1 := by
  obtain ⟨q, hq, a1, a2, -⟩ := c45_composes (1 - e) pieces (by linarith) (by linarith) hp
  refine ⟨q, hq, ?_, by linarith, by linarith⟩
  rw [totalErrorToPerPieceError, if_neg (by linarith)] at hq
  rw [totalErrorToPerPieceError, if_pos h0, hq]

/-- C45. For rates above one half the result composes back for an odd number of pieces. For an even number of pieces the composed
probability is `1 - e` instead (no flip probability could compose to more than one half). -/
theorem c45_reflection_composes (e : ℝ) (pieces : Nat) (h0 : 1 / 2 < e) (h1 : e ≤ 1) (hp : 1 ≤ pieces) :
    ∃ q, totalErrorToPerPieceError e pieces = .ok q ∧
      oddFlips q pieces = if pieces % 2 = 1 then e else 1 - e := by
  obtain ⟨q, hq, a1, a2, a3⟩ := c45_composes (1 - e) pieces (by linarith) (by linarith) hp
  obtain ⟨q', hq', hq2, -⟩ := c45_reflection e pieces h0 h1 hp
  rw [hq] at hq'
  cases hq'
  refine ⟨1 - q, hq2, ?_⟩
  rw [flipParity_eq] at a3 ⊢
  have : 1 - 2 * (1 - q) = -(1 - 2 * q) := by ring
  rw [this]
  split_ifs with hpar
  · rw [Odd.neg_pow (Nat.odd_iff.2 hpar)]
    linarith
  · rw [Even.neg_pow (Nat.even_iff.2 (by omega))]
    linarith

/-- C45. Rates that are not probabilities are rejected, and so are 0 pieces. -/
theorem c45_rejects (e : ℝ) (pieces : Int) :
    ((e < 0 ∨ 1 < e) → totalErrorToPerPieceError e pieces = .error .assertion) ∧
    (0 ≤ e → e ≤ 1 → totalErrorToPerPieceError e 0 = .error .zeroDivision) := by
  constructor
  · rintro (h | h)
    · rw [totalErrorToPerPieceError, if_neg (by linarith), perPieceLow, if_neg (by rintro ⟨h1, -⟩; linarith)]
    · rw [totalErrorToPerPieceError, if_pos (by linarith), perPieceLow, if_neg (by rintro ⟨h1, -⟩; linarith)]
  · intro h0 h1
    rw [totalErrorToPerPieceError]
    by_cases h : e > 1 / 2
    · rw [if_pos h, perPieceLow, if_pos ⟨by linarith, by linarith⟩, if_pos rfl]
    · rw [if_neg h, perPieceLow, if_pos ⟨h0, by linarith⟩, if_pos rfl]

/-- A rate of 3/8 from two pieces: 1/4 each. -/
example : totalErrorToPerPieceError (3 / 8) 2 = .ok (1 / 4) := by
  obtain ⟨q, hq, h0, h1, h2⟩ := c45_composes (3 / 8) 2 (by norm_num) (by norm_num) (by norm_num)
  rw [flipParity_eq] at h2
  have : q = 1 / 4 := by nlinarith
  rw [← this]
  exact hq

end Honeycomb
