import Mathlib.Data.Nat.Choose.Basic
import Mathlib.Data.EReal.Operations
import Mathlib.Analysis.SpecialFunctions.Log.Basic

/-!
# Specification: distances, binomial probabilities, independent flips, minimisers
-/

namespace Honeycomb

open Classical

/-- The distance of two extended reals: `|a - b|`, where equal infinities have distance 0. -/
noncomputable def gap (a b : EReal) : ENNReal := if a = b then 0 else (a - b).abs

/-- `x` clamped to `[0, 1]`. -/
noncomputable def clamp01 (x : ℝ) : ℝ := if x < 0 then 0 else if 1 < x then 1 else x

/-- The probability of exactly `h` hits among `n` independent samples that each hit with probability `p`. -/
noncomputable def binomialProb (n h : Nat) (p : ℝ) : ℝ := (n.choose h : ℝ) * p ^ h * (1 - p) ^ (n - h)

/-- The natural logarithm of a probability, with `ln 0 = -∞`. -/
noncomputable def lnProb (x : ℝ) : EReal := if x = 0 then ⊥ else ((Real.log x : ℝ) : EReal)

/-- The probability that an odd number of `k` independent flips of probability `q` happen: either the last one happens and an even
number of the others, or not and an odd number. -/
noncomputable def oddFlips (q : ℝ) : Nat → ℝ
  | 0 => 0
  | k + 1 => q * (1 - oddFlips q k) + (1 - q) * oddFlips q k

/-- What is assumed of `scipy.optimize.leastsq`: it finds a parameter minimising the square of the given function, if there is
such a parameter. -/
def LeastsqMinimises (leastsq : (ℝ → ℝ) → ℝ) : Prop :=
  ∀ f : ℝ → ℝ, (∃ m, ∀ s, f m ^ 2 ≤ f s ^ 2) → ∀ s, f (leastsq f) ^ 2 ≤ f s ^ 2

/-- The sum of the squared vertical distances of the points from the line. -/
noncomputable def squaredResiduals (pts : List (ℝ × ℝ)) (slope intercept : ℝ) : ℝ :=
  (pts.map fun q => (slope * q.1 + intercept - q.2) ^ 2).sum

/-- `v` is the smallest sum of squared residuals of a line taking the value `y` at `x`. -/
def IsBestCostAt (pts : List (ℝ × ℝ)) (x y v : ℝ) : Prop :=
  (∃ slope intercept, slope * x + intercept = y ∧ v = squaredResiduals pts slope intercept) ∧
    ∀ slope intercept, slope * x + intercept = y → v ≤ squaredResiduals pts slope intercept

/-- `v` is the smallest sum of squared residuals of a line with the given slope. -/
def IsBestCostForSlope (pts : List (ℝ × ℝ)) (slope v : ℝ) : Prop :=
  (∃ intercept, v = squaredResiduals pts slope intercept) ∧ ∀ intercept, v ≤ squaredResiduals pts slope intercept

end Honeycomb
