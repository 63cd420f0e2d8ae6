import Mathlib.Analysis.SpecialFunctions.Log.Basic
import Mathlib.Analysis.SpecialFunctions.Pow.Real
import Mathlib.Analysis.Real.Pi.Bounds
import Mathlib.Data.EReal.Operations
import Verif.Model.Py

/-!
# Model of `src/probability_util.py` and of `total_error_to_per_piece_error` (`src/plotting.py`)

Floats are modelled by exact numbers: reals (`ℝ`) where only finite values occur, extended reals (`EReal`) where the code
works with `-inf`. Rounding is not modelled. The external optimisers `scipy.optimize.leastsq` and
`scipy.stats.linregress` are parameters.
-/

namespace Honeycomb

open Classical

/-- probability_util.py:54-61 `log_factorial`. -/
noncomputable def logFactorial (n : Int) : ℝ :=
  if n < 20 then ((List.range n.toNat).map fun k => Real.log ((k + 1 : Nat) : ℝ)).sum
  else ((n : ℝ) + 1 / 2) * Real.log n - n + Real.log (2 * Real.pi) / 2

/-- probability_util.py:10-51 `log_binomial`, for one hypothesis probability (the array version does the same for every
entry separately, see `logBinomialArray`). The result array has dtype float32; the model is exact. -/
noncomputable def logBinomial (p : ℝ) (n hits : Int) : EReal :=
  let p_clipped := min (max p 0) 1
  let misses := n - hits
  let r0 : EReal := if hits ≠ 0 ∧ p_clipped = 0 then ⊥ else 0
  let r1 : EReal := if misses ≠ 0 ∧ p_clipped = 1 then ⊥ else r0
  let r2 : EReal := if p_clipped ≠ 0 then r1 + ((Real.log p_clipped * hits : ℝ) : EReal) else r1
  let r3 : EReal := if p_clipped ≠ 1 then r2 + ((Real.log (1 - p_clipped) * misses : ℝ) : EReal) else r2
  r3 + ((logFactorial n - logFactorial misses - logFactorial hits : ℝ) : EReal)

/-- probability_util.py:10-51 `log_binomial` broadcast over an array of hypothesis probabilities. -/
noncomputable def logBinomialArray (ps : List ℝ) (n hits : Int) : List EReal := ps.map fun p => logBinomial p n hits

/-- `0 if v == target else v - target`, then `abs` (probability_util.py:77-79). -/
noncomputable def searchDelta (v target : EReal) : ENNReal :=
  (if v = target then 0 else v - target).abs

/-- probability_util.py:64-79 `binary_search`. -/
noncomputable def binarySearch (func : Int → EReal) (target : EReal) (min_x max_x : Int) : Int :=
  if _h : max_x > min_x + 1 then
    let med_x := (min_x + max_x) / 2
    let out := func med_x
    if out < target then binarySearch func target med_x max_x
    else if out > target then binarySearch func target min_x med_x
    else med_x
  else
    let fmax := func max_x
    let fmin := func min_x
    if searchDelta fmax target < searchDelta fmin target then max_x else min_x
termination_by (max_x - min_x).toNat
decreasing_by all_goals omega

/-- probability_util.py:87-90: the loop doubling the step. `isinf` tells which steps count as infinite (float overflow);
`none` means that the fuel did not suffice. -/
noncomputable def interceptExpand (func : ℝ → ℝ) (isinf : ℝ → Prop) (start_x start_y target_y : ℝ) :
    Nat → ℝ → Option (Except PyErr ℝ)
  | 0, _ => none
  | fuel + 1, step =>
      if (func (start_x + step) ≥ target_y) = (start_y ≥ target_y) then
        let step := step * 2
        if isinf step ∨ step = 0 then some (.error .valueError)
        else interceptExpand func isinf start_x start_y target_y fuel step
      else some (.ok step)

/-- probability_util.py:96-105: the bisection loop. -/
noncomputable def interceptBisect (func : ℝ → ℝ) (target_y atol : ℝ) (increasing : Prop) :
    Nat → ℝ → ℝ → Option (Except PyErr ℝ)
  | 0, _, _ => none
  | fuel + 1, min_x, max_x =>
      let med_x := (min_x + max_x) / 2
      let med_y := func med_x
      if |med_y - target_y| ≤ atol then some (.ok med_x)
      else if med_x = min_x ∨ med_x = max_x then some (.error .assertion)
      else if (med_y < target_y) = increasing then interceptBisect func target_y atol increasing fuel med_x max_x
      else interceptBisect func target_y atol increasing fuel min_x med_x

/-- probability_util.py:82-105 `binary_intercept`. `none` means that the loops take more than `fuel` iterations. -/
noncomputable def binaryIntercept (func : ℝ → ℝ) (isinf : ℝ → Prop) (start_x step target_y atol : ℝ) (fuel : Nat) :
    Option (Except PyErr ℝ) :=
  let start_y := func start_x
  if |start_y - target_y| ≤ atol then some (.ok start_x)
  else
    match interceptExpand func isinf start_x start_y target_y fuel step with
    | none => none
    | some (.error e) => some (.error e)
    | some (.ok step) =>
        let min_x := min start_x (start_x + step)
        let max_x := max start_x (start_x + step)
        interceptBisect func target_y atol (func min_x < func max_x) fuel min_x max_x

/-! ## Least squares -/

/-- The fields of `LinregressResult` that are used. -/
structure LineFit where
  slope : ℝ
  intercept : ℝ

/-- `np.sum((intercept + slope*xs - ys)**2)` (probability_util.py:111). -/
noncomputable def sumSquares (xs ys : List ℝ) (intercept slope : ℝ) : ℝ :=
  (List.zipWith (fun x y => (intercept + slope * x - y) ^ 2) xs ys).sum

/-- probability_util.py:108-111 `least_squares_cost`. -/
noncomputable def leastSquaresCost (xs ys : List ℝ) (intercept slope : ℝ) : Except PyErr ℝ :=
  if xs.length = ys.length then .ok (sumSquares xs ys intercept slope) else .error .assertion

/-- probability_util.py:114-123 `least_squares_through_point`. `leastsq` is `scipy.optimize.leastsq` applied to a scalar
function of one parameter. (The assertion of `least_squares_cost` fires at the first call of `err`.) -/
noncomputable def leastSquaresThroughPoint (leastsq : (ℝ → ℝ) → ℝ) (xs ys : List ℝ) (required_x required_y : ℝ) :
    Except PyErr LineFit :=
  if xs.length = ys.length then
    let xs2 := xs.map (· - required_x)
    let ys2 := ys.map (· - required_y)
    let best_slope := leastsq fun slope => sumSquares xs2 ys2 0 slope
    let intercept := required_y - required_x * best_slope
    .ok ⟨best_slope, intercept⟩
  else .error .assertion

/-- probability_util.py:126-131 `least_squares_with_slope`. -/
noncomputable def leastSquaresWithSlope (leastsq : (ℝ → ℝ) → ℝ) (xs ys : List ℝ) (required_slope : ℝ) :
    Except PyErr LineFit :=
  if xs.length = ys.length then
    let best_intercept := leastsq fun intercept => sumSquares xs ys intercept required_slope
    .ok ⟨required_slope, best_intercept⟩
  else .error .assertion

/-- probability_util.py:145-147 `cost_for_y` (for arrays of the same length). -/
noncomputable def costForY (leastsq : (ℝ → ℝ) → ℝ) (xs ys : List ℝ) (target_x y2 : ℝ) : ℝ :=
  match leastSquaresThroughPoint leastsq xs ys target_x y2 with
  | .ok fit2 => sumSquares xs ys fit2.intercept fit2.slope
  | .error _ => 0

/-- probability_util.py:163-165 `cost_for_slope` (for arrays of the same length). -/
noncomputable def costForSlope (leastsq : (ℝ → ℝ) → ℝ) (xs ys : List ℝ) (slope : ℝ) : ℝ :=
  match leastSquaresWithSlope leastsq xs ys slope with
  | .ok fit2 => sumSquares xs ys fit2.intercept fit2.slope
  | .error _ => 0

/-- probability_util.py:134-151 `least_squares_output_range`. `linregress` is `scipy.stats.linregress` (which raises ValueError
for arrays of different lengths); the tolerance is `1e-5`. -/
noncomputable def leastSquaresOutputRange (leastsq : (ℝ → ℝ) → ℝ) (linregress : List ℝ → List ℝ → LineFit)
    (isinf : ℝ → Prop) (xs ys : List ℝ) (target_x cost_increase : ℝ) (fuel : Nat) : Option (Except PyErr (ℝ × ℝ)) :=
  if xs.length ≠ ys.length then some (.error .valueError) else
  let fit := linregress xs ys
  let base_cost := sumSquares xs ys fit.intercept fit.slope
  let base_y := fit.intercept + target_x * fit.slope
  match binaryIntercept (costForY leastsq xs ys target_x) isinf base_y (-1) (base_cost + cost_increase) (1 / 100000) fuel with
  | none => none
  | some (.error e) => some (.error e)
  | some (.ok low_y) =>
    match binaryIntercept (costForY leastsq xs ys target_x) isinf base_y 1 (base_cost + cost_increase) (1 / 100000) fuel with
    | none => none
    | some (.error e) => some (.error e)
    | some (.ok high_y) => some (.ok (low_y, high_y))

/-- probability_util.py:154-169 `least_squares_slope_range`. -/
noncomputable def leastSquaresSlopeRange (leastsq : (ℝ → ℝ) → ℝ) (linregress : List ℝ → List ℝ → LineFit)
    (isinf : ℝ → Prop) (xs ys : List ℝ) (cost_increase : ℝ) (fuel : Nat) : Option (Except PyErr (ℝ × ℝ × ℝ)) :=
  if xs.length ≠ ys.length then some (.error .valueError) else
  let fit := linregress xs ys
  let base_cost := sumSquares xs ys fit.intercept fit.slope
  match binaryIntercept (costForSlope leastsq xs ys) isinf fit.slope (-1) (base_cost + cost_increase) (1 / 100000) fuel with
  | none => none
  | some (.error e) => some (.error e)
  | some (.ok low_slope) =>
    match binaryIntercept (costForSlope leastsq xs ys) isinf fit.slope 1 (base_cost + cost_increase) (1 / 100000) fuel with
    | none => none
    | some (.error e) => some (.error e)
    | some (.ok high_slope) => some (.ok (low_slope, fit.slope, high_slope))

/-! ## `src/plotting.py` -/

/-- plotting.py:15-19, the part of `total_error_to_per_piece_error` for rates up to one half. `(1-r)**(1/pieces)` is the real
power; `1/0` and `0.0` to a negative power raise. -/
noncomputable def perPieceLow (error_rate : ℝ) (pieces : Int) : Except PyErr ℝ :=
  if 0 ≤ error_rate ∧ error_rate ≤ 1 / 2 then
    if pieces = 0 then .error .zeroDivision
    else if error_rate = 1 / 2 ∧ pieces < 0 then .error .zeroDivision
    else
      let randomize_rate := 2 * error_rate
      let round_randomize_rate := 1 - (1 - randomize_rate) ^ ((1 : ℝ) / (pieces : ℝ))
      .ok (round_randomize_rate / 2)
  else .error .assertion

/-- plotting.py:11-19 `total_error_to_per_piece_error`. (The recursive call has a rate below one half, so there is at most one.) -/
noncomputable def totalErrorToPerPieceError (error_rate : ℝ) (pieces : Int) : Except PyErr ℝ :=
  if error_rate > 1 / 2 then
    match perPieceLow (1 - error_rate) pieces with
    | .ok r => .ok (1 - r)
    | .error e => .error e
  else perPieceLow error_rate pieces

end Honeycomb
