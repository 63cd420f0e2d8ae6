import Verif.Model.Probability
import Verif.Model.Problem

/-!
# Model of `ShotData` and `RemainingWork` (`src/collect_data.py`)

Times are exact rationals instead of floats.
-/

namespace Honeycomb

/-- collect_data.py:275-279 `ShotData`. -/
structure ShotData where
  num_shots : Int := 0
  num_correct : Int := 0
  total_processing_seconds : Rat := 0
deriving DecidableEq, Repr

namespace ShotData

/-- collect_data.py:281-283. -/
def num_errors (d : ShotData) : Int := d.num_shots - d.num_correct

/-- collect_data.py:310-314. -/
def logical_error_rate (d : ShotData) : Rat :=
  if d.num_shots = 0 then 1 else ((d.num_shots - d.num_correct : Int) : Rat) / (d.num_shots : Rat)

/-- collect_data.py:288-308 `likely_error_rate_bounds`. Division by zero shots and `math.log` of a non-positive number raise. -/
noncomputable def likelyErrorRateBounds (d : ShotData) (desired_ratio_vs_max_likelihood : ℝ) : Except PyErr (ℝ × ℝ) :=
  let actual_errors := d.num_shots - d.num_correct
  if d.num_shots = 0 then .error .zeroDivision
  else if desired_ratio_vs_max_likelihood ≤ 0 then .error .valueError
  else
    let log_max_likelihood := logBinomial ((actual_errors : ℝ) / (d.num_shots : ℝ)) d.num_shots actual_errors
    let target_log_likelihood := log_max_likelihood + ((Real.log desired_ratio_vs_max_likelihood : ℝ) : EReal)
    let acc : Int := 100
    let low := ((binarySearch
      (fun exp_err => logBinomial ((exp_err : ℝ) / ((acc * d.num_shots : Int) : ℝ)) d.num_shots actual_errors)
      target_log_likelihood 0 (actual_errors * acc) : Int) : ℝ) / (acc : ℝ)
    let high := ((binarySearch
      (fun exp_err => - logBinomial ((exp_err : ℝ) / ((acc * d.num_shots : Int) : ℝ)) d.num_shots actual_errors)
      (- target_log_likelihood) (actual_errors * acc) (d.num_shots * acc) : Int) : ℝ) / (acc : ℝ)
    .ok (low / (d.num_shots : ℝ), high / (d.num_shots : ℝ))

end ShotData

/-- collect_data.py:233-238 `RemainingWork`. -/
structure RemainingWork where
  shot_data : ShotData
  max_shots : Int
  max_errors : Int
  threshold_circuit_breaker : Rat

namespace RemainingWork

/-- collect_data.py:240-248. -/
def finished (w : RemainingWork) : Bool :=
  if w.shot_data.num_shots ≥ w.max_shots then true
  else if w.shot_data.num_errors ≥ w.max_errors then true
  else if w.shot_data.logical_error_rate ≥ w.threshold_circuit_breaker ∧ w.shot_data.num_shots ≥ 10 then true
  else false

/-- collect_data.py:250-254. -/
def remaining_shots (w : RemainingWork) : Int :=
  if w.finished then 0 else w.max_shots - w.shot_data.num_shots

/-- collect_data.py:256-260. -/
def remaining_errors (w : RemainingWork) : Int :=
  if w.finished then 0 else w.max_errors - w.shot_data.num_errors

/-- The list `times` without its first entry `inf` (collect_data.py:266-270). -/
def timeEstimates (w : RemainingWork) : List Rat :=
  (if w.shot_data.num_shots ≠ 0 then
    [(w.remaining_shots : Rat) * w.shot_data.total_processing_seconds / (w.shot_data.num_shots : Rat)] else []) ++
  (if w.shot_data.num_errors ≠ 0 then
    [(w.remaining_errors : Rat) * w.shot_data.total_processing_seconds / (w.shot_data.num_errors : Rat)] else [])

/-- collect_data.py:262-271; `none` is `float('inf')`. -/
def remaining_time (w : RemainingWork) : Option Rat :=
  if w.finished then some 0 else w.timeEstimates.min?

end RemainingWork

/-- collect_data.py:285-286 `remaining_work`. -/
def ShotData.remaining_work (d : ShotData) (max_shots max_errors : Int) (threshold_circuit_breaker : Rat) : RemainingWork :=
  { shot_data := d, max_shots := max_shots, max_errors := max_errors, threshold_circuit_breaker := threshold_circuit_breaker }

end Honeycomb
