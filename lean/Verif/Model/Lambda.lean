import Verif.Model.Collect
import Verif.Model.Probability

/-!
# Model of `LambdaGroup` (`src/paper/main_render_lambda_figure.py`) and of the problem lists of `src/paper/main_collect_all.py`

Floats are exact numbers. The figures themselves are not modelled. The warnings that `combo_data` prints are not modelled.
-/

namespace Honeycomb

/-- `a in b` for two texts. -/
def pyIn (a b : String) : Bool := decide (a.toList <:+: b.toList)

/-- main_render_lambda_figure.py:349-354 `LambdaGroup`. -/
structure LambdaGroup where
  noise : Rat
  rep : DecodingProblemDesc
  distance_error_pairs_h : PyDict Int ShotData
  distance_error_pairs_v : PyDict Int ShotData
deriving DecidableEq, Repr

/-- main_render_lambda_figure.py:386-392, one iteration of `groups_from_data`: find or create the group, then store the value in one
of its tables. -/
def addToGroups (groups : PyDict Rat LambdaGroup) (key : DecodingProblemDesc) (val : ShotData) :
    Except PyErr (PyDict Rat LambdaGroup) :=
  let g := (groups.get? key.noise).getD ⟨key.noise, key, [], []⟩
  let horizontal := pyIn key.preserved_observable "HX"
  let d := if horizontal then g.distance_error_pairs_h else g.distance_error_pairs_v
  if key.code_distance ∈ d.keys then .error .assertion
  else
    let d := d.set key.code_distance val
    let g := if horizontal then { g with distance_error_pairs_h := d } else { g with distance_error_pairs_v := d }
    .ok (groups.set key.noise g)

/-- main_render_lambda_figure.py:383-393 `LambdaGroup.groups_from_data`. -/
def groupsFromData (data : ProblemShotData) : Except PyErr (PyDict Rat LambdaGroup) :=
  data.foldlM (fun groups kv => addToGroups groups kv.1 kv.2) []

namespace LambdaGroup

/-- main_render_lambda_figure.py:358 (the sorted distances of both tables). -/
def distances (g : LambdaGroup) : List Int :=
  (pySet (g.distance_error_pairs_h.keys ++ g.distance_error_pairs_v.keys)).mergeSort fun a b => decide (a ≤ b)

/-- main_render_lambda_figure.py:362-380, the body of the loop of `combo_data` for one distance: the value added to `ys`, if any. -/
noncomputable def comboPoint (g : LambdaGroup) (d : Int) : Except PyErr (Option ℝ) :=
  let p1 := (g.distance_error_pairs_h.get? d).map ShotData.logical_error_rate
  let p2 := (g.distance_error_pairs_v.get? d).map ShotData.logical_error_rate
  let p2 := match p2 with
    | none => p1
    | some p => some p
  let p1 := match p1 with
    | none => p2
    | some p => some p
  match p1, p2 with
  | some p1, some p2 =>
      if p1 ≠ 0 ∧ p2 ≠ 0 then
        if g.rep.code_distance = 0 then .error .zeroDivision
        else do
          let cells : Int := ⌈(g.rep.rounds : Rat) / (g.rep.code_distance : Rat)⌉
          let p1 ← totalErrorToPerPieceError (p1 : ℝ) cells
          let p2 ← totalErrorToPerPieceError (p2 : ℝ) cells
          return some (1 - (1 - p1) * (1 - p2))
      else .ok none
  | _, _ => .ok none

/-- main_render_lambda_figure.py:359-381, the loop of `combo_data`. -/
noncomputable def comboLoop (g : LambdaGroup) : List Int → Except PyErr (List Int × List ℝ)
  | [] => .ok ([], [])
  | d :: ds => do
      match ← g.comboPoint d with
      | some y => do
          let (xs, ys) ← comboLoop g ds
          return (d :: xs, y :: ys)
      | none => comboLoop g ds

/-- main_render_lambda_figure.py:356-381 `combo_data`. -/
noncomputable def comboData (g : LambdaGroup) : Except PyErr (List Int × List ℝ) := g.comboLoop g.distances

/-- `math.log(y)`: raises ValueError unless `y` is positive. -/
noncomputable def pyLog (y : ℝ) : Except PyErr ℝ := if 0 < y then .ok (Real.log y) else .error .valueError

/-- main_render_lambda_figure.py:404-409 `linear_fit_d_to_log_err`. `linregress` is `scipy.stats.linregress`. -/
noncomputable def linearFit (linregress : List ℝ → List ℝ → LineFit) (g : LambdaGroup) : Except PyErr LineFit := do
  let (xs, ys) ← g.comboData
  if xs.length ≤ 1 then return linregress [0, 1] [0, 0]
  let logs ← ys.mapM pyLog
  return linregress (xs.map fun x : Int => (x : ℝ)) logs

/-- main_render_lambda_figure.py:395-398 `appears_to_be_suppressing_errors`. -/
noncomputable def appearsToBeSuppressing (linregress : List ℝ → List ℝ → LineFit) (g : LambdaGroup) : Except PyErr Prop := do
  let r ← g.linearFit linregress
  return (r.slope < -2 / 100 ∧ r.intercept < -1 / 10) ∨ r.slope < -1

/-- main_render_lambda_figure.py:400-402 `has_low_confidence_extrapolation`. -/
def hasLowConfidence (g : LambdaGroup) : Bool :=
  decide (min g.distance_error_pairs_v.length g.distance_error_pairs_h.length < 3)

/-- main_render_lambda_figure.py:432-434 `projected_error`. -/
noncomputable def projectedError (linregress : List ℝ → List ℝ → LineFit) (g : LambdaGroup) (distance : ℝ) : Except PyErr ℝ := do
  let r ← g.linearFit linregress
  return Real.exp (r.slope * distance + r.intercept)

/-- main_render_lambda_figure.py:436-438 `projected_distance`; `none` for a slope of 0 (numpy then yields an infinity or nan). -/
noncomputable def projectedDistance (linregress : List ℝ → List ℝ → LineFit) (g : LambdaGroup) (target_error : ℝ) :
    Except PyErr (Option ℝ) := do
  let r ← g.linearFit linregress
  let l ← pyLog target_error
  if r.slope = 0 then return none else return some ((l - r.intercept) / r.slope)

/-- main_render_lambda_figure.py:440-452 `_d_to_q`, with exact fractions. -/
def dToQ (g : LambdaGroup) (d : Int) (style : String) : Except PyErr Rat := do
  let cd := g.rep.code_distance
  let q ←
    if pyIn "surface" style then
      if cd = 0 then throw .zeroDivision
      else pure ((((g.rep.num_qubits : Rat) + 1) * ((d : Rat) / (cd : Rat)) ^ 2) - 1)
    else if pyIn "honeycomb" style then
      if cd = 0 then throw .zeroDivision
      else pure ((g.rep.num_qubits : Rat) * (((⌈(d : Rat) / 4⌉ * 4 : Int) : Rat) / (cd : Rat)) ^ 2)
    else throw .notImplemented
  if |q - ⌊q + 1 / 2⌋| < 1 / 100000 then return q else throw .assertion

/-- main_render_lambda_figure.py:454-456 `projected_required_qubit_count`. (`math.ceil` of an infinity raises
OverflowError, of nan ValueError; the model has only the latter.) -/
noncomputable def projectedQubits (linregress : List ℝ → List ℝ → LineFit) (g : LambdaGroup) (target_error : ℝ) (style : String) :
    Except PyErr Rat := do
  match ← g.projectedDistance linregress target_error with
  | none => throw .valueError
  | some d => g.dToQ ⌈d⌉ style

/-- main_render_lambda_figure.py:415-416 `slope_to_lambda`. -/
noncomputable def slopeToLambda (s : ℝ) : ℝ := 1 / Real.exp s ^ 2

/-- main_render_lambda_figure.py:411-421 `projected_lambda_range`; `none` as in `leastSquaresSlopeRange`. -/
noncomputable def projectedLambdaRange (leastsq : (ℝ → ℝ) → ℝ) (linregress : List ℝ → List ℝ → LineFit) (isinf : ℝ → Prop)
    (fuel : Nat) (g : LambdaGroup) : Option (Except PyErr (ℝ × ℝ × ℝ)) :=
  match g.comboData with
  | .error e => some (.error e)
  | .ok (xs, ys) =>
    match ys.mapM pyLog with
    | .error e => some (.error e)
    | .ok logs =>
      (if xs.length ≤ 1 then some (.ok (0, 0, 0))
        else leastSquaresSlopeRange leastsq linregress isinf (xs.map fun x : Int => (x : ℝ)) logs 1 fuel).map fun r =>
          r.map fun s => (slopeToLambda s.1, slopeToLambda s.2.1, slopeToLambda s.2.2)

/-- main_render_lambda_figure.py:423-430 `projected_qubit_count_range`; `none` as in `leastSquaresOutputRange`. -/
noncomputable def projectedQubitRange (leastsq : (ℝ → ℝ) → ℝ) (linregress : List ℝ → List ℝ → LineFit) (isinf : ℝ → Prop)
    (fuel : Nat) (g : LambdaGroup) (target_probability : ℝ) (style : String) : Option (Except PyErr (Rat × Rat)) :=
  match g.comboData with
  | .error e => some (.error e)
  | .ok (xs, ys) =>
    match ys.mapM pyLog with
    | .error e => some (.error e)
    | .ok logs =>
      if xs.length ≤ 1 then some ((g.projectedQubits linregress target_probability style).map fun q => (q, q))
      else match pyLog target_probability with
        | .error e => some (.error e)
        | .ok target_x =>
          (leastSquaresOutputRange leastsq linregress isinf logs (xs.map fun x : Int => (x : ℝ)) target_x 1 fuel).map fun r => do
            let (d1, d2) ← r
            let q1 ← g.dToQ ⌈d1⌉ style
            let q2 ← g.dToQ ⌈d2⌉ style
            return (q1, q2)

end LambdaGroup

/-! ## `main_collect_all.py` -/

/-- main_collect_all.py:141-157 `USED_NOISE_VALUES`. -/
def USED_NOISE_VALUES : List Rat :=
  [1, 2, 3, 5, 7, 10, 15, 20, 30, 50, 70, 100, 150, 200, 300].map fun n : Rat => n / 10000

/-- main_collect_all.py:158-161 `DECODERS`. -/
def DECODERS : List String := ["internal", "internal_correlated"]

/-- main_collect_all.py:107-117, the description of `surface_code_problem`. -/
def surfaceCodeDesc (noise_name : String) (noise : Rat) (obs : String) (d : Int) (decoder : String) : DecodingProblemDesc where
  data_width := d
  data_height := d
  code_distance := d
  num_qubits := 2 * d * d - 1
  rounds := 3 * d
  noise := noise
  circuit_style := "surface_" ++ noise_name
  preserved_observable := obs
  decoder := decoder

/-- main_collect_all.py:121-139, the descriptions of `surface_code_problems`, for a directory that is given. -/
def surfaceCodeDescs : List DecodingProblemDesc :=
  DECODERS.flatMap fun decoder => ([3, 7, 11, 15, 19] : List Int).flatMap fun d => USED_NOISE_VALUES.flatMap fun p =>
    ["SD6", "SI1000"].flatMap fun noise_name => ["X", "Z"].map fun obs => surfaceCodeDesc noise_name p obs d decoder

/-- main_collect_all.py:163-190, the layouts of `honeycomb_problems`. -/
def collectLayouts : List HoneycombLayout :=
  USED_NOISE_VALUES.flatMap fun p => ([1, 2, 3, 4, 5] : List Int).flatMap fun u => ["SI1000", "SD6", "EM3_v2"].flatMap fun style =>
    ["V", "H"].map fun obs =>
      { data_width := u * 4, data_height := u * 6, sub_rounds := u * 3 * 4 * 3, style := style, obs := obs, noise := p }

/-- main_collect_all.py:191-195, the descriptions of `honeycomb_problems`. -/
def honeycombDescs : List DecodingProblemDesc :=
  DECODERS.flatMap fun decoder => collectLayouts.map fun lay => lay.asDecoderProblemDesc decoder

/-- main_collect_all.py:52, the descriptions of all problems of `collect_data`. -/
def allDescs : List DecodingProblemDesc := honeycombDescs ++ surfaceCodeDescs

end Honeycomb
