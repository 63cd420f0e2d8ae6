import Verif.Model.Script
import Verif.Model.Figures
import Verif.Model.LambdaFigures
import Verif.Model.Decoding
import Verif.Model.Noise

/-!
# Model of the `main` functions of the figure scripts, of `src/main_example.py` and of `paper/write_honeycomb_networkx_graph.py`

Saving and showing the figures is not modelled. A figure is the list of its panels (`Model/Figures.lean`, `Model/LambdaFigures.lean`).
-/

namespace Honeycomb

/-- main_render_threshold_figure.py:16-27, main_render_detection_fraction_figure.py:13-24, main_render_lambda_figure.py:25-36: the data that the
figures show, for the command line arguments after the name of the script. -/
def readArguments (F : FloatText) (fs : Files) (args : List String) : Except PyErr ProblemShotData :=
  if args = [] then .error .valueError else readPaths F fs.read (csvPaths fs.isDir fs.glob args)

/-- main_render_threshold_figure.py:15-39 `main`: `threshold.pdf` and `threshold_all.pdf`. -/
noncomputable def thresholdMain (F : FloatText) (fs : Files) (args : List String) : Except PyErr (List Panel × List Panel) := do
  let all_data ← readArguments F fs args
  let fig ← plotThresholds all_data true
  let fig2 ← plotThresholds all_data false
  return (fig, fig2)

/-- main_render_detection_fraction_figure.py:12-32 `main`. -/
def detectionFractionMain (F : FloatText) (fs : Files) (args : List String) : Except PyErr (List (List FractionCurve)) := do
  let all_data ← readArguments F fs args
  plotDetectionFraction all_data

/-- The four figures of main_render_lambda_figure.py. -/
structure LambdaFigures where
  linefits_all : List LineFitPanel
  linefits : List LineFitPanel
  lambda : List ComboColumn
  teraquop : List ComboColumn

/-- main_render_lambda_figure.py:24-58 `main`. -/
noncomputable def lambdaMain (leastsq : (ℝ → ℝ) → ℝ) (linregress : List ℝ → List ℝ → LineFit) (isinf : ℝ → Prop) (fuel : Nat)
    (F : FloatText) (fs : Files) (args : List String) : Search LambdaFigures := do
  let all_data ← (readArguments F fs args : Except PyErr _)
  let fig0 ← (plotLineFits linregress all_data false : Except PyErr _)
  let fig1 ← (plotLineFits linregress all_data true : Except PyErr _)
  let fig2 ← plotLambda leastsq linregress isinf fuel all_data
  let fig3 ← plotTeraquop leastsq linregress isinf fuel all_data
  return ⟨fig0, fig1, fig2, fig3⟩

/-- main_example.py:8-19: the problems of the example. -/
def exampleLayouts : List HoneycombLayout :=
  ([1, 2] : List Int).flatMap fun d => ([1 / 1000, 2 / 1000, 3 / 1000] : List Rat).map fun p =>
    { data_width := d * 4, data_height := d * 6, sub_rounds := 30, style := "EM3_v2", obs := "H", noise := p }

/-- main_example.py:20-25. -/
def exampleArgs : CollectArgs :=
  { min_shots := 10 ^ 3, max_shots := 10 ^ 6, min_seen_logical_errors := 10 ^ 2, has_out := true, discard_previous_data := true }

/-- main_example.py:6-30 `main`, with an oracle for sampling and decoding, started with the given `test.csv`: the file afterwards and the
curves of the plot. `none`: out of fuel. -/
noncomputable def exampleMain (F : FloatText) (sample : DecodingProblemDesc → Nat → Int → Except PyErr (Int × Rat)) (fuel : Nat)
    (file : Option Text) : Option (Except PyErr (Option Text × List Curve)) :=
  match collect F exampleArgs fuel (exampleLayouts.map fun lay =>
      let d := lay.asDecoderProblemDesc "pymatching"
      ⟨d, sample d⟩) file with
  | none => none
  | some (_, some e) => some (.error e)
  | some (effs, none) =>
    let file' := fileAfter file effs
    some (do
      let data ← match file' with
        | some text => readRecordedData F [text]
        | none => .error .valueError
      let curves ← plotData data 0
      return (file', curves))

/-- paper/write_honeycomb_networkx_graph.py:15-25 `main`, up to the file: the graph that is pickled. `errorModel c` is
`c.detector_error_model(decompose_errors=True)`. -/
noncomputable def writeNetworkxGraph (errorModel : Circuit → Dem) : Except PyErr NxGraph := do
  let lay ← HoneycombLayout.make 4 6 36 "SD6" "H" (1 / 1000)
  let c ← lay.makeCircuit
  demToNxGraph (errorModel c)

end Honeycomb
