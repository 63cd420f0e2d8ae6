import Mathlib.Data.Prod.Lex
import Mathlib.Data.String.Basic
import Verif.Model.Collect
import Verif.Model.Lambda

/-!
# Model of `plot_data` (`src/plotting.py`) and of the figures' panels (`src/paper/main_render_*.py`)

Only the data that is handed to matplotlib is modelled: the curves with their points, error bands, labels, markers and colours, and
which data goes into which panel. Axes, ticks, legends, titles and files are not.
-/

namespace Honeycomb

/-- The sort key of a `DecodingProblemDesc`: `@dataclass(order=True)` compares the tuples of fields (collect_data.py:32). -/
def descKey (d : DecodingProblemDesc) : Int ×ₗ Int ×ₗ Int ×ₗ Int ×ₗ Int ×ₗ Rat ×ₗ String ×ₗ String ×ₗ String :=
  toLex (d.data_width, toLex (d.data_height, toLex (d.code_distance, toLex (d.num_qubits, toLex (d.rounds, toLex (d.noise,
    toLex (d.circuit_style, toLex (d.preserved_observable, d.decoder))))))))

/-- `a <= b` of two descriptions (collect_data.py:32). -/
def descLe (a b : DecodingProblemDesc) : Bool := decide (descKey a ≤ descKey b)

/-- `sorted(keys)` of numbers. -/
def sortedRat (l : List Rat) : List Rat := l.mergeSort fun a b => decide (a ≤ b)

/-- What plotting.py:67-69 draws for one group: `ax.plot(xs, ys, label, marker, zorder, color)` and
`ax.fill_between(x_bounds, ys_low, ys_high, color)`. `color` is the position in `mcolors.TABLEAU_COLORS`. -/
structure Curve where
  line : List (Rat × ℝ)
  band : List (Rat × ℝ × ℝ)
  label : String
  marker : Char
  color : Nat
  zorder : Int

/-- plotting.py:40 `markers` before the repetition. -/
def plotMarkers : List Char := "ov*sp^<>8PhH+xXDd|".toList

/-- plotting.py:41: `mcolors.TABLEAU_COLORS` has ten entries. -/
def numTableauColors : Nat := 10

/-- plotting.py:40: `("ov*sp^<>8PhH+xXDd|" * 100)[i]`. -/
def markerAt (i : Nat) : Except PyErr Char :=
  if i < plotMarkers.length * 100 then .ok (plotMarkers[i % plotMarkers.length]?.getD ' ') else .error .indexError

/-- plotting.py:41: `(list(mcolors.TABLEAU_COLORS) * 3)[i]`. -/
def colorAt (i : Nat) : Except PyErr Nat :=
  if i < numTableauColors * 3 then .ok (i % numTableauColors) else .error .indexError

/-- plotting.py:45 `cells = int(math.ceil(key.rounds / key.code_distance))`. -/
def plotCells (key : DecodingProblemDesc) : Except PyErr Int :=
  if key.code_distance = 0 then .error .zeroDivision else .ok ⌈(key.rounds : Rat) / (key.code_distance : Rat)⌉

/-- plotting.py:55-66: the loop over the noise values of one group. -/
noncomputable def plotLoop (cells : Int) (v2 : PyDict Rat ShotData) :
    List Rat → Except PyErr (List (Rat × ℝ) × List (Rat × ℝ × ℝ))
  | [] => .ok ([], [])
  | noise :: rest => do
    let shot_data ← match v2.get? noise with
      | some v => .ok v
      | none => .error .keyError
    let point ← if shot_data.num_correct < shot_data.num_shots then do
        let y ← totalErrorToPerPieceError (shot_data.logical_error_rate : ℝ) cells
        pure [(noise, y)]
      else pure []
    let (low, high) ← shot_data.likelyErrorRateBounds (1 / 1000)
    let ylow ← totalErrorToPerPieceError low cells
    let yhigh ← totalErrorToPerPieceError high cells
    let (line, band) ← plotLoop cells v2 rest
    pure (point ++ line, (noise, ylow, yhigh) :: band)

/-- plotting.py:45-69: one group. `order + marker_offset` is the index of the marker and of the colour (offsets are not negative). -/
noncomputable def plotGroup (marker_offset order : Nat) (key : DecodingProblemDesc) (vals : ProblemShotData) : Except PyErr Curve := do
  let cells ← plotCells key
  let v2 : PyDict Rat ShotData := PyDict.ofItems (vals.map fun e => (e.1.noise, e.2))
  let (line, band) ← plotLoop cells v2 (sortedRat v2.keys)
  let label := toString key.rounds ++ " rounds, " ++ toString key.data_width ++ "x" ++ toString key.data_height ++ " data"
  let marker ← markerAt (order + marker_offset)
  let color ← colorAt (order + marker_offset)
  pure { line := line, band := band, label := label, marker := marker, color := color, zorder := 100 - order }

/-- The loop of plotting.py:42-70 over the groups. -/
noncomputable def plotGroups (marker_offset : Nat) : Nat → PyDict DecodingProblemDesc ProblemShotData → Except PyErr (List Curve)
  | _, [] => .ok []
  | order, (key, vals) :: rest => do
    let c ← plotGroup marker_offset order key vals
    let cs ← plotGroups marker_offset (order + 1) rest
    pure (c :: cs)

/-- `e.with_changes(noise=0)` (plotting.py:44). -/
def atZeroNoise (d : DecodingProblemDesc) : DecodingProblemDesc := d.withChanges { noise := some 0 }

/-- plotting.py:22-70 `plot_data`: the curves, in the order in which they are drawn. -/
noncomputable def plotData (data : ProblemShotData) (marker_offset : Nat) : Except PyErr (List Curve) :=
  plotGroups marker_offset 0 (groupedBy descLe atZeroNoise data)

end Honeycomb
