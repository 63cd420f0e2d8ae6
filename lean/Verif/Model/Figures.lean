import Verif.Model.Plot

/-!
# Model of the panels of `src/paper/main_render_threshold_figure.py` and `src/paper/main_render_detection_fraction_figure.py`

As in `Verif/Model/Plot.lean`, only the data that goes into the panels and the texts of the row labels are modelled.
-/

namespace Honeycomb

/-- `(circuit_style, preserved_observable, decoder)`. -/
abbrev Case := String × String × String

/-- The key of main_render_threshold_figure.py:101. -/
def caseOf (d : DecodingProblemDesc) : Case := (d.circuit_style, d.preserved_observable, d.decoder)

/-- Comparison of tuples of texts. -/
def caseLe (a b : Case) : Bool :=
  decide ((toLex (a.1, toLex (a.2.1, a.2.2)) : String ×ₗ String ×ₗ String) ≤ toLex (b.1, toLex (b.2.1, b.2.2)))

/-- main_render_threshold_figure.py:43-84, the table of the full figure: columns with their names and cases from top to bottom. -/
def allThresholdCases : List (String × List (Option Case)) :=
  [("SD6",
    [some ("surface_SD6", "X", "internal"),
     some ("surface_SD6", "Z", "internal"),
     some ("surface_SD6", "X", "internal_correlated"),
     some ("surface_SD6", "Z", "internal_correlated"),
     some ("honeycomb_SD6", "H", "internal"),
     some ("honeycomb_SD6", "V", "internal"),
     some ("honeycomb_SD6", "H", "internal_correlated"),
     some ("honeycomb_SD6", "V", "internal_correlated")]),
   ("SI1000",
    [some ("surface_SI1000", "X", "internal"),
     some ("surface_SI1000", "Z", "internal"),
     some ("surface_SI1000", "X", "internal_correlated"),
     some ("surface_SI1000", "Z", "internal_correlated"),
     some ("honeycomb_SI1000", "H", "internal"),
     some ("honeycomb_SI1000", "V", "internal"),
     some ("honeycomb_SI1000", "H", "internal_correlated"),
     some ("honeycomb_SI1000", "V", "internal_correlated")]),
   ("EM3",
    [none, none, none, none,
     some ("honeycomb_EM3_v2", "H", "internal"),
     some ("honeycomb_EM3_v2", "V", "internal"),
     some ("honeycomb_EM3_v2", "H", "internal_correlated"),
     some ("honeycomb_EM3_v2", "V", "internal_correlated")])]

/-- main_render_threshold_figure.py:85-99, the table of the focused figure. -/
def focusedThresholdCases : List (String × List (Option Case)) :=
  [("SD6", [some ("surface_SD6", "Z", "internal_correlated"), some ("honeycomb_SD6", "H", "internal_correlated")]),
   ("SI1000", [some ("surface_SI1000", "Z", "internal_correlated"), some ("honeycomb_SI1000", "H", "internal_correlated")]),
   ("EM3", [none, some ("honeycomb_EM3_v2", "H", "internal_correlated")])]

/-- main_render_threshold_figure.py:43-99 `styles`. -/
def thresholdCases (focused : Bool) : List (String × List (Option Case)) :=
  if focused then focusedThresholdCases else allThresholdCases

/-- What is drawn into one panel `axs[row][col]`. -/
structure Panel where
  row : Nat
  col : Nat
  title : String
  curves : List Curve

/-- main_render_threshold_figure.py:111-125, the body of the loops for one panel. -/
noncomputable def thresholdPanel (all_groups : PyDict Case ProblemShotData) (row col : Nat) (name : String) (c : Case) : Except PyErr Panel := do
  let style_data := (all_groups.get? c).getD []
  let curves ← plotData style_data (if pyIn c.2.1 "XZ" then 4 else 0)
  pure ⟨row, col, name, curves⟩

/-- main_render_threshold_figure.py:110-125, the inner loop over the rows of a column. -/
noncomputable def thresholdRows (all_groups : PyDict Case ProblemShotData) (col : Nat) (name : String) :
    Nat → List (Option Case) → Except PyErr (List Panel)
  | _, [] => .ok []
  | row, none :: rest => thresholdRows all_groups col name (row + 1) rest
  | row, some c :: rest => do
    let p ← thresholdPanel all_groups row col name c
    let ps ← thresholdRows all_groups col name (row + 1) rest
    pure (p :: ps)

/-- main_render_threshold_figure.py:109-125, the outer loop over the columns. -/
noncomputable def thresholdCols (all_groups : PyDict Case ProblemShotData) :
    Nat → List (String × List (Option Case)) → Except PyErr (List Panel)
  | _, [] => .ok []
  | col, (name, cases) :: rest => do
    let ps ← thresholdRows all_groups col name 0 cases
    let qs ← thresholdCols all_groups (col + 1) rest
    pure (ps ++ qs)

/-- main_render_threshold_figure.py:42-125 `plot_thresholds`: the used panels in the order in which they are drawn. (All columns of
the tables have as many entries as `styles["SD6"]`, so `axs[row][col]` exists.) -/
noncomputable def plotThresholds (all_data : ProblemShotData) (focused : Bool) : Except PyErr (List Panel) :=
  thresholdCols (groupedBy caseLe caseOf all_data) 0 (thresholdCases focused)

/-- `style.split("_")[0]`. -/
def beforeUnderscore (s : String) : String := String.ofList (s.toList.takeWhile fun c => c ≠ '_')

/-- `s.capitalize()` for a text that is not empty and whose letters are ASCII. -/
def capitalizeText (s : String) : String :=
  match s.toList with
  | [] => ""
  | c :: cs => String.ofList (c.toUpper :: cs.map Char.toLower)

/-- main_render_threshold_figure.py:145-156, the label of a row, from the entry of the column "SD6". -/
def rowLabel (c : Case) : String :=
  let obs := if c.2.1 = "H" then "Horizontal" else c.2.1
  let obs := if obs = "V" then "Vertical" else obs
  let style := capitalizeText (beforeUnderscore c.1)
  let style := if pyIn "correlated" c.2.2 then style ++ " (Correlated)" else style ++ " (Standard)"
  style ++ "\n" ++ obs ++ " Observable\nCode Cell Error Rate"

/-! ## Detection fractions -/

/-- What main_render_detection_fraction_figure.py:65 draws for one noise value. -/
structure FractionCurve where
  points : List (Int × Rat)
  noise : Rat
  marker : Char
  color : Nat
deriving DecidableEq, Repr

/-- main_render_detection_fraction_figure.py:53 `markers`. -/
def fractionMarkers : List Char := "ov*sp^<>8P+xXDd|".toList

/-- main_render_detection_fraction_figure.py:36-43 `styles`: the circuit styles of the columns. -/
def fractionStyles : List String :=
  ["surface_SD6", "surface_SI1000", "honeycomb_SD6", "honeycomb_SI1000", "honeycomb_EM3_v2", "honeycomb_EM3"]

/-- main_render_detection_fraction_figure.py:45 `p2i[noise]`: the position of a noise value among all sorted noise values. -/
def noiseIndex (all_data : ProblemShotData) (noise : Rat) : Except PyErr Nat :=
  match (sortedRat (pySet (all_data.map fun e => e.1.noise))).idxOf? noise with
  | some i => .ok i
  | none => .error .keyError

/-- main_render_detection_fraction_figure.py:59-65, one curve. -/
def fractionCurve (all_data : ProblemShotData) (noise : Rat) (case_data : ProblemShotData) : Except PyErr FractionCurve := do
  let order ← noiseIndex all_data noise
  let marker ← match fractionMarkers[order]? with
    | some m => .ok m
    | none => .error .indexError
  let color ← colorAt order
  pure { points := case_data.map fun e => (e.1.code_distance, e.2.logical_error_rate), noise := noise, marker := marker, color := color }

/-- `a <= b` of two numbers. -/
def ratLe (a b : Rat) : Bool := decide (a ≤ b)

/-- `a <= b` of two texts. -/
def stringLe (a b : String) : Bool := decide (a ≤ b)

/-- main_render_detection_fraction_figure.py:55-65: one column. -/
def fractionColumn (all_data : ProblemShotData) (style : String) : Except PyErr (List FractionCurve) :=
  (groupedBy ratLe DecodingProblemDesc.noise (((groupedBy stringLe DecodingProblemDesc.circuit_style all_data).get? style).getD [])).mapM
    fun g => fractionCurve all_data g.1 g.2

/-- main_render_detection_fraction_figure.py:35-65 `plot_detection_fraction`: the curves of every column. -/
def plotDetectionFraction (all_data : ProblemShotData) : Except PyErr (List (List FractionCurve)) :=
  fractionStyles.mapM (fractionColumn all_data)

end Honeycomb
