import Verif.Model.Figures

/-!
# Model of the figures of `src/paper/main_render_lambda_figure.py`

As in `Verif/Model/Figures.lean`, only the data that goes into the panels and the texts of the labels are modelled. `leastsq`,
`linregress` and `isinf` are the functions of scipy and numpy; `none` means that a search takes more than `fuel` iterations.
-/

namespace Honeycomb

/-- `(circuit_style, decoder)`. -/
abbrev StyleDecoder := String × String

/-- The key of main_render_lambda_figure.py:109, 195, 281. -/
def styleDecoderOf (d : DecodingProblemDesc) : StyleDecoder := (d.circuit_style, d.decoder)

/-- Comparison of tuples of texts. -/
def styleDecoderLe (a b : StyleDecoder) : Bool := decide ((toLex a : String ×ₗ String) ≤ toLex b)

/-! ## Line fits -/

/-- main_render_lambda_figure.py:62-88, the table of the full figure of line fits. -/
def allLineFitCases : List (String × List (Option StyleDecoder)) :=
  [("SD6",
    [some ("surface_SD6", "internal"),
     some ("surface_SD6", "internal_correlated"),
     some ("honeycomb_SD6", "internal"),
     some ("honeycomb_SD6", "internal_correlated")]),
   ("SI1000",
    [some ("surface_SI1000", "internal"),
     some ("surface_SI1000", "internal_correlated"),
     some ("honeycomb_SI1000", "internal"),
     some ("honeycomb_SI1000", "internal_correlated")]),
   ("EM3",
    [none, none,
     some ("honeycomb_EM3_v2", "internal"),
     some ("honeycomb_EM3_v2", "internal_correlated")])]

/-- main_render_lambda_figure.py:89-103, the table of the focused figure of line fits. -/
def focusedLineFitCases : List (String × List (Option StyleDecoder)) :=
  [("SD6", [some ("surface_SD6", "internal_correlated"), some ("honeycomb_SD6", "internal_correlated")]),
   ("SI1000", [some ("surface_SI1000", "internal_correlated"), some ("honeycomb_SI1000", "internal_correlated")]),
   ("EM3", [none, some ("honeycomb_EM3_v2", "internal_correlated")])]

/-- main_render_lambda_figure.py:62-103 `styles`. -/
def lineFitCases (focus : Bool) : List (String × List (Option StyleDecoder)) :=
  if focus then focusedLineFitCases else allLineFitCases

/-- What main_render_lambda_figure.py:140-146 draws for one noise value: `ax.scatter(xs, ys, color, marker, label=f"{noise}")` and, if
the group appears to suppress errors, the dashed line `ax.plot(xs2, ys2, '--', color)`. An `x` of `none` is nan or an infinity. -/
structure LineFitPoints where
  noise : Rat
  points : List (Int × ℝ)
  dashed : Option (List (Option ℝ × ℝ))
  marker : Char
  color : Nat

/-- What is drawn into one panel `axs[row][col]`. -/
structure LineFitPanel where
  row : Nat
  col : Nat
  title : String
  groups : List LineFitPoints

open Classical in
/-- main_render_lambda_figure.py:134-146, one iteration. (`lambda_xs` and `lambda_ys` are not used.) `colors` and `markers` are those of
main_render_detection_fraction_figure.py. -/
noncomputable def lineFitGroup (linregress : List ℝ → List ℝ → LineFit) (all_data : ProblemShotData) (noise : Rat) (group : LambdaGroup) :
    Except PyErr LineFitPoints := do
  let _ ← group.linearFit linregress
  let (xs, ys) ← group.comboData
  let order ← noiseIndex all_data noise
  let suppressing ← group.appearsToBeSuppressing linregress
  let dashed ← if suppressing then do
      let x1 ← group.projectedDistance linregress 1
      let x2 ← group.projectedDistance linregress (1 / 10 ^ 13)
      let _ ← colorAt order
      pure (some [(x1, 1), (x2, 1 / 10 ^ 13)])
    else pure none
  let color ← colorAt order
  let marker ← match fractionMarkers[order]? with
    | some m => .ok m
    | none => .error .indexError
  pure { noise := noise, points := xs.zip ys, dashed := dashed, marker := marker, color := color }

/-- `groups[noise]`. -/
def groupAt (groups : PyDict Rat LambdaGroup) (noise : Rat) : Except PyErr LambdaGroup := match groups.get? noise with
  | some g => .ok g
  | none => .error .keyError

/-- main_render_lambda_figure.py:124-146, one panel. -/
noncomputable def lineFitPanel (linregress : List ℝ → List ℝ → LineFit) (all_data : ProblemShotData) (row col : Nat) (name : String)
    (c : StyleDecoder) : Except PyErr LineFitPanel := do
  let style_data := ((groupedBy styleDecoderLe styleDecoderOf all_data).get? c).getD []
  let groups ← groupsFromData style_data
  let drawn ← (sortedRat groups.keys).mapM fun noise => do
    lineFitGroup linregress all_data noise (← groupAt groups noise)
  pure ⟨row, col, name, drawn⟩

/-- main_render_lambda_figure.py:118-146, the inner loop over the rows of a column. -/
noncomputable def lineFitRows (linregress : List ℝ → List ℝ → LineFit) (all_data : ProblemShotData) (col : Nat) (name : String) :
    Nat → List (Option StyleDecoder) → Except PyErr (List LineFitPanel)
  | _, [] => .ok []
  | row, none :: rest => lineFitRows linregress all_data col name (row + 1) rest
  | row, some c :: rest => do
    let p ← lineFitPanel linregress all_data row col name c
    let ps ← lineFitRows linregress all_data col name (row + 1) rest
    pure (p :: ps)

/-- main_render_lambda_figure.py:117-146, the outer loop over the columns. -/
noncomputable def lineFitCols (linregress : List ℝ → List ℝ → LineFit) (all_data : ProblemShotData) :
    Nat → List (String × List (Option StyleDecoder)) → Except PyErr (List LineFitPanel)
  | _, [] => .ok []
  | col, (name, cases) :: rest => do
    let ps ← lineFitRows linregress all_data col name 0 cases
    let qs ← lineFitCols linregress all_data (col + 1) rest
    pure (ps ++ qs)

/-- main_render_lambda_figure.py:61-146 `plot_lambda_line_fits_combo`: the used panels in the order in which they are drawn. -/
noncomputable def plotLineFits (linregress : List ℝ → List ℝ → LineFit) (all_data : ProblemShotData) (focus : Bool) :
    Except PyErr (List LineFitPanel) :=
  lineFitCols linregress all_data 0 (lineFitCases focus)

/-- main_render_lambda_figure.py:164-169, the label of a row, from the entry of the column "SD6". -/
def lineFitRowLabel (c : StyleDecoder) : String :=
  let title := capitalizeText (beforeUnderscore c.1)
  let title := title ++ (if pyIn "correlated" c.2 then " (Correlated)" else " (Standard)")
  title ++ "\nCode Cell Error Rate"

/-- main_render_lambda_figure.py:163-169, the labels of all rows. `None` in the column "SD6" would be a TypeError. -/
def lineFitRowLabels (focus : Bool) : Except PyErr (List String) :=
  match (lineFitCases focus).lookup "SD6" with
  | some cases => cases.mapM fun
    | some c => .ok (lineFitRowLabel c)
    | none => .error .typeError
  | none => .error .keyError

/-- main_render_lambda_figure.py:148-149, the legend: the labels of the points of the first panel, in reverse order. -/
def lineFitLegend (panels : List LineFitPanel) : List Rat :=
  ((panels.filter fun p => decide (p.row = 0 ∧ p.col = 0)).flatMap fun p => p.groups.map LineFitPoints.noise).reverse

/-! ## Lambda factors and teraquop footprints -/

/-- main_render_lambda_figure.py:176-193 and 262-279: the tables of both figures. -/
def comboCases : List (String × List StyleDecoder) :=
  [("SD6",
    [("honeycomb_SD6", "internal"),
     ("honeycomb_SD6", "internal_correlated"),
     ("surface_SD6", "internal"),
     ("surface_SD6", "internal_correlated")]),
   ("SI1000",
    [("honeycomb_SI1000", "internal"),
     ("honeycomb_SI1000", "internal_correlated"),
     ("surface_SI1000", "internal"),
     ("surface_SI1000", "internal_correlated")]),
   ("EM3",
    [("honeycomb_EM3_v2", "internal"),
     ("honeycomb_EM3_v2", "internal_correlated")])]

/-- A computation that can raise or exceed its fuel. -/
abbrev Search := ExceptT PyErr Option

/-- A value of the figure: first end of the band, point, second end of the band. -/
structure Triple where
  low : ℝ
  mid : ℝ
  high : ℝ

open Classical in
/-- main_render_lambda_figure.py:216-226 and 302-313: the loop over the noise values. The first list has the entries of `lambda_xs`,
`lambda_ys_low`, `lambda_ys` and `lambda_ys_high`; the second one those that go to `poor_xs` and `poor_ys`. `value` computes the three
values of a group. -/
noncomputable def comboLoopOver (linregress : List ℝ → List ℝ → LineFit) (value : LambdaGroup → Search Triple)
    (groups : PyDict Rat LambdaGroup) : List Rat → Search (List (Rat × Triple) × List (Rat × ℝ))
  | [] => pure ([], [])
  | noise :: rest => do
    let group ← liftM (groupAt groups noise)
    let suppressing ← liftM (group.appearsToBeSuppressing linregress)
    let (xs, poor) ← if suppressing then do
        let v ← value group
        pure ([(noise, v)], if group.hasLowConfidence then [(noise, v.mid)] else [])
      else pure ([], [])
    let (xs', poor') ← comboLoopOver linregress value groups rest
    pure (xs ++ xs', poor ++ poor')

/-- `label.endswith(suffix)` and `label[:-len(suffix)]`. -/
def dropSuffix (label suffix : String) : String :=
  if suffix.toList <:+ label.toList then String.ofList (label.toList.take (label.toList.length - suffix.toList.length)) else label

/-- main_render_lambda_figure.py:227-237 and 314-324: the label of a curve. -/
def comboLabel (rep : DecodingProblemDesc) (name : String) : String :=
  let label := dropSuffix rep.circuit_style "_v2"
  let label := dropSuffix label ("_" ++ name)
  let label := capitalizeText label
  if pyIn "correlated" rep.decoder then label ++ " (Correlated)" else label ++ " (Standard)"

/-- What main_render_lambda_figure.py:238-239 (325-326) draws for one case. -/
structure ComboCurve where
  points : List (Rat × Triple)
  label : String
  marker : Char

/-- main_render_lambda_figure.py:207-239 and 293-326, one case: the curve, if there is any data, and the additional entries of
`poor_xs` and `poor_ys`. -/
noncomputable def comboCase (linregress : List ℝ → List ℝ → LineFit) (value : String → LambdaGroup → Search Triple)
    (all_data : ProblemShotData) (name : String) (case_i : Nat) (c : StyleDecoder) : Search (Option ComboCurve × List (Rat × ℝ)) := do
  let case_data := ((groupedBy styleDecoderLe styleDecoderOf all_data).get? c).getD []
  let groups ← liftM (groupsFromData case_data)
  match sortedRat groups.keys with
  | [] => pure (none, [])
  | n0 :: ns => do
    let (points, poor) ← comboLoopOver linregress (value c.1) groups (n0 :: ns)
    let first ← liftM (groupAt groups n0)
    let marker ← liftM (match "ov*s".toList[case_i]? with
      | some m => Except.ok m
      | none => Except.error PyErr.indexError)
    pure (some { points := points, label := comboLabel first.rep name, marker := marker }, poor)

/-- main_render_lambda_figure.py:206-239 and 292-326: the loop over the cases of a column. -/
noncomputable def comboCasesOf (linregress : List ℝ → List ℝ → LineFit) (value : String → LambdaGroup → Search Triple)
    (all_data : ProblemShotData) (name : String) : Nat → List StyleDecoder → Search (List ComboCurve × List (Rat × ℝ))
  | _, [] => pure ([], [])
  | case_i, c :: rest => do
    let (curve, poor) ← comboCase linregress value all_data name case_i c
    let (curves, poor') ← comboCasesOf linregress value all_data name (case_i + 1) rest
    pure (curve.toList ++ curves, poor ++ poor')

/-- What is drawn into one panel: the curves and, if `ax.scatter(poor_xs, poor_ys)` is called, the marked points. -/
structure ComboColumn where
  title : String
  curves : List ComboCurve
  marked : Option (List (Rat × ℝ))

/-- main_render_lambda_figure.py:201-241 and 287-330: the loop over the columns. `update` is line 328, which only
`plot_teraquop_combo` has. -/
noncomputable def comboColumns (linregress : List ℝ → List ℝ → LineFit) (value : String → LambdaGroup → Search Triple)
    (update : Bool → List (Rat × ℝ) → Bool) (all_data : ProblemShotData) :
    Bool → List (String × List StyleDecoder) → Search (List ComboColumn)
  | _, [] => pure []
  | have_any_poor, (name, cases) :: rest => do
    let (curves, poor) ← comboCasesOf linregress value all_data name 0 cases
    let have_any_poor := update have_any_poor poor
    let cols ← comboColumns linregress value update all_data have_any_poor rest
    pure (⟨name, curves, if have_any_poor then some poor else none⟩ :: cols)

/-- main_render_lambda_figure.py:219-223: `l1`, `l2`, `l3`. -/
noncomputable def lambdaValue (leastsq : (ℝ → ℝ) → ℝ) (linregress : List ℝ → List ℝ → LineFit) (isinf : ℝ → Prop) (fuel : Nat)
    (_style : String) (g : LambdaGroup) : Search Triple := do
  let (l1, l2, l3) ← ExceptT.mk (g.projectedLambdaRange leastsq linregress isinf fuel)
  pure ⟨l1, l2, l3⟩

/-- main_render_lambda_figure.py:175-241 `plot_lambda_combo`. `have_any_poor` is never updated. -/
noncomputable def plotLambda (leastsq : (ℝ → ℝ) → ℝ) (linregress : List ℝ → List ℝ → LineFit) (isinf : ℝ → Prop) (fuel : Nat)
    (all_data : ProblemShotData) : Search (List ComboColumn) :=
  comboColumns linregress (lambdaValue leastsq linregress isinf fuel) (fun have_any_poor _ => have_any_poor) all_data false comboCases

/-- main_render_lambda_figure.py:305-309: `y_low`, `y`, `y_high`. -/
noncomputable def teraquopValue (leastsq : (ℝ → ℝ) → ℝ) (linregress : List ℝ → List ℝ → LineFit) (isinf : ℝ → Prop) (fuel : Nat)
    (style : String) (g : LambdaGroup) : Search Triple := do
  let y ← liftM (g.projectedQubits linregress (1 / 10 ^ 12) style)
  let (y_low, y_high) ← ExceptT.mk (g.projectedQubitRange leastsq linregress isinf fuel (1 / 10 ^ 12) style)
  pure ⟨y_low, y, y_high⟩

/-- main_render_lambda_figure.py:261-330 `plot_teraquop_combo`. -/
noncomputable def plotTeraquop (leastsq : (ℝ → ℝ) → ℝ) (linregress : List ℝ → List ℝ → LineFit) (isinf : ℝ → Prop) (fuel : Nat)
    (all_data : ProblemShotData) : Search (List ComboColumn) :=
  comboColumns linregress (teraquopValue leastsq linregress isinf fuel) (fun have_any_poor poor => have_any_poor || !poor.isEmpty)
    all_data false comboCases

end Honeycomb
