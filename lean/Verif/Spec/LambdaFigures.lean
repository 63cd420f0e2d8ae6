import Mathlib.Analysis.SpecialFunctions.Log.Basic
import Verif.Spec.Lambda
import Verif.Spec.Plot
import Verif.Model.LambdaFigures

/-!
# Specification of the figures of line fits, lambda factors and qubit counts (C86, C87, C88)

Everything is said about a list of results: a description of a problem and the recorded shots.
-/

namespace Honeycomb

/-- The results of one circuit style and one decoder. -/
def resultsOf (data : ProblemShotData) (style decoder : String) : ProblemShotData :=
  data.filter fun e => decide (e.1.circuit_style = style ∧ e.1.decoder = decoder)

/-- The observed error rate of one kind of observable (horizontal or X, or else vertical or Z) at a noise and a distance. If there are no
results for that kind, it is replaced by the rate of the other kind. -/
def KindRate (data : ProblemShotData) (noise : Rat) (d : Int) (first : Prop) (r : ℝ) : Prop :=
  (∃ k v, (k, v) ∈ data ∧ k.noise = noise ∧ k.code_distance = d ∧ (FirstTable k.preserved_observable ↔ first) ∧
    r = ((v.num_shots - v.num_correct : Int) : ℝ) / (v.num_shots : ℝ)) ∨
  ((¬ ∃ k v, (k, v) ∈ data ∧ k.noise = noise ∧ k.code_distance = d ∧ (FirstTable k.preserved_observable ↔ first)) ∧
    ∃ k v, (k, v) ∈ data ∧ k.noise = noise ∧ k.code_distance = d ∧ ¬ (FirstTable k.preserved_observable ↔ first) ∧
      r = ((v.num_shots - v.num_correct : Int) : ℝ) / (v.num_shots : ℝ))

/-- The error rate of a code cell at a noise and a distance: the probability that at least one of the two observables flips within a
third of the experiment. There is none if an error rate of 0 was observed. -/
def CellRate (data : ProblemShotData) (noise : Rat) (d : Int) (y : ℝ) : Prop :=
  ∃ rH rV a b, KindRate data noise d True rH ∧ KindRate data noise d False rV ∧ rH ≠ 0 ∧ rV ≠ 0 ∧
    IsPerCell rH 3 a ∧ IsPerCell rV 3 b ∧ y = 1 - (1 - a) * (1 - b)

/-- All distances with an error rate, from left to right. -/
def CellPoints (data : ProblemShotData) (noise : Rat) (pts : List (Int × ℝ)) : Prop :=
  pts.Pairwise (fun a b => a.1 < b.1) ∧ ∀ d y, (d, y) ∈ pts ↔ CellRate data noise d y

/-- The points with logarithmic error rates. -/
noncomputable def logPoints (pts : List (Int × ℝ)) : List (ℝ × ℝ) := pts.map fun q => ((q.1 : ℝ), Real.log q.2)

/-- The line that fits best; the zero line if there are fewer than two points. -/
def IsTrend (pts : List (Int × ℝ)) (slope intercept : ℝ) : Prop :=
  if pts.length ≤ 1 then slope = 0 ∧ intercept = 0
  else ∀ s i, squaredResiduals (logPoints pts) slope intercept ≤ squaredResiduals (logPoints pts) s i

/-- The line falls clearly: errors are suppressed by larger distances. -/
def Falls (slope intercept : ℝ) : Prop := (slope < -2 / 100 ∧ intercept < -1 / 10) ∨ slope < -1

/-- What is assumed of `scipy.stats.linregress`: for at least two different `x` it returns the line with the least squares. -/
def LinregressMinimises (linregress : List ℝ → List ℝ → LineFit) : Prop :=
  ∀ xs ys, xs.length = ys.length → (∃ a ∈ xs, ∃ b ∈ xs, a ≠ b) → ∀ slope intercept,
    squaredResiduals (xs.zip ys) (linregress xs ys).slope (linregress xs ys).intercept ≤ squaredResiduals (xs.zip ys) slope intercept

/-- The distances of the results with a noise value and one of two observables. -/
def distancesOf (data : ProblemShotData) (noise : Rat) (obs1 obs2 : String) : Finset Int :=
  ((data.filter fun e => decide (e.1.noise = noise ∧ (e.1.preserved_observable = obs1 ∨ e.1.preserved_observable = obs2))).map
    fun e => e.1.code_distance).toFinset

/-- Fewer than three distances for one of the two kinds of observables. -/
def FewDistances (data : ProblemShotData) (noise : Rat) : Prop :=
  (distancesOf data noise "H" "X").card < 3 ∨ (distancesOf data noise "V" "Z").card < 3

/-- The number of qubits of the code of a circuit style with distance `d`: a rotated surface code, or a honeycomb code with
`4k × 6k` data qubits for the `k` with `4 (k - 1) < d ≤ 4 k`. -/
def Footprint (style : String) (d : Int) (q : ℝ) : Prop :=
  ((style = "surface_SD6" ∨ style = "surface_SI1000") ∧ q = 2 * d ^ 2 - 1) ∨
  ((style = "honeycomb_SD6" ∨ style = "honeycomb_SI1000") ∧ ∃ k : Int, 4 * (k - 1) < d ∧ d ≤ 4 * k ∧ q = (4 * k) * (6 * k) * (5 / 2)) ∨
  (style = "honeycomb_EM3_v2" ∧ ∃ k : Int, 4 * (k - 1) < d ∧ d ≤ 4 * k ∧ q = (4 * k) * (6 * k))

/-- The rows of the figures of line fits: a kind of code and a decoder. -/
def lineFitRowsSpec (focus : Bool) : List (String × String) :=
  if focus then [("surface", "internal_correlated"), ("honeycomb", "internal_correlated")]
  else [("surface", "internal"), ("surface", "internal_correlated"), ("honeycomb", "internal"), ("honeycomb", "internal_correlated")]

/-- What is shown in a row and a column. The gate sets are SD6, SI1000 and EM3 from left to right; there are no surface codes with
EM3 gates. -/
def ShownAt (focus : Bool) (row col : Nat) (title style decoder : String) : Prop :=
  ∃ code, (lineFitRowsSpec focus)[row]? = some (code, decoder) ∧
    ((col = 0 ∧ title = "SD6" ∧ style = code ++ "_SD6") ∨ (col = 1 ∧ title = "SI1000" ∧ style = code ++ "_SI1000") ∨
      (col = 2 ∧ title = "EM3" ∧ code = "honeycomb" ∧ style = "honeycomb_EM3_v2"))

/-- The text beside a row. -/
def lineFitRowText (row : String × String) : String :=
  (if row.1 = "surface" then "Surface" else "Honeycomb") ++ (if row.2 = "internal" then " (Standard)" else " (Correlated)") ++
    "\nCode Cell Error Rate"

/-- A panel of line fits shows the results. -/
structure LineFitShows (data : ProblemShotData) (look : Rat → Char × Nat) (groups : List LineFitPoints) : Prop where
  /-- One cloud of points for every noise value, in increasing order. -/
  sorted : groups.Pairwise fun a b => a.noise < b.noise
  noises : ∀ p, p ∈ groups.map LineFitPoints.noise ↔ ∃ e ∈ data, e.1.noise = p
  points : ∀ q ∈ groups, CellPoints data q.noise q.points
  /-- The trend is drawn between the error rates 1 and 1e-13, if it falls. -/
  dashed : ∀ q ∈ groups, ∃ slope intercept, IsTrend q.points slope intercept ∧
    (Falls slope intercept → ∃ x1 x2, q.dashed = some [(some x1, 1), (some x2, 1 / 10 ^ 13)] ∧ Real.exp (slope * x1 + intercept) = 1 ∧
      Real.exp (slope * x2 + intercept) = 1 / 10 ^ 13) ∧
    (¬ Falls slope intercept → q.dashed = none)
  look : ∀ q ∈ groups, (q.marker, q.color) = look q.noise

/-- The noise values at which errors are suppressed. -/
def SuppressedAt (data : ProblemShotData) (p : Rat) : Prop :=
  (∃ e ∈ data, e.1.noise = p) ∧ ∃ pts slope intercept, CellPoints data p pts ∧ IsTrend pts slope intercept ∧ Falls slope intercept

/-- `v` is the smallest sum of squared residuals of a line. -/
def IsBestCost (pts : List (ℝ × ℝ)) (v : ℝ) : Prop :=
  (∃ slope intercept, v = squaredResiduals pts slope intercept) ∧ ∀ slope intercept, v ≤ squaredResiduals pts slope intercept

/-- Lambda is the factor by which the fitted error rate falls when the distance grows by 2. The band ends at the lambdas of the
two slopes whose best lines cost 1 more than the fit (up to 1e-5). The first end is the larger one. -/
def LambdaAt (data : ProblemShotData) (p : Rat) (t : Triple) : Prop :=
  ∃ pts slope intercept, CellPoints data p pts ∧ IsTrend pts slope intercept ∧
    (∀ d, Real.exp (slope * d + intercept) = t.mid * Real.exp (slope * (d + 2) + intercept)) ∧ t.high ≤ t.mid ∧ t.mid ≤ t.low ∧
    ∃ s1 s3 base v1 v3, t.low = Real.exp (-2 * s1) ∧ t.high = Real.exp (-2 * s3) ∧ s1 ≤ slope ∧ slope ≤ s3 ∧
      IsBestCost (logPoints pts) base ∧ IsBestCostForSlope (logPoints pts) s1 v1 ∧ |v1 - (base + 1)| ≤ 1 / 100000 ∧
      IsBestCostForSlope (logPoints pts) s3 v3 ∧ |v3 - (base + 1)| ≤ 1 / 100000

/-- The qubit count is that of the smallest distance at which the fit reaches the error rate 1e-12. The band comes from the fits of the
distance as a function of the logarithmic error rate: it ends at the two values at 1e-12 whose best lines cost 1 more than the best
one (up to 1e-5). -/
def QubitsAt (data : ProblemShotData) (style : String) (p : Rat) (t : Triple) : Prop :=
  ∃ pts slope intercept, CellPoints data p pts ∧ IsTrend pts slope intercept ∧
    (∃ d : Int, Real.exp (slope * d + intercept) ≤ 1 / 10 ^ 12 ∧ 1 / 10 ^ 12 < Real.exp (slope * (d - 1) + intercept) ∧
      Footprint style d t.mid) ∧
    ∃ d1 d2 base v1 v2, d1 ≤ d2 ∧ Footprint style ⌈d1⌉ t.low ∧ Footprint style ⌈d2⌉ t.high ∧ IsBestCost ((logPoints pts).map Prod.swap) base ∧
      IsBestCostAt ((logPoints pts).map Prod.swap) (Real.log (1 / 10 ^ 12)) d1 v1 ∧ |v1 - (base + 1)| ≤ 1 / 100000 ∧
      IsBestCostAt ((logPoints pts).map Prod.swap) (Real.log (1 / 10 ^ 12)) d2 v2 ∧ |v2 - (base + 1)| ≤ 1 / 100000

/-- A curve shows a value for every noise value at which errors are suppressed, from left to right. -/
structure ComboShows (data : ProblemShotData) (value : Rat → Triple → Prop) (points : List (Rat × Triple)) : Prop where
  sorted : points.Pairwise fun a b => a.1 < b.1
  noises : ∀ p, p ∈ points.map Prod.fst ↔ SuppressedAt data p
  value : ∀ p t, (p, t) ∈ points → value p t

/-- The columns of the figures of lambda factors and qubit counts, and the curves in them. -/
def comboColumnsSpec : List (String × List (String × String)) :=
  let both (style : String) := [(style, "internal"), (style, "internal_correlated")]
  [("SD6", both "honeycomb_SD6" ++ both "surface_SD6"),
   ("SI1000", both "honeycomb_SI1000" ++ both "surface_SI1000"),
   ("EM3", both "honeycomb_EM3_v2")]

/-- Label and marker of a case, the same in all panels. -/
def legendOf (style decoder : String) : String × Char :=
  if style = "surface_SD6" ∨ style = "surface_SI1000" then
    if decoder = "internal" then ("Surface (Standard)", '*') else ("Surface (Correlated)", 's')
  else if decoder = "internal" then ("Honeycomb (Standard)", 'o') else ("Honeycomb (Correlated)", 'v')

/-- A panel shows one curve for every case of its column that has results, in the order of the table. -/
def PanelShows (data : ProblemShotData) (value : String → ProblemShotData → Rat → Triple → Prop) (cases : List StyleDecoder)
    (curves : List ComboCurve) : Prop :=
  List.Forall₂ (fun c curve => ComboShows (resultsOf data c.1 c.2) (value c.1 (resultsOf data c.1 c.2)) curve.points ∧
    (curve.label, curve.marker) = legendOf c.1 c.2) (cases.filter fun c => !(resultsOf data c.1 c.2).isEmpty) curves

/-- The marked points are those that rest on fewer than three distances. -/
def MarksShown (data : ProblemShotData) (cases : List StyleDecoder) (curves : List ComboCurve) (marked : List (Rat × ℝ)) : Prop :=
  ∀ p y, (p, y) ∈ marked ↔ ∃ c ∈ cases, FewDistances (resultsOf data c.1 c.2) p ∧
    ∃ curve ∈ curves, (curve.label, curve.marker) = legendOf c.1 c.2 ∧ ∃ t, (p, t) ∈ curve.points ∧ t.mid = y

end Honeycomb
