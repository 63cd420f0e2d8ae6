import Verif.Spec.Script
import Verif.Spec.Plot
import Verif.Spec.LambdaFigures
import Verif.Model.Mains

/-!
# Specification: data files of the collection script
-/

namespace Honeycomb

/-- A sampler that returns sensible counts, and times that can be written. It may raise exceptions. -/
def Honest (F : FloatText) (sample : DecodingProblemDesc → Nat → Int → Except PyErr (Int × Rat)) : Prop :=
  ∀ d i n c t, 1 ≤ n → sample d i n = .ok (c, t) → 0 ≤ c ∧ c ≤ n ∧ F.Faithful t

/-- `CollectedFile F file runs`: `file` is what any number of runs of the collection script with this output file can leave behind, each with
its own arguments (the batch size is positive, if given). A run may come to its end (also by an exception), or be killed at any point that is not
between the creation of the file and the writing of its header. `runs` are the batches sampled in each run, and whether it came to its end. -/
inductive CollectedFile (F : FloatText) : Option Text → List (Bool × List Row) → Prop
  | start : CollectedFile F none []
  | run {file runs s sample fuel effs err part ended} : CollectedFile F file runs → s.has_out = true →
      (∀ m, s.max_batch_size = some m → 1 ≤ m) → Honest F sample → collectData F s sample fuel file = some (effs, err) →
      part <+: effs → part.getLast? ≠ some .truncate → (ended = true → part = effs) →
      CollectedFile F (fileAfter file part) (runs ++ [(ended, batches part)])

/-- The rows that a file keeps of the batches that were sampled in some runs: those of every run, in order, except possibly the last batch of a
run that was killed. -/
def KeptOf (runs : List (Bool × List Row)) (kept : List Row) : Prop :=
  ∃ parts : List (List Row),
    List.Forall₂ (fun s k => k <+: s.2 ∧ s.2.length ≤ k.length + 1 ∧ (s.1 = true → k = s.2)) runs parts ∧ kept = parts.flatten

/-- The files that command line arguments name: a directory stands for the csv files inside. -/
def namedFiles (isDir : String → Bool) (inside : String → List String) (args : List String) : List String :=
  args.flatMap fun a => if isDir a then inside a else [a]

/-- The panels of the threshold figure: one for every entry of the table of cases, showing the data of that case. -/
def ThresholdFigure (data : ProblemShotData) (focused : Bool) (panels : List Panel) : Prop :=
  (panels.map fun p => (p.row, p.col)).Nodup ∧
  (∀ row col, (row, col) ∈ panels.map (fun p => (p.row, p.col)) ↔
    ∃ name cases c, (thresholdCases focused)[col]? = some (name, cases) ∧ cases[row]? = some (some c)) ∧
  ∀ p ∈ panels, ∃ cases c, (thresholdCases focused)[p.col]? = some (p.title, cases) ∧ cases[p.row]? = some (some c) ∧
    ShowsData (data.filter fun e => decide (e.1.circuit_style = c.1 ∧ e.1.preserved_observable = c.2.1 ∧ e.1.decoder = c.2.2)) p.curves

/-- The columns of the detection fraction figure: one per style, in it one curve per noise, in it one point per problem. -/
def FractionFigure (data : ProblemShotData) (cols : List (List FractionCurve)) : Prop :=
  List.Forall₂ (fun style curves => curves.Pairwise (fun a b => a.noise < b.noise) ∧
    (∀ p, (∃ c ∈ curves, c.noise = p) ↔ ∃ e ∈ data, e.1.circuit_style = style ∧ e.1.noise = p) ∧
    ∀ c ∈ curves, c.points = (data.filter fun e => decide (e.1.circuit_style = style ∧ e.1.noise = c.noise)).map
      fun e => (e.1.code_distance, e.2.logical_error_rate)) fractionStyles cols

/-- The panels of the line fit figure: one for every case, showing the data of that case. -/
def LineFitFigure (data : ProblemShotData) (focus : Bool) (panels : List LineFitPanel) : Prop :=
  (panels.map fun p => (p.row, p.col)).Nodup ∧
  (∀ row col title style decoder, ShownAt focus row col title style decoder → ∃ p ∈ panels, (p.row, p.col) = (row, col)) ∧
  ∃ look : Rat → Char × Nat, (∀ e ∈ data, ∀ e' ∈ data, look e.1.noise = look e'.1.noise → e.1.noise = e'.1.noise) ∧
    ∀ p ∈ panels, ∃ style decoder, ShownAt focus p.row p.col p.title style decoder ∧ LineFitShows (resultsOf data style decoder) look p.groups

/-- The problems of `main_example.py`: two sizes, three noise levels. -/
def exampleDesc (d : Int) (p : Rat) : DecodingProblemDesc :=
  { data_width := 4 * d, data_height := 6 * d, code_distance := 4 * d, num_qubits := 24 * d ^ 2, rounds := 10, noise := p,
    circuit_style := "honeycomb_EM3_v2", preserved_observable := "H", decoder := "pymatching" }

end Honeycomb
