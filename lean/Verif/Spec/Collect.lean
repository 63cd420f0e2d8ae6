import Mathlib.Analysis.Real.Sqrt
import Verif.Model.Collect

/-!
# Specification: sampled batches, stop reasons, rows of a file, sums of shots
-/

namespace Honeycomb

/-- A row of data: a description with shots, correct predictions and seconds. -/
abbrev Row := DecodingProblemDesc × ShotData

/-- The batches that were sampled, in order. -/
def batches (effs : List Eff) : List Row :=
  effs.filterMap fun
    | .sampled d v => some (d, v)
    | _ => none

/-- What was printed to stdout, line by line. -/
def printed (effs : List Eff) : List Text :=
  effs.filterMap fun
    | .print t => some t
    | _ => none

def totalShots (bs : List Row) : Int := (bs.map fun b => b.2.num_shots).sum

def totalErrors (bs : List Row) : Int := (bs.map fun b => b.2.num_shots - b.2.num_correct).sum

/-- The documented reasons to stop, after `n` shots with `e` errors. -/
def StopReason (a : CollectArgs) (n e : Int) : Prop :=
  a.max_shots ≤ n ∨
  (a.min_seen_logical_errors ≤ e ∧
    Real.sqrt (((e : ℝ) / (n : ℝ)) * (1 - (e : ℝ) / (n : ℝ)) / (n : ℝ)) ≤ (a.max_sample_std_dev : ℝ)) ∨
  ((0.48 : ℝ) * (n : ℝ) ≤ (e : ℝ) ∧ 10 ≤ e)

/-- The lines of some rows. -/
def rowsText (F : FloatText) (rows : List Row) : Text := rows.flatMap fun r => line (record F r.1 r.2)

/-- A data file: the header and some rows. -/
def dataFile (F : FloatText) (rows : List Row) : Text := line csvHeader ++ rowsText F rows

/-- A text that needs no quoting in a CSV file. -/
def CleanText (t : Text) : Prop := ∀ c ∈ t, c ≠ ',' ∧ c ≠ '"' ∧ c ≠ '\n' ∧ c ≠ '\r'

/-- The float is written as a clean text that reads back as the same float. -/
def FloatText.Faithful (F : FloatText) (x : Rat) : Prop := F.parse (F.str x) = some x ∧ CleanText (F.str x)

/-- A row whose texts need no quoting and whose floats are written faithfully. -/
structure CleanRow (F : FloatText) (r : Row) : Prop where
  noise : F.Faithful r.1.noise
  seconds : F.Faithful r.2.total_processing_seconds
  style : CleanText r.1.circuit_style.toList
  observable : CleanText r.1.preserved_observable.toList
  decoder : CleanText r.1.decoder.toList

/-- Sums of all columns. -/
def sumShots (vs : List ShotData) : ShotData :=
  { num_shots := (vs.map fun v => v.num_shots).sum
    num_correct := (vs.map fun v => v.num_correct).sum
    total_processing_seconds := (vs.map fun v => v.total_processing_seconds).sum }

/-- The sums over the entries with key `k`; `none` if there are none. -/
def totalFor {κ : Type} [DecidableEq κ] (rows : List (κ × ShotData)) (k : κ) : Option ShotData :=
  if (rows.filter fun r => decide (r.1 = k)) = [] then none
  else some (sumShots ((rows.filter fun r => decide (r.1 = k)).map Prod.snd))

/-- `data` holds exactly the totals of `rows`, one entry per key that has rows. -/
def HoldsTotals {κ : Type} [DecidableEq κ] (data : PyDict κ ShotData) (rows : List (κ × ShotData)) : Prop :=
  (data.map Prod.fst).Nodup ∧ ∀ k, data.get? k = totalFor rows k

/-- The file after a number of runs that all append to it, each finished or killed at some point (but not between the creation of
the file and the header), together with the batches sampled by each run. -/
inductive Restarts (F : FloatText) (file0 : Option Text) : Option Text → List (List Row) → Prop
  | start : Restarts F file0 file0 []
  | run {file runs a fuel probs effs err part} : Restarts F file0 file runs → a.has_out = true →
      a.discard_previous_data = false → collect F a fuel probs file = some (effs, err) →
      part <+: effs → part.getLast? ≠ some .truncate →
      Restarts F file0 (fileAfter file part) (runs ++ [batches part])

/-- A way to write floats for which every float is faithful: as a fraction. -/
def fractionText : FloatText where
  str x := intStr x.num ++ '/' :: Nat.toDigits 10 x.den
  parse t :=
    match t.splitOn '/' with
    | [n, d] => (parseInt n).bind fun (n : Int) => (parseNat d).map fun (d : Nat) => (n : Rat) / (d : Rat)
    | _ => none

end Honeycomb
