import Verif.Model.Csv

/-!
# Model of the data collection loops of `src/collect_data.py`

A run is the list of its effects in order; a crash leaves a prefix of it. The file is opened, written and closed for every
row; the text of one `print` is one effect (`write`), and the truncation by `open(path, "w")` is another one.
Sampling and decoding are an oracle; exceptions other than those of the oracle and of the arithmetic (no disk, no permission)
are not modelled.
-/

namespace Honeycomb

/-- What a run does to the outside world. `sampled` marks the return of one `sample_decode_count_correct` call. -/
inductive Eff where
  | print (line : Text)
  | truncate
  | write (text : Text)
  | sampled (desc : DecodingProblemDesc) (data : ShotData)
deriving DecidableEq

/-- What an effect does to the file (`none`: no such file). Appending creates the file. -/
def Eff.apply (file : Option Text) : Eff → Option Text
  | .truncate => some []
  | .write t => some (file.getD [] ++ t)
  | .print _ => file
  | .sampled _ _ => file

/-- The file after some effects. -/
def fileAfter (file : Option Text) (effs : List Eff) : Option Text := effs.foldl Eff.apply file

/-- collect_data.py:83-93 `DecodingProblem`, with the outcome of the `i`-th call of `sample_decode_count_correct` for a number
of shots: the number of correct predictions and the elapsed time, or an exception. -/
structure DecodingProblem where
  desc : DecodingProblemDesc
  sample : Nat → Int → Except PyErr (Int × Rat)

/-- The keyword arguments of `collect_simulated_experiment_data` (collect_data.py:96-104); `has_out` is `out_path is not None`. -/
structure CollectArgs where
  min_shots : Int
  max_shots : Int
  max_batch : Option Int := none
  max_sample_std_dev : Rat := 1
  min_seen_logical_errors : Int
  has_out : Bool
  discard_previous_data : Bool

/-- collect_data.py:139-143, 200-204. -/
def startEffs (has_out discard_previous_data : Bool) (file : Option Text) : List Eff :=
  Eff.print csvHeader ::
    (if has_out = true ∧ (discard_previous_data = true ∨ file = none) then [.truncate, .write (line csvHeader)] else [])

/-- collect_data.py:145-146. -/
def CollectArgs.batch (a : CollectArgs) : Int := a.max_batch.getD a.max_shots

/-- collect_data.py:150-152. -/
def CollectArgs.firstShots (a : CollectArgs) : Int := if a.batch < a.min_shots then a.batch else a.min_shots

/-- collect_data.py:177-180. -/
def recordEffs (F : FloatText) (has_out : Bool) (d : DecodingProblemDesc) (v : ShotData) : List Eff :=
  (if has_out then [.write (line (record F d v))] else []) ++ [.print (record F d v)]

/-- `math.sqrt(x) <= bound`, decided without the square root. -/
def sqrtLe (x bound : Rat) : Prop := 0 ≤ bound ∧ x ≤ bound * bound

instance (x bound : Rat) : Decidable (sqrtLe x bound) := inferInstanceAs (Decidable (_ ∧ _))

/-- collect_data.py:184-191: whether the loop stops. The literal `0.48` is taken as `48/100`. -/
def stops (a : CollectArgs) (total errors : Int) : Except PyErr Bool :=
  if total = 0 then .error .zeroDivision
  else
    let p := (errors : Rat) / (total : Rat)
    let x := p * (1 - p) / (total : Rat)
    if x < 0 then .error .valueError
    else if total ≥ a.max_shots then .ok true
    else if errors ≥ a.min_seen_logical_errors ∧ sqrtLe x a.max_sample_std_dev then .ok true
    else if (errors : Rat) ≥ (total : Rat) * (48 / 100) ∧ errors ≥ 10 then .ok true
    else .ok false

/-- collect_data.py:192. -/
def CollectArgs.nextShots (a : CollectArgs) (total shots : Int) : Int := min a.batch (min (2 * shots) (a.max_shots - total))

/-- collect_data.py:154-192, the loop for one problem: its effects and the exception that ended it. `none`: more than `fuel` iterations. -/
def collectLoop (F : FloatText) (a : CollectArgs) (prob : DecodingProblem) :
    Nat → Nat → Int → Int → Int → Option (List Eff × Option PyErr)
  | 0, _, _, _, _ => none
  | fuel + 1, i, shots, total, errors =>
    match prob.sample i shots with
    | .error e => some ([], some e)
    | .ok (correct, seconds) =>
      let v : ShotData := ⟨shots, correct, seconds⟩
      let effs := .sampled prob.desc v :: recordEffs F a.has_out prob.desc v
      let total' := total + shots
      let errors' := errors + (shots - correct)
      match stops a total' errors' with
      | .error e => some (effs, some e)
      | .ok true => some (effs, none)
      | .ok false =>
        (collectLoop F a prob fuel (i + 1) (a.nextShots total' shots) total' errors').map fun r => (effs ++ r.1, r.2)

/-- collect_data.py:149-192: the loop for one problem from its start. -/
def collectOne (F : FloatText) (a : CollectArgs) (prob : DecodingProblem) (fuel : Nat) : Option (List Eff × Option PyErr) :=
  collectLoop F a prob fuel 0 a.firstShots 0 0

/-- collect_data.py:148-192: all problems; an exception ends the run. -/
def collectProblems (F : FloatText) (a : CollectArgs) (fuel : Nat) : List DecodingProblem → Option (List Eff × Option PyErr)
  | [] => some ([], none)
  | prob :: probs =>
    match collectOne F a prob fuel with
    | none => none
    | some (effs, some e) => some (effs, some e)
    | some (effs, none) => (collectProblems F a fuel probs).map fun r => (effs ++ r.1, r.2)

/-- collect_data.py:96-192 `collect_simulated_experiment_data`, started with the given file. -/
def collect (F : FloatText) (a : CollectArgs) (fuel : Nat) (probs : List DecodingProblem) (file : Option Text) :
    Option (List Eff × Option PyErr) :=
  (collectProblems F a fuel probs).map fun r => (startEffs a.has_out a.discard_previous_data file ++ r.1, r.2)

/-! ## Detection fractions -/

/-- The result of sampling the detectors of a problem's circuit: a matrix with `cols` columns, and the elapsed time. -/
structure DetectionSample where
  cols : Nat
  rows : List (List Bool)
  seconds : Rat

/-- collect_data.py:208-226: description and counts of the record of a problem. -/
def detectionRecord (d : DecodingProblemDesc) (s : DetectionSample) : DecodingProblemDesc × ShotData :=
  let num_detections : Int := ((s.rows.map fun r => r.count true).sum : Nat)
  let num_samples : Int := (s.rows.length * s.cols : Nat)
  ({ d with preserved_observable := "-", decoder := "detection_fraction" },
    ⟨num_samples, num_samples - num_detections, s.seconds⟩)

/-- collect_data.py:195-230 `collect_detection_fraction_data`; `sample shots` is the outcome of
`circuit_maker().compile_detector_sampler().sample(shots)`. -/
def detectionFractions (F : FloatText) (shots : Int) (has_out discard_previous_data : Bool)
    (probs : List (DecodingProblemDesc × (Int → DetectionSample))) (file : Option Text) : List Eff :=
  startEffs has_out discard_previous_data file ++
    probs.flatMap fun (d, sample) =>
      let r := detectionRecord d (sample shots)
      recordEffs F has_out r.1 r.2

/-! ## Problem shot data -/

/-- collect_data.py:317-319 `ProblemShotData`. -/
abbrev ProblemShotData := PyDict DecodingProblemDesc ShotData

/-- `{k: result[k] for k in sorted(result.keys())}`. -/
def sortedByKey {κ ν : Type} (le : κ → κ → Bool) (d : PyDict κ ν) : PyDict κ ν := d.mergeSort fun a b => le a.1 b.1

/-- collect_data.py:321-325 `grouped_by`. Keys compare with `le`. -/
def groupedBy {κ : Type} [DecidableEq κ] (le : κ → κ → Bool) (key : DecodingProblemDesc → κ) (data : ProblemShotData) :
    PyDict κ ProblemShotData :=
  sortedByKey le (data.foldl (fun result kv =>
    result.set (key kv.1) (PyDict.set ((result.get? (key kv.1)).getD []) kv.1 kv.2)) [])

/-- collect_data.py:327-334 `merged_by`. -/
def mergedBy {κ : Type} [DecidableEq κ] (le : κ → κ → Bool) (key : DecodingProblemDesc → κ) (data : ProblemShotData) :
    PyDict κ ShotData :=
  sortedByKey le (data.foldl (fun result kv => addShots result (key kv.1) kv.2) [])

/-- One iteration of `merged_by` (collect_data.py:329-333) on shared mutable objects: dictionaries hold the positions of `ShotData`
objects in a heap. `setdefault(key(k), ShotData())` creates an object in any case, and the three `+=` change the object that is
in the result. -/
def mergeStep {κ : Type} [DecidableEq κ] (key : DecodingProblemDesc → κ) (s : PyDict κ Nat × List ShotData)
    (kv : DecodingProblemDesc × Nat) : PyDict κ Nat × List ShotData :=
  let heap := s.2 ++ [({} : ShotData)]
  let d := (s.1.get? (key kv.1)).getD s.2.length
  let result := match s.1.get? (key kv.1) with
    | some _ => s.1
    | none => s.1.set (key kv.1) s.2.length
  (result, heap.modify d fun x => x.add ((heap[kv.2]?).getD {}))

/-- The loop of `merged_by` (collect_data.py:327-333) on shared mutable objects. -/
def mergeHeap {κ : Type} [DecidableEq κ] (key : DecodingProblemDesc → κ) (data : PyDict DecodingProblemDesc Nat)
    (heap : List ShotData) : PyDict κ Nat × List ShotData :=
  data.foldl (mergeStep key) ([], heap)

/-- collect_data.py:336-341 `filter`. -/
def filterData (predicate : DecodingProblemDesc → Bool) (data : ProblemShotData) : ProblemShotData :=
  data.foldl (fun result kv => if predicate kv.1 then PyDict.set result kv.1 kv.2 else result) []

/-- The keyword arguments of `with_changes` (collect_data.py:58-69). -/
structure DescChanges where
  data_width : Option Int := none
  data_height : Option Int := none
  code_distance : Option Int := none
  num_qubits : Option Int := none
  rounds : Option Int := none
  noise : Option Rat := none
  circuit_style : Option String := none
  preserved_observable : Option String := none
  decoder : Option String := none

/-- collect_data.py:58-80 `with_changes`. -/
def DecodingProblemDesc.withChanges (d : DecodingProblemDesc) (c : DescChanges) : DecodingProblemDesc :=
  { data_width := match c.data_width with | none => d.data_width | some x => x
    data_height := match c.data_height with | none => d.data_height | some x => x
    code_distance := match c.code_distance with | none => d.code_distance | some x => x
    num_qubits := match c.num_qubits with | none => d.num_qubits | some x => x
    rounds := match c.rounds with | none => d.rounds | some x => x
    noise := match c.noise with | none => d.noise | some x => x
    circuit_style := match c.circuit_style with | none => d.circuit_style | some x => x
    preserved_observable := match c.preserved_observable with | none => d.preserved_observable | some x => x
    decoder := match c.decoder with | none => d.decoder | some x => x }

end Honeycomb
