import Verif.Model.Collect
import Verif.Model.Lambda

/-!
# Model of the collection script `src/paper/main_collect_all.py`

The messages to stderr (lines 53 and 55) are not modelled.
-/

namespace Honeycomb

/-- `l[i]` for a Python list. -/
def pyIndex {α : Type} (l : List α) (i : Int) : Except PyErr α :=
  match (if i < 0 then if i + l.length < 0 then none else l[(i + l.length).toNat]? else l[i.toNat]?) with
  | some x => .ok x
  | none => .error .indexError

/-- `a // b` for Python integers. -/
def pyFloorDiv (a b : Int) : Except PyErr Int := if b = 0 then .error .zeroDivision else .ok (a.fdiv b)

/-- The keyword arguments of `collect_data` (main_collect_all.py:42-49); `has_out` is `out_path is not None`. -/
structure ScriptArgs where
  surface_dir : Option String := none
  problem_id : Option Int := none
  case_reduction : Int
  has_out : Bool
  max_shots : Option Int := none
  max_errors : Option Int := none
  max_batch_size : Option Int := none

/-- main_collect_all.py:25-39 `main`: the parsed command line (`none`: option not given) as arguments of `collect_data`. -/
def mainArgs (surface_dir : Option String) (problem_id case_reduction : Option Int) (has_out : Bool)
    (max_shots max_errors max_batch_size : Option Int) : ScriptArgs :=
  { surface_dir := surface_dir
    problem_id := problem_id
    case_reduction := match case_reduction with | none => 1 | some c => if c = 0 then 1 else c
    has_out := has_out
    max_shots := max_shots
    max_errors := max_errors
    max_batch_size := max_batch_size }

/-- main_collect_all.py:50-52, 121-123: the descriptions of the problems. Without a directory the default one is used. -/
def scriptDescs (surface_dir : Option String) : List DecodingProblemDesc :=
  honeycombDescs ++ (if surface_dir = some "-" ∨ surface_dir = some "" then [] else surfaceCodeDescs)

/-- main_collect_all.py:54-56. -/
def selectProblems (problems : List DecodingProblem) : Option Int → Except PyErr (List DecodingProblem)
  | none => .ok problems
  | some i => (pyIndex problems i).map fun p => [p]

/-- main_collect_all.py:67-76: the arguments of `collect_simulated_experiment_data`, evaluated from top to bottom. -/
def ScriptArgs.collectArgs (s : ScriptArgs) : Except PyErr CollectArgs := do
  let max_shots ← match s.max_shots with
    | some m => pure m
    | none => pyFloorDiv (10 ^ 8) s.case_reduction
  let min_errors ← match s.max_errors with
    | some m => pure m
    | none => pyFloorDiv (10 ^ 3) s.case_reduction
  return { min_shots := 25, max_shots := max_shots, max_batch := some (s.max_batch_size.getD (2 ^ 15)), max_sample_std_dev := 1,
           min_seen_logical_errors := min_errors, has_out := s.has_out, discard_previous_data := false }

/-- main_collect_all.py:42-76 `collect_data`, started with the given file. Sampling and decoding are an oracle. -/
def collectData (F : FloatText) (s : ScriptArgs) (sample : DecodingProblemDesc → Nat → Int → Except PyErr (Int × Rat)) (fuel : Nat)
    (file : Option Text) : Option (List Eff × Option PyErr) :=
  match selectProblems ((scriptDescs s.surface_dir).map fun d => ⟨d, sample d⟩) s.problem_id with
  | .error e => some ([], some e)
  | .ok problems =>
    match s.collectArgs with
    | .error e => some ([], some e)
    | .ok a => collect F a fuel problems file

end Honeycomb
