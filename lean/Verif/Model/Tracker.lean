import Mathlib.Data.Finset.SymmDiff
import Mathlib.Data.Finset.Sort
import Mathlib.Logic.Function.Basic
import Verif.Model.Py

/-!
# Model of `src/measure_tracker.py`

The key type `κ` stands for the hashable Python values that are neither `None` nor `Prev`; the
corresponding assertions (lines 30-31, 38-39, 43-44) are therefore built into the types.
-/

namespace Honeycomb

/-- A key as passed to the tracker's query methods: a plain key or a `Prev` (measure_tracker.py:9-16).
Offsets are natural numbers in the model (the code uses 0 and 1). -/
inductive TKey (κ : Type) where
  | plain (k : κ)
  | prev (k : κ) (offset : Nat)
deriving DecidableEq, Repr

/-- measure_tracker.py:11-16 `Prev.__init__`: wrapping a `Prev` adds the offsets. -/
def TKey.mkPrev {κ : Type} (v : TKey κ) (offset : Nat := 1) : TKey κ :=
  match v with
  | .plain k => .prev k offset
  | .prev k o => .prev k (offset + o)

/-- measure_tracker.py:22-26 `MeasurementTracker`. `history k` lists the entries of `k` with the most recent
one **first** (Python appends at the end and indexes from the end). `none` is Python's `None`
(an obstacle). The `defaultdict` is a total function with default `[]`. -/
structure Tracker (κ : Type) where
  history : κ → List (Option (Finset Nat))
  t : Nat

namespace Tracker
variable {κ : Type} [DecidableEq κ]

/-- measure_tracker.py:24-26 `__init__`. -/
def empty : Tracker κ := ⟨fun _ => [], 0⟩

/-- `self.history[key].append(v)`. -/
def push (m : Tracker κ) (k : κ) (v : Option (Finset Nat)) : Tracker κ :=
  ⟨Function.update m.history k (v :: m.history k), m.t⟩

/-- One iteration of the loop of measure_tracker.py:29-33. -/
def addMeasurement (m : Tracker κ) (k : κ) : Tracker κ :=
  ⟨(m.push k (some {m.t})).history, m.t + 1⟩

/-- measure_tracker.py:28-33 `add_measurements`. -/
def addMeasurements (m : Tracker κ) (keys : List κ) : Tracker κ := keys.foldl addMeasurement m

/-- measure_tracker.py:35-40 `add_dummies`. -/
def addDummies (m : Tracker κ) (keys : List κ) (obstacle : Bool := false) : Tracker κ :=
  keys.foldl (fun m k => m.push k (if obstacle then none else some ∅)) m

/-- Lines 50-56: the entry a key refers to; the assertion of line 55 fails if there is none. -/
def lookup (m : Tracker κ) (k : TKey κ) : Except PyErr (Option (Finset Nat)) :=
  let (key, t) := match k with
    | .plain k => (k, 1)
    | .prev k o => (k, 1 + o)
  match (m.history key)[t - 1]? with
  | none => .error .assertion
  | some v => .ok v

/-- measure_tracker.py:47-60 `measurement_time_set`, the loop with accumulator `result`. -/
def timeSetFrom (m : Tracker κ) (result : Finset Nat) : List (TKey κ) → Except PyErr (Option (Finset Nat))
  | [] => .ok (some result)
  | k :: ks =>
    match m.lookup k with
    | .error e => .error e
    | .ok none => .ok none
    | .ok (some v) => m.timeSetFrom (symmDiff result v) ks

/-- measure_tracker.py:47-60 `measurement_time_set`. -/
def timeSet (m : Tracker κ) (keys : List (TKey κ)) : Except PyErr (Option (Finset Nat)) :=
  m.timeSetFrom ∅ keys

/-- measure_tracker.py:42-45 `add_group`. -/
def addGroup (m : Tracker κ) (keys : List (TKey κ)) (groupKey : κ) : Except PyErr (Tracker κ) :=
  match m.timeSet keys with
  | .error e => .error e
  | .ok v => .ok (m.push groupKey v)

/-- Lines 65-68: the time the record offsets are relative to. Unpacking `None` or a set that does not have
exactly one element fails. -/
def refTime (m : Tracker κ) : Option κ → Except PyErr Nat
  | none => .ok m.t
  | some k =>
    match m.history k with
    | [] => .error .indexError
    | none :: _ => .error .typeError
    | some s :: _ =>
      match s.sort (· ≤ ·) with
      | [x] => .ok (x + 1)
      | _ => .error .valueError

/-- measure_tracker.py:62-72 `get_record_targets`. A record target is its (negative) offset; `stim.target_rec`
raises ValueError on a non-negative offset. -/
def recordTargets (m : Tracker κ) (keys : List (TKey κ)) (after : Option κ := none) :
    Except PyErr (Option (List Int)) :=
  match m.refTime after with
  | .error e => .error e
  | .ok t0 =>
    match m.timeSet keys with
    | .error e => .error e
    | .ok none => .ok none
    | .ok (some s) =>
      let offs := (s.sort (· ≤ ·)).map fun t : Nat => (t : Int) - t0
      if offs.all (· < 0) then .ok (some offs) else .error .valueError

end Tracker
end Honeycomb
