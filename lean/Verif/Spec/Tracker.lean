import Verif.Model.Circuit

/-!
# Specification vocabulary for the measurement tracker

A user of `MeasurementTracker` sees, per key, a list of entries in the order they were added. The
entry a query key refers to is counted from the end of that list.
-/

namespace Honeycomb

variable {κ : Type} [DecidableEq κ]

/-- The entries of a key in chronological order (`tracker.history[key]` in Python). -/
def Tracker.entries (m : Tracker κ) (k : κ) : List (Option (Finset Nat)) := (m.history k).reverse

/-- The key a query key is about. -/
def TKey.base : TKey κ → κ
  | .plain k => k
  | .prev k _ => k

/-- How many entries before the latest one a query key refers to. -/
def TKey.back : TKey κ → Nat
  | .plain _ => 0
  | .prev _ o => o

/-- `k` refers to the entry `v`: there are `back` entries after `v`. -/
def Selects (m : Tracker κ) (k : TKey κ) (v : Option (Finset Nat)) : Prop :=
  ∃ before after, m.entries k.base = before ++ v :: after ∧ after.length = k.back

/-- `k` refers to an entry that does not exist. -/
def Missing (m : Tracker κ) (k : TKey κ) : Prop := (m.entries k.base).length ≤ k.back

/-- The calls that change a tracker. -/
inductive TOp (κ : Type) where
  | measure (keys : List κ)
  | dummies (keys : List κ) (obstacle : Bool)
  | group (keys : List (TKey κ)) (groupKey : κ)

/-- One call. -/
def TOp.apply (m : Tracker κ) : TOp κ → Except PyErr (Tracker κ)
  | .measure ks => .ok (m.addMeasurements ks)
  | .dummies ks o => .ok (m.addDummies ks o)
  | .group ks g => m.addGroup ks g

/-- A tracker that some sequence of successful calls on a fresh tracker leads to. -/
inductive Reachable : Tracker κ → Prop where
  | init : Reachable Tracker.empty
  | step {m m' : Tracker κ} (op : TOp κ) : Reachable m → op.apply m = .ok m' → Reachable m'

/-- The number of measurements a call makes. -/
def TOp.measured : TOp κ → Nat
  | .measure ks => ks.length
  | _ => 0

/-- Running a sequence of calls. -/
def TOp.run (m : Tracker κ) : List (TOp κ) → Except PyErr (Tracker κ)
  | [] => .ok m
  | op :: ops =>
    match op.apply m with
    | .error e => .error e
    | .ok m' => run m' ops

end Honeycomb
