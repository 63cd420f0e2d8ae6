import Mathlib.Algebra.BigOperators.Ring.Finset
import Mathlib.Data.Fintype.Powerset
import Mathlib.Algebra.Ring.Parity
import Verif.Model.Decoding

/-!
# What a detector error model says

Reference description of an unrolled detector error model: each instruction is interpreted at its position, with the
offsets given by all the shift instructions before that position.
-/

namespace Honeycomb

/-- A call of one of the two handlers. -/
inductive DemCall where
  | error (p : Rat) (dets frames : List Nat)
  | coords (det : Nat) (c : List Rat)
deriving DecidableEq, Repr

/-- The `k`-th coordinate by which an instruction shifts the coordinates after it. -/
def DemInstr.coordShift (i : DemInstr) (k : Nat) : Rat :=
  match i with
  | .shift _ a => a.getD k 0
  | _ => 0

/-- The `k`-th coordinate offset in force at position `i`. -/
def coordOffsetAt (l : List DemInstr) (i k : Nat) : Rat := ((l.take i).map fun x => x.coordShift k).sum

/-- The reports due at position `i`: one per component of an error (components are separated by `^`), one per
target of a detector instruction, with absolute ids and coordinates. -/
def callsAt (l : List DemInstr) (i : Nat) : List DemCall :=
  match l[i]? with
  | some (.error p ts) =>
    (ts.splitOn .sep).map fun c => .error p ((demDets c).map (· + detOffsetAt l i)) (demObs c)
  | some (.detector a ids) =>
    ids.map fun n => .coords (n + detOffsetAt l i) (a.mapIdx fun k x => x + coordOffsetAt l i k)
  | _ => []

/-- All reports due for an unrolled model, in order. -/
def demCalls (l : List DemInstr) : List DemCall := (List.range l.length).flatMap (callsAt l)

/-- Perform a call with the given handlers. -/
def DemHandlers.apply {σ : Type} (h : DemHandlers σ) (s : σ) : DemCall → Except PyErr σ
  | .error p dets frames => h.handleError p dets frames s
  | .coords d c => h.handleCoords d c s

/-- The coordinate arguments of an instruction. -/
def DemInstr.coordArgs : DemInstr → List Rat
  | .shift _ a => a
  | .detector a _ => a
  | _ => []

/-- No instruction has more than 100 coordinates (stim allows 16 for detectors of a circuit). -/
def Dem.CoordsFit (m : Dem) : Prop := ∀ i ∈ m.unroll, i.coordArgs.length ≤ 100

/-! ## Errors on an edge -/

/-- A component of an error: probability, detectors, logical frame changes. -/
structure Mechanism where
  p : Rat
  dets : List Nat
  frames : List Nat
deriving DecidableEq, Repr

/-- All error components of a model, in order. -/
def Dem.mechanisms (m : Dem) : List Mechanism :=
  (demCalls m.unroll).filterMap fun | .error p d f => some ⟨p, d, f⟩ | _ => none

/-- The pair of nodes a component connects; a component with one detector is connected to the boundary. -/
def Mechanism.connects (e : Mechanism) (boundary u v : Nat) : Prop :=
  e.dets = [u, v] ∨ e.dets = [v, u] ∨ (e.dets = [u] ∧ v = boundary) ∨ (e.dets = [v] ∧ u = boundary)

instance (e : Mechanism) (b u v : Nat) : Decidable (e.connects b u v) := by unfold Mechanism.connects; infer_instance

/-- The components of non-zero probability that connect `u` and `v`. -/
def Dem.between (m : Dem) (u v : Nat) : List Mechanism :=
  m.mechanisms.filter fun e => e.p ≠ 0 ∧ e.connects m.num_detectors u v

/-- The probability that an odd number of independent events with the given probabilities happen: the sum over all sets
of events of odd size of the probability that exactly those happen. -/
def probOdd (ps : List Rat) : Rat :=
  ∑ s : Finset (Fin ps.length) with Odd s.card, ∏ i, if i ∈ s then ps[i] else 1 - ps[i]

end Honeycomb
