import Verif.Spec.Noise

/-!
# Annotations along the measurement record

`timeline` lists the annotations that matter for detectors and observables, each with the number of
measurements made before it. `detectorCoords` gives every detector its absolute coordinates, with
stim's semantics of `SHIFT_COORDS`.
-/

namespace Honeycomb

/-- Annotations that declare or position detectors and observables. -/
def isMark (i : Instr) : Bool :=
  match i.gate with
  | .DETECTOR | .OBSERVABLE_INCLUDE | .SHIFT_COORDS => true
  | _ => false

/-- The marks of an instruction sequence, each with the number of measurements before it (`k` of them
before the start). -/
def timeline (k : Nat) : List Instr → List (Instr × Nat)
  | [] => []
  | i :: l => if isMark i then (i, k) :: timeline k l else timeline (k + i.measureCount) l

/-- The Pauli products an instruction measures, in record order. -/
def Instr.measures (i : Instr) : List (List (Basis × Nat)) :=
  match i.gate with
  | .M => i.qubits.map fun q => [(.Z, q)]
  | .MX => i.qubits.map fun q => [(.X, q)]
  | .MY => i.qubits.map fun q => [(.Y, q)]
  | .MPP => mppGroups i.targets
  | _ => []

/-- The Pauli products an instruction sequence measures, in record order. -/
def measured (l : List Instr) : List (List (Basis × Nat)) := l.flatMap Instr.measures

/-- The absolute positions in the measurement record that an annotation made after `x.2` measurements refers
to. -/
def recordIndices (x : Instr × Nat) : List Int :=
  x.1.targets.filterMap fun | .record o => some ((x.2 : Int) + o) | _ => none

/-- The numeric arguments of an instruction. -/
def Instr.numbers (i : Instr) : List Rat := i.args.filterMap fun | .lit q => some q | _ => none

/-- The detectors of a timeline with their absolute coordinates: `SHIFT_COORDS` moves the origin of everything
after it. -/
def absoluteCoords (origin : Nat → Rat) : List (Instr × Nat) → List (List Rat × Nat)
  | [] => []
  | (i, n) :: l =>
    match i.gate with
    | .SHIFT_COORDS => absoluteCoords (fun j => origin j + (i.numbers[j]?).getD 0) l
    | .DETECTOR => (i.numbers.mapIdx (fun j x => x + origin j), n) :: absoluteCoords origin l
    | _ => absoluteCoords origin l

/-- The absolute coordinates of all detectors of a sequence, each with the number of measurements made before
it. -/
def detectorCoords (l : List Instr) : List (List Rat × Nat) := absoluteCoords (fun _ => 0) (timeline 0 l)

end Honeycomb
