import Verif.Spec.Noise

/-!
# Time steps of an unrolled circuit

A time step is a maximal run of instructions between `TICK`s.
-/

namespace Honeycomb

/-- The time steps of an instruction sequence. -/
def timeSteps : List Instr → List (List Instr)
  | [] => [[]]
  | i :: l =>
    if i.gate = .TICK then [] :: timeSteps l
    else
      match timeSteps l with
      | s :: ss => (i :: s) :: ss
      | [] => [[i]]

/-- The qubits the operations of a time step act on, with multiplicity (annotations do not act). -/
def actedOn (s : List Instr) : List Nat :=
  (s.filter fun i => decide (kind i.gate ≠ .annotation)).flatMap Instr.qubits

/-- All qubits the operations of an instruction sequence act on. -/
def usedQubits (l : List Instr) : List Nat := actedOn l

end Honeycomb
