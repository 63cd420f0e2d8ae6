import Verif.Spec.Frame

/-!
# Errors of a noisy parity measurement

An error of a two-qubit parity measurement: a Pauli or nothing on each of the two qubits, and the result
flipped or not. The result is held by an ancilla that is measured in the Z basis, so flipping the result is an X on it.
-/

namespace Honeycomb

structure ParityError where
  first : Option Basis
  second : Option Basis
  flip : Bool
deriving DecidableEq

/-- The targets of the error, as listed in a `CORRELATED_ERROR` instruction. -/
def ParityError.targets (e : ParityError) (q1 q2 ancilla : Nat) : List Target :=
  (match e.first with | some b => [.pauli b q1] | none => []) ++
  (match e.second with | some b => [.pauli b q2] | none => []) ++
  (if e.flip then [.pauli .X ancilla] else [])

/-- The Pauli an error applies to a qubit. -/
def optPauli : Option Basis → Pauli
  | some b => b.pauli
  | none => 0

/-- Apply the Paulis of a `CORRELATED_ERROR`. -/
def drawn (ts : List Target) : List Action :=
  ts.filterMap fun
    | .pauli b q => some (.clifford1 (fun p => p + b.pauli) q)
    | _ => none

/-- The actions of an instruction sequence if exactly the correlated errors satisfying `draw` occur. -/
def actionsDrawing (draw : Instr → Bool) (l : List Instr) : List Action :=
  l.flatMap fun i => if i.gate = .E ∧ draw i = true then drawn i.targets else i.actions

/-- The measurement of the product of two Paulis. -/
def pairMPP (b1 : Basis) (q1 : Nat) (b2 : Basis) (q2 : Nat) : Instr := { gate := .MPP, targets := [.pauli b1 q1, .comb, .pauli b2 q2] }

/-- The frame after applying the error to the two qubits. -/
def ParityError.apply (e : ParityError) (q1 q2 : Nat) (F : Frame) : Frame := (F.mul q1 (optPauli e.first)).mul q2 (optPauli e.second)

/-- Two frames agree except possibly on one qubit. -/
def AgreeOff (a : Nat) (F G : Frame) : Prop := ∀ q, q ≠ a → F q = G q

end Honeycomb
