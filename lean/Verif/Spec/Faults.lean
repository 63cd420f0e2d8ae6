import Verif.Spec.Frame

/-!
# Faulty executions

Between any two instructions of a circuit (and before the first and after the last) a single-qubit Pauli
fault may happen on one of the qubits `S`: the frame of that qubit is multiplied by an arbitrary Pauli.
`FaultyRuns S F l rec F' n`: starting in frame `F`, executing `l` with `n` such faults can report the flips
`rec` and end in frame `F'`.
-/

namespace Honeycomb

/-- The runs of a sequence of instructions with `n` single-qubit faults on qubits of `S`. -/
inductive FaultyRuns (S : Nat → Prop) : Frame → List Instr → List (ZMod 2) → Frame → Nat → Prop
  | nil (F : Frame) : FaultyRuns S F [] [] F 0
  | step {F F1 F' : Frame} {i : Instr} {l : List Instr} {r1 r2 : List (ZMod 2)} {n : Nat} :
      Runs F i.actions r1 F1 → FaultyRuns S F1 l r2 F' n → FaultyRuns S F (i :: l) (r1 ++ r2) F' n
  | fault {F F' : Frame} {l : List Instr} {rec : List (ZMod 2)} {n : Nat} (q : Nat) (p : Pauli) :
      S q → FaultyRuns S (F.mul q p) l rec F' n → FaultyRuns S F l rec F' (n + 1)

/-- `rec` is a record of measurement flips that `l` can produce when `n` single-qubit faults hit qubits of `S`. -/
def CanRecordWith (S : Nat → Prop) (n : Nat) (l : List Instr) (rec : List (ZMod 2)) : Prop :=
  ∃ F F', StartFrame F ∧ FaultyRuns S F l rec F' n

end Honeycomb
