import Verif.Model.Layout

/-!
# Stim circuits as data

The part of the `stim` API the package relies on: circuits are sequences of instructions and `REPEAT`
blocks. Instruction names are canonical (`CNOT`, `ZCX` are `CX`; `H_XZ` is `H`; `CORRELATED_ERROR` is
`E`). Stim may merge two adjacent instructions with the same name and arguments into one
instruction with the concatenated targets; the model keeps them separate (same meaning).
-/

namespace Honeycomb

/-- Gate names. `other` stands for any gate not named in the package. -/
inductive Gate where
  | QUBIT_COORDS | TICK | DETECTOR | OBSERVABLE_INCLUDE | SHIFT_COORDS
  | R | RX | RY | M | MX | MY | MPP
  | H | H_YZ | I | C_XYZ | C_ZYX
  | CX | CY | CZ | XCX | XCY | XCZ | YCX | YCY | YCZ
  | DEPOLARIZE1 | DEPOLARIZE2 | X_ERROR | Z_ERROR | E
  | other (name : String)
deriving DecidableEq, Repr

/-- `stim.GateTarget`s. -/
inductive Target where
  | q (i : Nat)                       -- plain qubit target
  | record (k : Int)                  -- rec[k]
  | pauli (b : Basis) (i : Nat)       -- Xi / Yi / Zi
  | comb                              -- combiner `*`
deriving DecidableEq, Repr

/-- A gate argument. `indep p n` stands for the real number
`0.5 - 0.5*(1-p)**(1/2**(n-1))` of noise.py:218, which is irrational in general. -/
inductive Arg where
  | lit (q : Rat)
  | indep (mix : Rat) (n : Nat)
deriving DecidableEq, Repr

/-- `stim.CircuitInstruction`. -/
structure Instr where
  gate : Gate
  targets : List Target := []
  args : List Arg := []
deriving DecidableEq, Repr

/-- `stim.Circuit`: a sequence of instructions and `REPEAT` blocks. -/
inductive Circuit where
  | nil
  | op (i : Instr) (rest : Circuit)
  | rep (n : Nat) (body rest : Circuit)
deriving Repr, DecidableEq

namespace Circuit

/-- `circuit + circuit` and `circuit += circuit`. -/
def append : Circuit → Circuit → Circuit
  | nil, d => d
  | op i c, d => op i (append c d)
  | rep n b c, d => rep n b (append c d)

instance : Append Circuit := ⟨append⟩

/-- A circuit made of plain instructions. -/
def ofList : List Instr → Circuit
  | [] => nil
  | i :: l => op i (ofList l)

/-- `circuit * n`: nothing for 0, the circuit itself for 1, a `REPEAT` block otherwise (if the circuit is a
single `REPEAT` block, stim multiplies its repeat count). -/
def mul (c : Circuit) (n : Nat) : Circuit :=
  if n = 0 then nil
  else if n = 1 then c
  else match c with
    | rep m b nil => rep (m * n) b nil
    | c => rep n c nil

/-- The executed instruction sequence: every `REPEAT` block unrolled. -/
def flatten : Circuit → List Instr
  | nil => []
  | op i c => i :: flatten c
  | rep n b c => (List.replicate n (flatten b)).flatten ++ flatten c

/-- `len(circuit) == 0`. -/
def isEmpty : Circuit → Bool
  | nil => true
  | _ => false

end Circuit

/-- The qubit a target refers to (qubit and Pauli targets). -/
def Target.qubit? : Target → Option Nat
  | .q i => some i
  | .pauli _ i => some i
  | _ => none

/-- The qubits among the targets of an instruction. -/
def Instr.qubits (i : Instr) : List Nat := i.targets.filterMap Target.qubit?

/-- 1 + the largest qubit index in a list, 0 if empty. -/
def qubitBound (l : List Nat) : Nat := l.foldr (fun a b => max (a + 1) b) 0

/-- `circuit.num_qubits`. -/
def Circuit.num_qubits : Circuit → Nat
  | .nil => 0
  | .op i c => max (qubitBound i.qubits) c.num_qubits
  | .rep _ b c => max b.num_qubits c.num_qubits

/-- The Pauli products of an `MPP` instruction: targets joined by combiners. -/
def mppGroups : List Target → List (List (Basis × Nat))
  | [] => []
  | .pauli b i :: .comb :: l =>
    match mppGroups l with
    | g :: gs => ((b, i) :: g) :: gs
    | [] => [[(b, i)]]
  | .pauli b i :: l => [(b, i)] :: mppGroups l
  | _ :: l => mppGroups l

/-- The number of measurement results an instruction appends to the record. -/
def Instr.measureCount (i : Instr) : Nat :=
  match i.gate with
  | .M | .MX | .MY => i.targets.length
  | .MPP => (mppGroups i.targets).length
  | _ => 0

/-- `circuit.num_measurements`. -/
def Circuit.num_measurements : Circuit → Nat
  | .nil => 0
  | .op i c => i.measureCount + c.num_measurements
  | .rep n b c => n * b.num_measurements + c.num_measurements

/-- `circuit.num_detectors`. -/
def Circuit.num_detectors : Circuit → Nat
  | .nil => 0
  | .op i c => (if i.gate = .DETECTOR then 1 else 0) + c.num_detectors
  | .rep n b c => n * b.num_detectors + c.num_detectors

/-- The observable indices (first argument of `OBSERVABLE_INCLUDE`). -/
def Instr.obsBound (i : Instr) : Nat :=
  match i.gate, i.args with
  | .OBSERVABLE_INCLUDE, .lit q :: _ => (q.num.toNat) + 1
  | _, _ => 0

/-- `circuit.num_observables`. -/
def Circuit.num_observables : Circuit → Nat
  | .nil => 0
  | .op i c => max i.obsBound c.num_observables
  | .rep _ b c => max b.num_observables c.num_observables

/-! ### Instruction constructors used by the generator (`append_operation` with plain targets) -/

/-- `append_operation(gate, qubits)`. -/
def Instr.on (g : Gate) (qs : List Nat) : Instr := { gate := g, targets := qs.map .q }

/-- `append_operation("TICK", [])`. -/
def Instr.tick : Instr := { gate := .TICK }

/-- `append_operation("DETECTOR", targets, coords)`. -/
def Instr.detector (recs : List Int) (coords : List Rat) : Instr :=
  { gate := .DETECTOR, targets := recs.map .record, args := coords.map .lit }

/-- `append_operation("OBSERVABLE_INCLUDE", targets, index)`. -/
def Instr.observable (recs : List Int) (index : Nat) : Instr :=
  { gate := .OBSERVABLE_INCLUDE, targets := recs.map .record, args := [.lit index] }

/-- `append_operation("SHIFT_COORDS", [], shift)`. -/
def Instr.shift (s : List Rat) : Instr := { gate := .SHIFT_COORDS, args := s.map .lit }

end Honeycomb
