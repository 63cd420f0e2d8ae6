import Verif.Spec.Pauli
import Verif.Spec.Timeline

/-!
# Stim's Pauli frame semantics

The detector sampler of stim follows a Pauli frame: for every qubit the Pauli (up to sign) by which the
simulated state differs from a reference state. Measurements report whether they are flipped with
respect to the reference. What the reference leaves undetermined is random: the Z part of a freshly reset
qubit, and after a measurement the component of the frame along the measured operator.

`Runs F as rec F'`: starting in frame `F` the actions `as` can report the flips `rec` and end in
frame `F'` (for some values of the random bits), no error being drawn from any noise channel.
-/

namespace Honeycomb

/-- The frame: one Pauli for each qubit. -/
abbrev Frame := Nat → Pauli

/-- Replace the frame of one qubit. -/
def Frame.set (F : Frame) (q : Nat) (p : Pauli) : Frame := fun i => if i = q then p else F i

/-- Multiply the frame of one qubit by a Pauli. -/
def Frame.mul (F : Frame) (q : Nat) (p : Pauli) : Frame := fun i => if i = q then F i + p else F i

/-- What a circuit does, one elementary action at a time. -/
inductive Action where
  | clifford1 (f : Pauli → Pauli) (q : Nat)    -- a single-qubit Clifford gate, by its action on Paulis
  | control (P Q : Basis) (a b : Nat)          -- apply `Q` to `b` if the qubit `a` is in the -1 eigenstate of `P`
  | reset (b : Basis) (q : Nat)
  | measure (P : List (Basis × Nat))           -- measure a product of Paulis

/-- 1 if the frame anticommutes with the product of Paulis. -/
def Frame.flips (F : Frame) (P : List (Basis × Nat)) : ZMod 2 := (P.map fun x => anti (F x.2) x.1.pauli).sum

/-- The frame multiplied by the product of Paulis if `r = 1`. -/
def Frame.kick (F : Frame) (r : ZMod 2) (P : List (Basis × Nat)) : Frame :=
  P.foldl (fun F x => F.mul x.2 (r * x.1.pauli.1, r * x.1.pauli.2)) F

/-- The runs of a sequence of actions. -/
inductive Runs : Frame → List Action → List (ZMod 2) → Frame → Prop
  | nil (F : Frame) : Runs F [] [] F
  | clifford1 {F F' : Frame} {rec as} (f : Pauli → Pauli) (q : Nat) :
      Runs (F.set q (f (F q))) as rec F' → Runs F (.clifford1 f q :: as) rec F'
  | control {F F' : Frame} {rec as} (P Q : Basis) (a b : Nat) :
      -- an error on one side that anticommutes with the operator there spreads to the other side
      Runs ((F.kick (anti (F b) Q.pauli) [(P, a)]).kick (anti (F a) P.pauli) [(Q, b)]) as rec F' →
      Runs F (.control P Q a b :: as) rec F'
  | reset {F F' : Frame} {rec as} (b : Basis) (q : Nat) (r : ZMod 2) :
      Runs ((F.set q 0).kick r [(b, q)]) as rec F' → Runs F (.reset b q :: as) rec F'
  | measure {F F' : Frame} {rec as} (P : List (Basis × Nat)) (r : ZMod 2) :
      Runs (F.kick r P) as rec F' → Runs F (.measure P :: as) (F.flips P :: rec) F'

/-- Consecutive pairs. -/
def pairs : List Nat → List (Nat × Nat)
  | a :: b :: l => (a, b) :: pairs l
  | _ => []

/-- The actions of an instruction. Annotations and noise channels from which no error is drawn do nothing. -/
def Instr.actions (i : Instr) : List Action :=
  match i.gate with
  | .R => i.qubits.map (.reset .Z)
  | .RX => i.qubits.map (.reset .X)
  | .RY => i.qubits.map (.reset .Y)
  | .M | .MX | .MY | .MPP => i.measures.map .measure
  | .H => i.qubits.map (.clifford1 fun p => (p.2, p.1))               -- X ↔ Z
  | .H_YZ => i.qubits.map (.clifford1 fun p => (p.1 + p.2, p.2))      -- Y ↔ Z
  | .C_XYZ => i.qubits.map (.clifford1 fun p => (p.1 + p.2, p.1))     -- X → Y → Z → X
  | .C_ZYX => i.qubits.map (.clifford1 fun p => (p.2, p.1 + p.2))     -- Z → Y → X → Z
  | .CX => (pairs i.qubits).map fun x => .control .Z .X x.1 x.2
  | .CY => (pairs i.qubits).map fun x => .control .Z .Y x.1 x.2
  | .CZ => (pairs i.qubits).map fun x => .control .Z .Z x.1 x.2
  | .XCX => (pairs i.qubits).map fun x => .control .X .X x.1 x.2
  | .XCY => (pairs i.qubits).map fun x => .control .X .Y x.1 x.2
  | .XCZ => (pairs i.qubits).map fun x => .control .X .Z x.1 x.2
  | .YCX => (pairs i.qubits).map fun x => .control .Y .X x.1 x.2
  | .YCY => (pairs i.qubits).map fun x => .control .Y .Y x.1 x.2
  | .YCZ => (pairs i.qubits).map fun x => .control .Y .Z x.1 x.2
  | _ => []

/-- The actions of an instruction sequence. -/
def actions (l : List Instr) : List Action := l.flatMap Instr.actions

/-- Gates whose meaning is given above: everything except unnamed gates. -/
def Gate.known : Gate → Bool
  | .other _ => false
  | _ => true

/-- Every qubit starts in `|0⟩`: its frame has no X part, its Z part is undetermined. -/
def StartFrame (F : Frame) : Prop := ∀ q, (F q).1 = 0

/-- `rec` is a record of measurement flips that sampling `l` can produce when no error is drawn. -/
def CanRecord (l : List Instr) (rec : List (ZMod 2)) : Prop :=
  ∃ F F', StartFrame F ∧ Runs F (actions l) rec F'

/-- Entry `j` of the record; `none` if there is no such measurement. -/
def recordBit (rec : List (ZMod 2)) (j : Int) : Option (ZMod 2) := if 0 ≤ j then rec[j.toNat]? else none

/-- The parity of the measurement flips an annotation refers to; `none` if it refers to a measurement that does
not exist. -/
def flipParity (rec : List (ZMod 2)) (x : Instr × Nat) : Option (ZMod 2) :=
  (recordIndices x).foldr (fun j acc => do
    let a ← acc
    let b ← recordBit rec j
    return b + a) (some 0)

/-- The values of all detectors. -/
def detectorValues (l : List Instr) (rec : List (ZMod 2)) : List (Option (ZMod 2)) :=
  ((timeline 0 l).filter fun x => x.1.gate = .DETECTOR).map (flipParity rec)

/-- The frame of logical observable `k`: the parity of everything included in it. -/
def observableValue (k : Nat) (l : List Instr) (rec : List (ZMod 2)) : Option (ZMod 2) :=
  ((timeline 0 l).filter fun x => x.1.gate = .OBSERVABLE_INCLUDE ∧ x.1.args = [.lit k]).foldr (fun x acc => do
    let a ← acc
    let b ← flipParity rec x
    return b + a) (some 0)

end Honeycomb
