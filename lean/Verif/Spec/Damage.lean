import Verif.Spec.Faults
import Verif.Spec.Noise
import Verif.Model.Layout

/-!
# Damage and noise events

`NoisyRuns F l rec F' n`: executing `l` while its noise channels make `n` errors. One error of a noise channel multiplies the frame by
a Pauli that the channel can draw: X or Z on one target (`X_ERROR`, `Z_ERROR`), any Pauli on one target (`DEPOLARIZE1`) or on one pair
of targets (`DEPOLARIZE2`), the given product (`E`). One error of a measurement with a probability argument flips one of its results.
-/

namespace Honeycomb

/-- The groups of qubits on which a noise channel acts, one error each. -/
def Instr.channels (i : Instr) : List (List Nat) :=
  match i.gate with
  | .DEPOLARIZE1 | .X_ERROR | .Z_ERROR => i.qubits.map fun q => [q]
  | .DEPOLARIZE2 => (pairs i.qubits).map fun x => [x.1, x.2]
  | .E => [i.qubits]
  | _ => []

/-- A probability argument that is not zero. -/
def Arg.positive : Arg → Prop
  | .lit p => 0 < p
  | .indep p _ => 0 < p

/-- The product of the Paulis of targets. -/
def targetsPauli : List Target → Frame
  | [] => fun _ => 0
  | .pauli b q :: l => (targetsPauli l).mul q b.pauli
  | _ :: l => targetsPauli l

/-- The Paulis that a noise channel can draw. -/
def Instr.Draws (i : Instr) (P : Frame) : Prop :=
  (∃ a ∈ i.args, a.positive) ∧
  match i.gate with
  | .X_ERROR => ∃ q ∈ i.qubits, P = Frame.mul (fun _ => 0) q Basis.X.pauli
  | .Z_ERROR => ∃ q ∈ i.qubits, P = Frame.mul (fun _ => 0) q Basis.Z.pauli
  | .DEPOLARIZE1 => ∃ q ∈ i.qubits, ∃ b : Basis, P = Frame.mul (fun _ => 0) q b.pauli
  | .DEPOLARIZE2 => ∃ x ∈ pairs i.qubits, ∃ p r : Pauli, (p ≠ 0 ∨ r ≠ 0) ∧ P = Frame.mul (Frame.mul (fun _ => 0) x.1 p) x.2 r
  | .E => P = targetsPauli i.targets
  | _ => False

/-- The runs of a sequence of instructions whose noise channels make `n` errors. -/
inductive NoisyRuns : Frame → List Instr → List (ZMod 2) → Frame → Nat → Prop
  | nil (F : Frame) : NoisyRuns F [] [] F 0
  | step {F F1 F' : Frame} {i : Instr} {l : List Instr} {r1 r2 : List (ZMod 2)} {n : Nat} :
      Runs F i.actions r1 F1 → NoisyRuns F1 l r2 F' n → NoisyRuns F (i :: l) (r1 ++ r2) F' n
  | error {F F' : Frame} {i : Instr} {l : List Instr} {rec : List (ZMod 2)} {n : Nat} (P : Frame) :
      i.Draws P → NoisyRuns (F + P) (i :: l) rec F' n → NoisyRuns F (i :: l) rec F' (n + 1)
  | flip {F F' : Frame} {i : Instr} {l : List Instr} {rec : List (ZMod 2)} {n : Nat} (t : Nat) :
      (∃ a ∈ i.args, a.positive) → t < i.measures.length → NoisyRuns F (i :: l) rec F' n →
      NoisyRuns F (i :: l) (rec.modify t (· + 1)) F' (n + 1)

/-- `rec` is a record of measurement flips that sampling `l` can produce with `n` errors drawn from its noise channels. -/
def CanSample (n : Nat) (l : List Instr) (rec : List (ZMod 2)) : Prop :=
  ∃ F F', StartFrame F ∧ NoisyRuns F l rec F' n

namespace HoneycombLayout

/-- The data qubits that each result of the record is about: the ends of the measured edge, sub-round by sub-round, then every data
qubit by itself. -/
def resultQubits (lay : HoneycombLayout) : List (List Pt) :=
  ((List.range lay.sub_rounds.toNat).flatMap fun k : Nat => (lay.round_edges k).map fun e => [e.left, e.right]) ++
    lay.data_qubit_coords.map fun q => [q]

/-- The measurement ancilla of an edge: the qubit at its centre, and for "EM3" and "EM3_v2" the first qubit after the data qubits. -/
def ancilla (lay : HoneycombLayout) (e : Edge) : Nat :=
  if lay.style = "EM3" ∨ lay.style = "EM3_v2" then (lay.data_width * lay.data_height).toNat else lay.idx e.center

/-- The circuit uses ancillas for the edges. -/
def HasAncillas (lay : HoneycombLayout) : Prop := lay.style ≠ "EM3" ∧ lay.style ≠ "EM3_v2"

/-- The qubits inside the region `B`: its data qubits, and the ancillas of edges with both ends in `B`. -/
def Inside (lay : HoneycombLayout) (B : Pt → Prop) (i : Nat) : Prop :=
  (∃ q ∈ lay.data_qubit_coords, B q ∧ i = lay.idx q) ∨
  (lay.HasAncillas ∧ ∃ e ∈ lay.all_edges, B e.left ∧ B e.right ∧ i = lay.idx e.center)

/-- `rec` is a record that `l` can produce when everything inside the region `B` goes wrong: any number of Pauli faults hit qubits inside
`B` at any time, and of the results that are about a data qubit of `B` any may be reported wrongly. -/
def DamagedRecord (lay : HoneycombLayout) (B : Pt → Prop) (l : List Instr) (rec : List (ZMod 2)) : Prop :=
  ∃ m rec0, CanRecordWith (lay.Inside B) m l rec0 ∧ rec.length = rec0.length ∧
    ∀ t : Nat, rec[t]? ≠ rec0[t]? → ∃ qs ∈ lay.resultQubits[t]?, ∃ q ∈ qs, B q

end HoneycombLayout
end Honeycomb
