import Verif.Model.Noise

/-!
# Specification vocabulary for the noise models

What a user expects of a noise model, stated on unrolled instruction sequences: which instructions are
noise, which channel belongs to which operation, what a time step is.
-/

namespace Honeycomb

/-- The noise channels of stim that the package uses. -/
def isNoise : Gate → Bool
  | .DEPOLARIZE1 | .DEPOLARIZE2 | .X_ERROR | .Z_ERROR | .E => true
  | _ => false

/-- Remove the noise of an instruction sequence: drop noise channels and the flip probability of `MPP`. -/
def removeNoise (l : List Instr) : List Instr :=
  (l.filter fun i => !isNoise i.gate).map fun i => if i.gate = .MPP then { i with args := [] } else i

/-- All operations that occur in a circuit, at any depth (also in a block that is repeated 0 times). -/
def Circuit.ops : Circuit → List Instr
  | .nil => []
  | .op i c => i :: c.ops
  | .rep _ b c => b.ops ++ c.ops

/-- `TICK` takes no targets and arguments (stim enforces this). -/
def TickOK (c : Circuit) : Prop := ∀ i ∈ c.ops, i.gate = .TICK → i = .tick

/-- The input circuit carries no noise of its own. -/
def Noiseless (c : Circuit) : Prop := ∀ i ∈ c.ops, isNoise i.gate = false ∧ (i.gate = .MPP → i.args = [])

/-- Every `MPP` measures products of exactly two Paulis. -/
def PairMPP (c : Circuit) : Prop :=
  ∀ i ∈ c.ops, i.gate = .MPP → ∃ gs : List ((Basis × Nat) × (Basis × Nat)),
    i.targets = gs.flatMap fun g => [.pauli g.1.1 g.1.2, .comb, .pauli g.2.1 g.2.2]

/-- A circuit as stim builds it: repeat counts are at least 2 and a block does not consist of a single
block (stim would merge them). -/
def Circuit.Normal : Circuit → Prop
  | .nil => True
  | .op _ c => c.Normal
  | .rep n b c => 2 ≤ n ∧ (∀ m b', b ≠ .rep m b' .nil) ∧ b.Normal ∧ c.Normal

/-! ## The channel of each operation -/

/-- What an operation is, as far as noise is concerned. For resets and measurements: the channel that
flips the reset state / measurement result. -/
inductive Kind where
  | clifford1 | clifford2 | reset (flip : Gate) | measure (flip : Gate) | parity | annotation | unknown
deriving DecidableEq

def kind : Gate → Kind
  | .C_XYZ | .C_ZYX | .H | .H_YZ | .I => .clifford1
  | .CX | .CY | .CZ | .XCX | .XCY | .XCZ | .YCX | .YCY | .YCZ => .clifford2
  | .R => .reset .X_ERROR     -- X flips |0>
  | .RX => .reset .Z_ERROR    -- Z flips |+>
  | .RY => .reset .X_ERROR    -- X flips |i>
  | .M => .measure .X_ERROR
  | .MX => .measure .Z_ERROR
  | .MY => .measure .X_ERROR
  | .MPP => .parity
  | .OBSERVABLE_INCLUDE | .DETECTOR | .SHIFT_COORDS | .QUBIT_COORDS | .TICK => .annotation
  | _ => .unknown

/-- The strength a model assigns to an operation: its own rate if it is listed, else the rate of its
class; annotations have strength 0. `none`: unsupported. -/
def NoiseModel.rate (nm : NoiseModel) (g : Gate) : Option Rat :=
  (nm.noisy_gates g) <|>
  (if kind g = .clifford1 then nm.any_clifford_1 else none) <|>
  (if kind g = .clifford2 then nm.any_clifford_2 else none) <|>
  (if kind g = .annotation then some 0 else none)

/-- A noise channel. -/
def channel (g : Gate) (ts : List Target) (p : Rat) : Instr := { gate := g, targets := ts, args := [.lit p] }

/-- The noise before an operation of strength `p`. -/
def noiseBefore (nm : NoiseModel) (i : Instr) (p : Rat) : List Instr :=
  if p ≤ 0 then [] else
  match kind i.gate with
  | .measure flip => [channel flip i.targets p]
  | .parity =>
    if nm.use_correlated_parity_measurement_errors then []
    else [channel .DEPOLARIZE2 (i.qubits.map .q) p]
  | _ => []

/-- The operation itself; a noisy parity measurement gets a flip probability or (correlated noise) is expanded. -/
def noisyCore (nm : NoiseModel) (ancilla : Nat) (i : Instr) (p : Rat) : List Instr :=
  if p ≤ 0 then [i] else
  match kind i.gate with
  | .parity =>
    if nm.use_correlated_parity_measurement_errors then
      (mppGroups i.targets).flatMap fun
        | [(b1, q1), (b2, q2)] => parityMeasurementWithCorrelatedNoise b1 q1 b2 q2 ancilla p
        | _ => []
    else [{ i with args := [.lit p] }]
  | _ => [i]

/-- The noise after an operation of strength `p`. -/
def noiseAfter (i : Instr) (p : Rat) : List Instr :=
  if p ≤ 0 then [] else
  match kind i.gate with
  | .clifford1 => [channel .DEPOLARIZE1 i.targets p]
  | .clifford2 => [channel .DEPOLARIZE2 i.targets p]
  | .reset flip => [channel flip i.targets p]
  | _ => []

/-- The operations of a time step with their own noise: first all noise that comes before, then the operations in
their order, then all noise that comes after. -/
def noisyOps (nm : NoiseModel) (ancilla : Nat) (ops : List Instr) : List Instr :=
  (ops.flatMap fun i => noiseBefore nm i ((nm.rate i.gate).getD 0)) ++
  (ops.flatMap fun i => noisyCore nm ancilla i ((nm.rate i.gate).getD 0)) ++
  (ops.flatMap fun i => noiseAfter i ((nm.rate i.gate).getD 0))

/-! ## Time steps -/

/-- The unrolled circuit with every time step `ops` (a maximal run of operations without `TICK` or block
boundary) replaced by `f ancilla ops`. `acc` holds the operations of the current time step. The
ancilla is the first qubit index not used by the innermost enclosing block. -/
def perStep (f : Nat → List Instr → List Instr) : Circuit → Nat → List Instr → List Instr
  | .nil, a, acc => f a acc
  | .op i c, a, acc =>
    if i.gate = .TICK then f a acc ++ [.tick] ++ perStep f c a []
    else perStep f c a (acc ++ [i])
  | .rep n b c, a, acc =>
    f a acc ++ (List.replicate n (perStep f b b.num_qubits [])).flatten ++ perStep f c a []

/-- A qubit is touched in a time step if an operation other than an annotation targets it. -/
def Touched (ops : List Instr) (q : Nat) : Prop :=
  ∃ i ∈ ops, kind i.gate ≠ .annotation ∧ q ∈ i.qubits

/-- A qubit is measured or reset in a time step (by a single-qubit measurement or a reset). -/
def MeasuredOrReset (ops : List Instr) (q : Nat) : Prop :=
  ∃ i ∈ ops, ((∃ f, kind i.gate = .measure f) ∨ ∃ f, kind i.gate = .reset f) ∧ q ∈ i.qubits

/-- `l` consists of single-qubit depolarizing channels of strength `p` that hit every qubit satisfying `S`
exactly once and no other qubit. -/
def DepolarizesExactly (p : Rat) (S : Nat → Prop) (l : List Instr) : Prop :=
  (∀ i ∈ l, i.gate = .DEPOLARIZE1 ∧ i.args = [.lit p] ∧ i.targets = i.qubits.map .q) ∧
  (∀ q, S q → (l.flatMap Instr.qubits).count q = 1) ∧
  (∀ q, ¬ S q → (l.flatMap Instr.qubits).count q = 0)

/-! ## The measurement record -/

/-- The annotations of an instruction sequence that refer to measurements, each with the number of measurements
made before it (`k` counts those before the start). -/
def recordUses (k : Nat) : List Instr → List (Instr × Nat)
  | [] => []
  | i :: l =>
    if i.gate = .DETECTOR ∨ i.gate = .OBSERVABLE_INCLUDE then (i, k) :: recordUses (k + i.measureCount) l
    else recordUses (k + i.measureCount) l

end Honeycomb
