import Verif.Model.Circuit

/-!
# Model of `src/noise.py`

Probabilities are exact rationals (Python: floats). Stim's own argument checks (a probability argument
must be in `[0, 1]`) are not modelled.
-/

namespace Honeycomb

/-- noise.py:6. -/
def ANY_CLIFFORD_1_OPS : List Gate := [.C_XYZ, .C_ZYX, .H, .H_YZ, .I]
/-- noise.py:7. -/
def ANY_CLIFFORD_2_OPS : List Gate := [.CX, .CY, .CZ, .XCX, .XCY, .XCZ, .YCX, .YCY, .YCZ]
/-- noise.py:8. -/
def RESET_OPS : List Gate := [.R, .RX, .RY]
/-- noise.py:9. -/
def MEASURE_OPS : List Gate := [.M, .MX, .MY]
/-- noise.py:10. -/
def ANNOTATION_OPS : List Gate := [.OBSERVABLE_INCLUDE, .DETECTOR, .SHIFT_COORDS, .QUBIT_COORDS, .TICK]

/-- `name.endswith("X")` for the names in `RESET_OPS` and `MEASURE_OPS` (lines 104, 106). -/
def endsWithX : Gate → Bool
  | .RX => true
  | .MX => true
  | _ => false

/-- noise.py:13-20 `NoiseModel`. The dict `noisy_gates` is a partial function on gate names. -/
structure NoiseModel where
  idle : Rat
  measure_reset_idle : Rat
  noisy_gates : Gate → Option Rat
  any_clifford_1 : Option Rat := none
  any_clifford_2 : Option Rat := none
  use_correlated_parity_measurement_errors : Bool := false

namespace NoiseModel

/-- noise.py:22-33 `NoiseModel.SD6`. -/
def SD6 (p : Rat) : NoiseModel where
  any_clifford_1 := some p
  idle := p
  measure_reset_idle := 0
  noisy_gates
    | .CX => some p
    | .R => some p
    | .M => some p
    | _ => none

/-- noise.py:35-46 `NoiseModel.PC3`. -/
def PC3 (p : Rat) : NoiseModel where
  any_clifford_1 := some p
  any_clifford_2 := some p
  idle := p
  measure_reset_idle := 0
  noisy_gates
    | .R => some p
    | .M => some p
    | _ => none

/-- noise.py:48-60 `NoiseModel.EM3_v1`. -/
def EM3_v1 (p : Rat) : NoiseModel where
  idle := p
  measure_reset_idle := 0
  any_clifford_1 := some p
  noisy_gates
    | .R => some p
    | .M => some p
    | .MPP => some p
    | _ => none

/-- noise.py:62-76 `NoiseModel.EM3_v2`. -/
def EM3_v2 (p : Rat) : NoiseModel where
  any_clifford_1 := some 0
  any_clifford_2 := some 0
  idle := p
  measure_reset_idle := 0
  use_correlated_parity_measurement_errors := true
  noisy_gates
    | .R => some (p / 2)
    | .M => some (p / 2)
    | .MPP => some p
    | _ => none

/-- noise.py:78-89 `NoiseModel.SI1000`. -/
def SI1000 (p : Rat) : NoiseModel where
  any_clifford_1 := some (p / 10)
  idle := p / 10
  measure_reset_idle := 2 * p
  noisy_gates
    | .CZ => some p
    | .R => some (2 * p)
    | .M => some (5 * p)
    | _ => none

end NoiseModel

/-- The controlled operation of lines 243-254 from a Pauli target onto the ancilla. -/
def parityCX (b : Basis) (q ancilla : Nat) : Instr := .on (HoneycombLayout.basisCX b) [q, ancilla]

/-- `["I", X, Y, Z]` of lines 256-257 as optional targets. -/
def pauliOptions (q : Nat) : List (Option Target) :=
  [none, some (.pauli .X q), some (.pauli .Y q), some (.pauli .Z q)]

/-- noise.py:260-273: all non-trivial combinations, in loop order. -/
def correlatedErrors (q1 q2 ancilla : Nat) : List (List Target) :=
  ((pauliOptions q1).flatMap fun a =>
    (pauliOptions q2).flatMap fun b =>
      [none, some (Target.pauli .X ancilla)].map fun c =>
        a.toList ++ b.toList ++ c.toList).filter fun e => decide (e.length > 0)

/-- noise.py:221-280 `parity_measurement_with_correlated_measurement_noise` for Pauli targets `t1`, `t2`. -/
def parityMeasurementWithCorrelatedNoise (b1 : Basis) (q1 : Nat) (b2 : Basis) (q2 ancilla : Nat)
    (mix : Rat) : List Instr :=
  [.on .R [ancilla], parityCX b1 q1 ancilla, parityCX b2 q2 ancilla]
    ++ (correlatedErrors q1 q2 ancilla).map (fun e => { gate := .E, targets := e, args := [.indep mix 5] })
    ++ [.on .M [ancilla]]

/-- Lines 112-117: the loop over triples `(t1, *, t2)` of targets. Stim only lets Pauli targets and
combiners into an `MPP`, so with the assertion of line 108 each triple has this form; the last case
is unreachable. -/
def correlatedMPP (ancilla : Nat) (p : Rat) : List Target → Except PyErr (List Instr)
  | [] => .ok []
  | .pauli b1 q1 :: .comb :: .pauli b2 q2 :: rest =>
    match correlatedMPP ancilla p rest with
    | .error e => .error e
    | .ok l => .ok (parityMeasurementWithCorrelatedNoise b1 q1 b2 q2 ancilla p ++ l)
  | _ => .error .assertion

/-- Line 108: `len(targets) % 3 == 0 and all(t.is_combiner for t in targets[1::3])`. -/
def mppTriples : List Target → Bool
  | [] => true
  | _ :: b :: _ :: rest => (b == .comb) && mppTriples rest
  | _ => false

namespace NoiseModel
variable (nm : NoiseModel)

/-- noise.py:91-127 `noisy_op`: the triple `(pre, mid, post)`. -/
def noisyOp (op : Instr) (p : Rat) (ancilla : Nat) : Except PyErr (List Instr × List Instr × List Instr) :=
  if p > 0 then
    if op.gate ∈ ANY_CLIFFORD_1_OPS then
      .ok ([], [op], [{ gate := .DEPOLARIZE1, targets := op.targets, args := [.lit p] }])
    else if op.gate ∈ ANY_CLIFFORD_2_OPS then
      .ok ([], [op], [{ gate := .DEPOLARIZE2, targets := op.targets, args := [.lit p] }])
    else if op.gate ∈ RESET_OPS ∨ op.gate ∈ MEASURE_OPS then
      let err : Instr :=
        { gate := if endsWithX op.gate then .Z_ERROR else .X_ERROR, targets := op.targets, args := [.lit p] }
      .ok (if op.gate ∈ MEASURE_OPS then [err] else [], [op], if op.gate ∈ RESET_OPS then [err] else [])
    else if op.gate = .MPP then
      if !mppTriples op.targets then .error .assertion
      else if ¬ (op.args = [] ∨ op.args = [.lit 0]) then .error .assertion
      else if nm.use_correlated_parity_measurement_errors then
        match correlatedMPP ancilla p op.targets with
        | .error e => .error e
        | .ok mid => .ok ([], mid, [])
      else
        .ok ([{ gate := .DEPOLARIZE2, targets := op.qubits.map .q, args := [.lit p] }],
          [{ op with args := [.lit p] }], [])
    else .error .notImplemented
  else .ok ([], [op], [])

/-- noise.py:174-183: the error strength of an operation. -/
def strength (g : Gate) : Except PyErr Rat :=
  match nm.noisy_gates g with
  | some p => .ok p
  | none =>
    match nm.any_clifford_1, decide (g ∈ ANY_CLIFFORD_1_OPS) with
    | some p, true => .ok p
    | _, _ =>
      match nm.any_clifford_2, decide (g ∈ ANY_CLIFFORD_2_OPS) with
      | some p, true => .ok p
      | _, _ => if g ∈ ANNOTATION_OPS then .ok 0 else .error .notImplemented

/-- The local variables of `noisy_circuit` (noise.py:130-137). -/
structure State where
  result : Circuit := .nil
  pre : List Instr := []
  mid : List Instr := []
  post : List Instr := []
  used : Finset Nat := ∅
  measuredOrReset : Finset Nat := ∅

/-- Lines 147-152: the idling errors of the current moment. -/
def idleErrors (qs : Finset Nat) (s : State) : List Instr :=
  let i1 := (qs \ s.used).sort (· ≤ ·)
  let i2 := (qs \ s.measuredOrReset).sort (· ≤ ·)
  (if s.used.Nonempty ∧ i1 ≠ [] ∧ nm.idle > 0 then
    [{ gate := .DEPOLARIZE1, targets := i1.map .q, args := [.lit nm.idle] }] else [])
  ++ (if s.measuredOrReset.Nonempty ∧ i2 ≠ [] ∧ nm.measure_reset_idle > 0 then
    [{ gate := .DEPOLARIZE1, targets := i2.map .q, args := [.lit nm.measure_reset_idle] }] else [])

/-- noise.py:141-162 `flush`. -/
def flush (qs : Finset Nat) (s : State) : State :=
  if s.mid = [] then s
  else { result := s.result ++ .ofList (s.pre ++ s.mid ++ (s.post ++ nm.idleErrors qs s)) }

/-- noise.py:190-196 `touched_qubits`. -/
def touched (op : Instr) : Finset Nat :=
  if op.gate ∈ ANNOTATION_OPS then ∅ else op.qubits.toFinset

/-- noise.py:169-201: the loop body for a plain instruction. -/
def stepInstr (qs : Finset Nat) (ancilla : Nat) (s : State) (op : Instr) : Except PyErr State :=
  if op.gate = .TICK then
    let s := nm.flush qs s
    .ok { s with result := s.result ++ .ofList [.tick] }
  else
    match nm.strength op.gate with
    | .error e => .error e
    | .ok p =>
      match nm.noisyOp op p ancilla with
      | .error e => .error e
      | .ok (pre, mid, post) =>
        .ok { s with
          pre := s.pre ++ pre
          mid := s.mid ++ mid
          post := s.post ++ post
          used := s.used ∪ touched op
          measuredOrReset :=
            if op.gate ∈ MEASURE_OPS ∨ op.gate ∈ RESET_OPS then s.measuredOrReset ∪ touched op
            else s.measuredOrReset }

/-- noise.py:164-204: the loop over the operations of a circuit, including the recursive call for the body of
a `REPEAT` block (line 167, whose own ancilla is the body's `num_qubits`) and that call's final flush. -/
def loop (qs : Finset Nat) : Circuit → Nat → State → Except PyErr State
  | .nil, _, s => .ok s
  | .op i c, ancilla, s =>
    match nm.stepInstr qs ancilla s i with
    | .error e => .error e
    | .ok s => loop qs c ancilla s
  | .rep n b c, ancilla, s =>
    let s := nm.flush qs s
    match loop qs b b.num_qubits {} with
    | .error e => .error e
    | .ok sb =>
      loop qs c ancilla { s with result := s.result ++ (nm.flush qs sb).result.mul n }

/-- noise.py:129-206 `noisy_circuit`. -/
def noisyCircuit (circuit : Circuit) (qs : Option (Finset Nat) := none) : Except PyErr Circuit :=
  let qs := match qs with
    | some qs => qs
    | none => Finset.range circuit.num_qubits
  match nm.loop qs circuit circuit.num_qubits {} with
  | .error e => .error e
  | .ok s => .ok (nm.flush qs s).result

end NoiseModel

namespace HoneycombLayout
variable (lay : HoneycombLayout)

/-- honeycomb_layout.py:114-126 `noise_model`. -/
def noise_model : Except PyErr NoiseModel :=
  if lay.style = "SD6" then .ok (.SD6 lay.noise)
  else if lay.style = "PC3" then .ok (.PC3 lay.noise)
  else if lay.style = "EM3" then .ok (.EM3_v1 lay.noise)
  else if lay.style = "EM3_v2" then .ok (.EM3_v2 lay.noise)
  else if lay.style = "SI1000" then .ok (.SI1000 lay.noise)
  else .error .notImplemented

/-- honeycomb_circuit.py:9-43 `generate_honeycomb_circuit` = honeycomb_layout.py:133-135 `make_circuit`. -/
def makeCircuit : Except PyErr Circuit := do
  let c ← lay.generateNoiseless
  let nm ← lay.noise_model
  nm.noisyCircuit c

end HoneycombLayout
end Honeycomb
