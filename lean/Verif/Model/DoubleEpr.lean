import Verif.Model.Noise

/-!
# Model of `src/honeycomb_circuit_double_epr_test.py`

The experiment that shows two logical qubits: two extra qubits are entangled with the logical qubits before the memory circuit and
compared with them after it. The Python function builds it for one fixed layout (lines 56-61); the model takes the layout as an argument.
-/

namespace Honeycomb
namespace HoneycombLayout
variable (lay : HoneycombLayout)

/-- honeycomb_circuit_double_epr_test.py:28-29 `anc_a`, `anc_b` and lines 30-35 `ancilla_observables[obs_id]`. -/
def eprAncilla (obs_id : Nat) : Basis × Nat :=
  (if obs_id % 2 = 0 then .X else .Z, if obs_id < 2 then lay.num_qubits.toNat else lay.num_qubits.toNat + 1)

/-- honeycomb_circuit_double_epr_test.py:36-41 `logical_observables[obs_id]`. -/
def eprLogical (sub_round : Int) (obs_id : Nat) : Basis × List Pt :=
  let k := if obs_id < 2 then sub_round else sub_round + 3
  if obs_id % 2 = 0 then lay.obs_h_before_sub_round k else lay.obs_v_before_sub_round k

/-- honeycomb_circuit_double_epr_test.py:44-51: the parity of one ancilla observable and one logical observable. -/
def eprParity (sub_round : Int) (obs_id : Nat) : List Instr :=
  let (a, i) := lay.eprAncilla obs_id
  let (b, qs) := lay.eprLogical sub_round obs_id
  [{ gate := .MPP, targets := .pauli a i :: qs.flatMap fun q => [.comb, .pauli b (lay.idx q)] }, .observable [-1] obs_id]

/-- honeycomb_circuit_double_epr_test.py:27-52 `measure_obs_anc_parities` (called with `observable_ids = [0, 1, 2, 3]`). -/
def measureObsAncParities (sub_round : Int) (observable_ids : List Nat) : List Instr := observable_ids.flatMap (lay.eprParity sub_round)

/-- honeycomb_circuit_double_epr_test.py:84-90: the loop over the observables. -/
def eprObservables (m : MT) (edges : List Edge) : List Nat → Except PyErr (List Instr)
  | [] => .ok []
  | obs_id :: ids =>
    let e := if obs_id % 2 = 0 then lay.obs_h_edges else lay.obs_v_edges
    match includeObservable m ((obsEdgesOf e edges).map fun e => .plain (.edge e)) obs_id with
    | .error e => .error e
    | .ok o =>
      match eprObservables m edges ids with
      | .error e => .error e
      | .ok os => .ok (o ++ os)

/-- honeycomb_circuit_double_epr_test.py:68-98: one sub-round without noise. -/
def eprSubRound (m : MT) (sub_round : Int) : Except PyErr (List Instr × MT) := do
  let edges := lay.round_edges sub_round
  let b := sub_round_edge_basis sub_round
  let mpp : Instr := { gate := .MPP, targets := edges.flatMap fun e =>
    [.pauli b (lay.idx e.left), .comb, .pauli b (lay.idx e.right)] }
  -- line 83
  let m := m.addMeasurements (edges.map .edge)
  -- lines 84-90
  let obs ← lay.eprObservables m edges [0, 1, 2, 3]
  -- lines 91-92
  let m ← addGroups m (firstKeys lay) .halfPt (lay.round_hex_centers ((sub_round - 1) % 3))
  -- lines 93-97
  let (dets, m) ←
    if 6 ≤ sub_round then addGroupsDetect m (secondKeys lay) .pt (fun _ => []) (lay.round_hex_centers ((sub_round - 2) % 3))
    else if 3 ≤ sub_round then do
      let m ← addGroups m (secondKeys lay) .pt (lay.round_hex_centers ((sub_round - 2) % 3))
      pure ([], m)
    else pure ([], m)
  return ([mpp] ++ obs ++ dets ++ [.tick], m)

/-- honeycomb_circuit_double_epr_test.py:99-100: the noise of one sub-round. `qs` is line 63. -/
def eprNoise (sub_round : Int) (c : Circuit) : Except PyErr Circuit :=
  if 3 ≤ sub_round ∧ sub_round ≤ lay.sub_rounds then
    match lay.noise_model with
    | .error e => .error e
    | .ok nm => nm.noisyCircuit c (some (Finset.range lay.num_qubits.toNat))
  else .ok c

/-- honeycomb_circuit_double_epr_test.py:66-101: the memory. -/
def eprMemory (m : MT) : List Int → Except PyErr Circuit
  | [] => .ok .nil
  | k :: ks =>
    match lay.eprSubRound m k with
    | .error e => .error e
    | .ok (c, m) =>
      match lay.eprNoise k (.ofList c) with
      | .error e => .error e
      | .ok c =>
        match eprMemory m ks with
        | .error e => .error e
        | .ok mem => .ok (c ++ mem)

/-- honeycomb_circuit_double_epr_test.py:55-107 `generate_double_epr_honeycomb_circuit`, for any layout. -/
def doubleEpr : Except PyErr Circuit :=
  match lay.eprMemory Tracker.empty (pyRange lay.sub_rounds) with
  | .error e => .error e
  | .ok mem =>
    .ok (.ofList (lay.measureObsAncParities 0 [0, 1, 2, 3]) ++ mem ++ .ofList (lay.measureObsAncParities lay.sub_rounds [0, 1, 2, 3]))

end HoneycombLayout

/-- honeycomb_circuit_double_epr_test.py:56-61: the layout of the experiment. -/
def doubleEprLayout : HoneycombLayout :=
  ⟨4, 6, 100, "EM3", "--- X1 Z1 X2 Z2 all entangled with ancillae ----", 1 / 100000⟩

end Honeycomb
