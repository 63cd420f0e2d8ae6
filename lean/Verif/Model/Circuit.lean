import Verif.Model.Tracker
import Verif.Model.Stim

/-!
# Model of `src/honeycomb_circuit.py` (the noiseless circuit; see `Noise.lean` for line 43)

The `MeasurementTracker` that the Python functions mutate is passed in and returned. Circuits without
`REPEAT` blocks are lists of instructions. A result `.error e` means the call raises `e`.
-/

namespace Honeycomb

/-- The hashable values used as tracker keys by honeycomb_circuit.py: a `complex` (data qubit or hex center),
an `Edge`, `('1/2', edge)` and `('1/2', hex)`. -/
inductive Key where
  | pt (p : Pt)
  | edge (e : Edge)
  | halfEdge (e : Edge)
  | halfPt (h : Pt)
deriving DecidableEq, Repr

abbrev MT := Tracker Key

/-- A real coordinate: half of the doubled integer. -/
def crd (d : Int) : Rat := (d : Rat) / 2

/-- `[c.real, c.imag, 0]`. -/
def coords3 (c : Pt) : List Rat := [crd c.x, crd c.y, 0]

/-- measure_tracker.py:74-82 `append_detector` (without `for_time_after_measurement`, which
honeycomb_circuit.py does not use): the instructions appended to `out_circuit`. -/
def appendDetector (m : MT) (keys : List (TKey Key)) (coords : List Rat) : Except PyErr (List Instr) :=
  match m.recordTargets keys with
  | .error e => .error e
  | .ok none => .ok []
  | .ok (some ts) => .ok [.detector ts coords]

/-- `append_operation("OBSERVABLE_INCLUDE", mtrack.get_record_targets(...), index)`; passing `None` as
targets raises TypeError. -/
def includeObservable (m : MT) (keys : List (TKey Key)) (index : Nat) : Except PyErr (List Instr) :=
  match m.recordTargets keys with
  | .error e => .error e
  | .ok none => .error .typeError
  | .ok (some ts) => .ok [.observable ts index]

/-- A loop `for x in xs: mtrack.add_group(*keys(x), group_key=gk(x))`. -/
def addGroups {α : Type} (m : MT) (keys : α → List (TKey Key)) (gk : α → Key) :
    List α → Except PyErr MT
  | [] => .ok m
  | x :: xs =>
    match m.addGroup (keys x) (gk x) with
    | .error e => .error e
    | .ok m' => addGroups m' keys gk xs

/-- A loop `for x in xs: mtrack.add_group(*keys(x), group_key=gk(x));
mtrack.append_detector(gk(x), Prev(gk(x)), out_circuit=out, coords=crds(x))`. -/
def addGroupsDetect {α : Type} (m : MT) (keys : α → List (TKey Key)) (gk : α → Key)
    (crds : α → List Rat) : List α → Except PyErr (List Instr × MT)
  | [] => .ok ([], m)
  | x :: xs =>
    match m.addGroup (keys x) (gk x) with
    | .error e => .error e
    | .ok m1 =>
      match appendDetector m1 [.plain (gk x), .prev (gk x) 1] (crds x) with
      | .error e => .error e
      | .ok d =>
        match addGroupsDetect m1 keys gk crds xs with
        | .error e => .error e
        | .ok (ds, m2) => .ok (d ++ ds, m2)

/-- A loop `for x in xs: mtrack.append_detector(*keys(x), out_circuit=out, coords=crds(x))`. -/
def detectAll {α : Type} (m : MT) (keys : α → List (TKey Key)) (crds : α → List Rat) :
    List α → Except PyErr (List Instr)
  | [] => .ok []
  | x :: xs =>
    match appendDetector m (keys x) (crds x) with
    | .error e => .error e
    | .ok d =>
      match detectAll m keys crds xs with
      | .error e => .error e
      | .ok ds => .ok (d ++ ds)

/-- The tracker keys of line 394: `[Prev(('1/2', e), offset=t) for t in recover_value_set]`. -/
def recoverKeys (pc3 : Bool) (e : Edge) : List (TKey Key) :=
  if pc3 then [.prev (.halfEdge e) 0, .prev (.halfEdge e) 1] else [.prev (.halfEdge e) 0]

/-- Line 417: `*lay.second_edges_around_hex(h), ('1/2', h)`. -/
def secondKeys (lay : HoneycombLayout) (h : Pt) : List (TKey Key) :=
  ((lay.second_edges_around_hex h).map fun e => .plain (.edge e)) ++ [.plain (.halfPt h)]

/-- Line 414: `*lay.first_edges_around_hex(h)`. -/
def firstKeys (lay : HoneycombLayout) (h : Pt) : List (TKey Key) :=
  (lay.first_edges_around_hex h).map fun e => .plain (.edge e)

/-- `set(lay.obs_edges) & set(round_edges)`. -/
def obsEdgesOf (obsEdges roundEdges : List Edge) : List Edge :=
  pySet (obsEdges.filter fun e => e ∈ roundEdges)

namespace HoneycombLayout
variable (lay : HoneycombLayout)

/-- honeycomb_circuit.py:370-421 `_sub_round_measurements_and_detectors`. -/
def subRoundMeasurementsAndDetectors (m : MT) (sub_round : Int) : Except PyErr (List Instr × MT) := do
  let pc3 := lay.style == "PC3"
  let edges := lay.round_edges sub_round
  -- lines 387-390
  let meas : List Instr := if lay.isEM3 then [] else [.on .M (edges.map fun e => lay.idx e.center)]
  let m := m.addMeasurements (edges.map .halfEdge)
  -- lines 391-394
  let m ← addGroups m (recoverKeys pc3) .edge edges
  -- lines 396-405
  let obs ←
    if lay.style != "PC3" then do
      let oe ← lay.obs_edges
      let i ← lay.obs_index
      includeObservable m ((obsEdgesOf oe edges).map fun e => .plain (.edge e)) i
    else pure []
  -- lines 407-410
  let first ←
    if sub_round = 0 then do
      let b ← lay.obs_before_sub_round 0
      if b.1 = .X then
        detectAll m (fun e => [.plain (.edge e)]) (fun e => coords3 e.center) (lay.round_edges 0)
      else pure []
    else pure []
  -- lines 412-414
  let m ← addGroups m (firstKeys lay) .halfPt (lay.round_hex_centers ((sub_round - 1) % 3))
  -- lines 415-418
  let (dets, m) ← addGroupsDetect m (secondKeys lay) .pt coords3 (lay.round_hex_centers ((sub_round - 2) % 3))
  -- line 419
  return (meas ++ obs ++ first ++ dets ++ [.shift [0, 0, 1]], m)

/-- honeycomb_circuit.py:361-367 `_sub_round_resets`. -/
def subRoundResets (sub_round : Int) : List Instr :=
  [.on .R ((lay.round_edges sub_round).map fun e => lay.idx e.center)]

/-- `[lay.q2i[q] for e in edges for q in [e.left, e.center]]`. -/
def leftTargets (edges : List Edge) : List Nat := edges.flatMap fun e => [lay.idx e.left, lay.idx e.center]

/-- `[lay.q2i[q] for e in edges for q in [e.right, e.center]]`. -/
def rightTargets (edges : List Edge) : List Nat := edges.flatMap fun e => [lay.idx e.right, lay.idx e.center]

/-- honeycomb_circuit.py:345-358 `_sub_round_2q_ops`. -/
def subRound2qOps (sub_round : Int) : List Instr × List Instr :=
  ([.on .CX (lay.leftTargets (lay.round_edges sub_round))],
   [.on .CX (lay.rightTargets (lay.round_edges sub_round))])

/-- honeycomb_circuit.py:334-342 `_cycle_data`. -/
def cycleData (first second : Bool) : List Instr :=
  if first && second then [.on .C_ZYX lay.data_qubit_indices]
  else if first then [.on .C_ZYX lay.data_qubit_indices_1st]
  else if second then [.on .C_ZYX lay.data_qubit_indices_2nd]
  else []

/-- honeycomb_circuit.py:314-331 `_sd6_pipeline_step`. -/
def sd6PipelineStep (m : MT) (sub_round : Int) : Except PyErr (List Instr × MT) := do
  let b1 := (lay.subRound2qOps sub_round).2
  let a2 := (lay.subRound2qOps (sub_round + 1)).1
  let r3 := lay.subRoundResets (sub_round + 2)
  let c := lay.cycleData true true
  let (md, m) ← lay.subRoundMeasurementsAndDetectors m sub_round
  return (a2 ++ b1 ++ [.tick] ++ r3 ++ c ++ md ++ [.tick], m)

/-- The gate `H_{basis}Z`. -/
def toZGate : Basis → Gate
  | .X => .H
  | .Y => .H_YZ
  | .Z => .I   -- not used: guarded by `basis != "Z"`

/-- Lines 52-54 and 77-79. -/
def basisChange (b : Basis) : List Instr :=
  if b ≠ .Z then [.on (toZGate b) lay.data_qubit_indices, .tick] else []

/-- honeycomb_circuit.py:58-67, the loop body for one `sub_round`. -/
def initDummies (b : Basis) (m : MT) (r : Int) : MT :=
  let edge_init := b.index
  let half_init := (edge_init - 1) % 3
  let m := m.addDummies ((lay.round_edges r).map .edge) (r ≠ edge_init)
  let m := m.addDummies ((lay.round_edges r).map .halfEdge)
  let m := m.addDummies ((lay.round_hex_centers r).map .pt) (r ≠ edge_init)
  m.addDummies ((lay.round_hex_centers r).map .halfPt) (r ≠ half_init)

/-- honeycomb_circuit.py:46-69 `fault_tolerant_init`. -/
def faultTolerantInit (m : MT) : Except PyErr (List Instr × MT) := do
  let b ← lay.obs_before_sub_round 0
  let m := (pyRange 3).foldl (lay.initDummies b.1) m
  return ([.on .R lay.used_qubit_indices, .tick] ++ lay.basisChange b.1, m)

/-- The single element of `set("XYZ") - {a, b}` for `a != b` (line 95). -/
def otherBasis (a b : Basis) : Basis :=
  if a ≠ .X ∧ b ≠ .X then .X else if a ≠ .Y ∧ b ≠ .Y then .Y else .Z

/-- Line 97 / 106: `*lay.qubits_around_hex(h)`. -/
def hexQubitKeys (h : Pt) : List (TKey Key) := (lay.qubits_around_hex h).map fun q => .plain (.pt q)

/-- honeycomb_circuit.py:72-118 `fault_tolerant_measurement`. -/
def faultTolerantMeasurement (m : MT) : Except PyErr (List Instr × MT) := do
  let n := lay.sub_rounds
  let (obs_basis, obs_qubits) ← lay.obs_before_sub_round n
  let m := m.addMeasurements (lay.data_qubit_coords.map .pt)
  let last := Basis.ofIdx (n - 1)
  let (d1, m) ←
    if last = obs_basis then
      addGroupsDetect m (fun e => [.plain (.pt e.left), .plain (.pt e.right)]) .edge
        (fun e => coords3 e.center) (lay.round_edges obs_basis.index)
    else
      addGroupsDetect m (fun h => lay.hexQubitKeys h ++ [.plain (.halfPt h)]) .pt coords3
        (lay.round_hex_centers (otherBasis last obs_basis).index)
  let (d2, m) ← addGroupsDetect m lay.hexQubitKeys .pt coords3 (lay.round_hex_centers obs_basis.index)
  let i ← lay.obs_index
  let o ← includeObservable m (obs_qubits.map fun q => .plain (.pt q)) i
  return (lay.basisChange obs_basis ++ [.on .M lay.data_qubit_indices] ++ d1 ++ d2 ++ o, m)

/-- `for r in range(a, b): result += step(r)` threading the tracker. -/
def forRounds (step : MT → Int → Except PyErr (List Instr × MT)) (m : MT) :
    List Int → Except PyErr (List Instr × MT)
  | [] => .ok ([], m)
  | k :: ks =>
    match step m k with
    | .error e => .error e
    | .ok (c, m1) =>
      match forRounds step m1 ks with
      | .error e => .error e
      | .ok (cs, m2) => .ok (c ++ cs, m2)

/-- Lines 176-181: realign the data qubits' axes after the last sub-round. -/
def sd6Realign : List Instr :=
  (if (lay.sub_rounds + 1) % 3 = 0 then [.on .C_ZYX lay.data_qubit_indices]
   else if (lay.sub_rounds + 2) % 3 = 0 then [.on .C_XYZ lay.data_qubit_indices]
   else []) ++ [.tick]

/-- Lines 138-145: get the pipeline started. -/
def sd6Start : List Instr :=
  lay.subRoundResets 0 ++ lay.cycleData true false ++ [.tick] ++ (lay.subRound2qOps 0).1 ++ [.tick]
    ++ lay.subRoundResets 1 ++ lay.cycleData true true ++ [.tick]

/-- Lines 163-174: end the pipeline. -/
def sd6End (m : MT) : Except PyErr (List Instr × MT) := do
  let n := lay.sub_rounds
  let b2 := (lay.subRound2qOps (n - 2)).2
  let a3 := (lay.subRound2qOps (n - 1)).1
  let b3 := (lay.subRound2qOps (n - 1)).2
  let (md2, m) ← lay.subRoundMeasurementsAndDetectors m (n - 2)
  let (md1, m) ← lay.subRoundMeasurementsAndDetectors m (n - 1)
  return (a3 ++ b2 ++ [.tick] ++ md2 ++ [.tick] ++ lay.cycleData false true ++ [.tick] ++ b3 ++ [.tick] ++ md1, m)

/-- honeycomb_circuit.py:126-135: the single sub-round case. -/
def sd6Single (m : MT) : Except PyErr (List Instr × MT) := do
  let (md, m) ← lay.subRoundMeasurementsAndDetectors m 0
  return (lay.subRoundResets 0 ++ lay.cycleData true true ++ [.tick] ++ (lay.subRound2qOps 0).1 ++ [.tick]
    ++ (lay.subRound2qOps 0).2 ++ [.tick] ++ md, m)

/-- honeycomb_circuit.py:121-183 `generate_rounds_sd6`. The `while` loop of lines 148-151 runs
`next_sub_round` over `range(min(4, n - 2))`. -/
def generateRoundsSd6 (m : MT) : Except PyErr (Circuit × MT) := do
  let n := lay.sub_rounds
  if n = 0 then .error .notImplemented
  else if n = 1 then
    let (c, m) ← lay.sd6Single m
    return (.ofList (c ++ lay.sd6Realign), m)
  else
    -- lines 147-151
    let next : Int := max 0 (min 4 (n - 2))
    let (c1, m) ← forRounds lay.sd6PipelineStep m (pyRange next)
    -- lines 152-159
    let iterations : Int := max 0 (n - next - 2) / 3
    let (loop, next, m) ←
      if iterations > 1 then do
        let (body, m) ← forRounds lay.sd6PipelineStep m [next, next + 1, next + 2]
        pure ((Circuit.ofList body).mul iterations.toNat, next + iterations * 3, m)
      else pure (Circuit.nil, next, m)
    -- lines 160-161
    let (c2, m) ← forRounds lay.sd6PipelineStep m (pyRange2 next (n - 2))
    -- lines 163-174
    let (c3, m) ← lay.sd6End m
    return (.ofList (lay.sd6Start ++ c1) ++ loop ++ .ofList (c2 ++ c3 ++ lay.sd6Realign), m)

/-- The gate `sub_round_edge_basis(k) + "CX"`. -/
def basisCX : Basis → Gate
  | .X => .XCX
  | .Y => .YCX
  | .Z => .CX

/-- honeycomb_circuit.py:193-204: one moment of the PC3 schedule. -/
def pc3Moment (m : MT) (k : Int) : Except PyErr (List Instr × MT) := do
  let n := lay.sub_rounds
  let a : List Instr :=
    if 0 ≤ k ∧ k < n then [.on (basisCX (sub_round_edge_basis k)) (lay.leftTargets (lay.round_edges k))]
    else []
  let b : List Instr :=
    if 0 ≤ k - 1 ∧ k - 1 < n then
      [.on (basisCX (sub_round_edge_basis (k - 1))) (lay.rightTargets (lay.round_edges (k - 1)))]
    else []
  let (c, m) ←
    if 0 ≤ k - 2 ∧ k - 2 < n then lay.subRoundMeasurementsAndDetectors m (k - 2)
    else if k - 2 ≤ 0 then pure (lay.subRoundResets (k - 2), m)
    else pure ([], m)
  return (a ++ b ++ c ++ [.tick], m)

/-- honeycomb_circuit.py:244-250: one moment of the EM3 schedule. -/
def em3Moment (m : MT) (k : Int) : Except PyErr (List Instr × MT) := do
  let b := sub_round_edge_basis k
  let mpp : Instr := { gate := .MPP, targets := (lay.round_edges k).flatMap fun e =>
    [.pauli b (lay.idx e.left), .comb, .pauli b (lay.idx e.right)] }
  let (md, m) ← lay.subRoundMeasurementsAndDetectors m k
  return ([mpp] ++ md ++ [.tick], m)

/-- `moments[-3:] = [(moments[-3] + moments[-2] + moments[-1]) * iterations]` (lines 214, 258). -/
def foldLast3 (moments : List Circuit) (iterations : Nat) : List Circuit :=
  let keep := moments.take (moments.length - 3)
  let last := moments.drop (moments.length - 3)
  keep ++ [(last.foldl (· ++ ·) Circuit.nil).mul iterations]

/-- The `while` loops of lines 192-215 (`stop = n + 2`, `at_ = 12`) and 243-259 (`stop = n`, `at_ = 7`). -/
def momentLoop (step : MT → Int → Except PyErr (List Instr × MT)) (n stop at_ : Int)
    (k : Int) (moments : List Circuit) (m : MT) : Except PyErr (List Circuit × MT) :=
  if _h : k < stop then
    match step m k with
    | .error e => .error e
    | .ok (c, m) =>
      let moments := moments ++ [.ofList c]
      let iterations := (n - (k + 1) + 3) / 3
      if hi : k + 1 = at_ ∧ iterations > 1 then
        momentLoop step n stop at_ (k + 1 + (iterations * 3 - 3)) (foldLast3 moments iterations.toNat) m
      else
        momentLoop step n stop at_ (k + 1) moments m
  else .ok (moments, m)
termination_by (stop - k).toNat
decreasing_by
  · have := hi.2; simp only [iterations] at *; omega
  · omega

/-- `result = stim.Circuit(); for m in moments: result += m`. -/
def joinMoments (moments : List Circuit) : Circuit := moments.foldl (· ++ ·) Circuit.nil

/-- honeycomb_circuit.py:221-231. -/
def pc3Observables (m : MT) : List Int → Except PyErr (List Instr)
  | [] => .ok []
  | k :: ks => do
    let oe ← lay.obs_edges
    let ts ← m.recordTargets ((obsEdgesOf oe (lay.round_edges k)).map fun e => .plain (.halfEdge e))
    let o ← match ts with
      | none => pure []
      | some ts => do let i ← lay.obs_index; pure [Instr.observable ts i]
    let os ← pc3Observables m ks
    return o ++ os

/-- honeycomb_circuit.py:186-233 `generate_rounds_pc3`. -/
def generateRoundsPc3 (m : MT) : Except PyErr (Circuit × MT) := do
  let n := lay.sub_rounds
  if n = 0 then .error .notImplemented
  else
    let (moments, m) ← momentLoop lay.pc3Moment n (n + 2) 12 0 [] m
    let o ← lay.pc3Observables m (pyRange 3)
    return (joinMoments moments ++ .ofList o, m)

/-- honeycomb_circuit.py:236-264 `generate_rounds_em3`. -/
def generateRoundsEm3 (m : MT) : Except PyErr (Circuit × MT) := do
  let n := lay.sub_rounds
  if n = 0 then .error .notImplemented
  else
    let (moments, m) ← momentLoop lay.em3Moment n n 7 0 [] m
    return (joinMoments moments, m)

/-- Lines 277-285, the two CZ layers of colour `k`. -/
def si1000Layer (k : Int) : List Instr :=
  [.on .C_ZYX lay.data_qubit_indices_2nd, .on .CZ (lay.leftTargets (lay.round_edges k)), .tick]
    ++ (if k < 2 then [.on .C_ZYX lay.data_qubit_indices_1st] else [])
    ++ [.on .CZ (lay.rightTargets (lay.round_edges k)), .tick]

/-- honeycomb_circuit.py:267-294 `generate_cycle_SI1000`. -/
def generateCycleSI1000 (m : MT) (subround : Int) : Except PyErr (List Instr × MT) := do
  let start : List Instr := if subround > 0 then [.on .R lay.measure_qubit_indices, .tick] else []
  let (md, m) ← forRounds lay.subRoundMeasurementsAndDetectors m ((pyRange 3).map (subround + ·))
  return (start
    ++ [.on .C_ZYX lay.data_qubit_indices_1st, .on .H lay.measure_qubit_indices, .tick]
    ++ (pyRange 3).flatMap lay.si1000Layer
    ++ [.on .H lay.measure_qubit_indices, .tick] ++ md ++ [.tick], m)

/-- honeycomb_circuit.py:297-311 `generate_rounds_SI1000`. -/
def generateRoundsSI1000 (m : MT) : Except PyErr (Circuit × MT) := do
  let n := lay.sub_rounds
  if n = 0 then .error .notImplemented
  else if n % 3 ≠ 0 then .error .notImplemented
  else
    let (c0, m) ← lay.generateCycleSI1000 m 0
    let (c1, m) ← if n > 3 then lay.generateCycleSI1000 m 3 else pure ([], m)
    let (c2, m) ← if n > 6 then do
        let (c, m) ← lay.generateCycleSI1000 m 6
        pure ((Circuit.ofList c).mul ((n - 6) / 3).toNat, m)
      else pure (Circuit.nil, m)
    return (.ofList (c0 ++ c1) ++ c2, m)

/-- Lines 31-40: dispatch on the style. -/
def generateRounds (m : MT) : Except PyErr (Circuit × MT) :=
  if lay.style = "SD6" then lay.generateRoundsSd6 m
  else if lay.style = "PC3" then lay.generateRoundsPc3 m
  else if lay.isEM3 then lay.generateRoundsEm3 m
  else if lay.style = "SI1000" then lay.generateRoundsSI1000 m
  else .error .notImplemented

/-- Lines 26-28. -/
def qubitCoordOps : List Instr :=
  lay.used_qubit_coords.map fun q =>
    { gate := .QUBIT_COORDS, targets := [.q (lay.idx q)], args := [.lit (crd q.x), .lit (crd q.y)] }

/-- honeycomb_circuit.py:22-41: the noiseless circuit that line 43 passes to the noise model. -/
def generateNoiseless : Except PyErr Circuit := do
  let (c0, m) ← lay.faultTolerantInit Tracker.empty
  let (c1, m) ← lay.generateRounds m
  let (c2, _) ← lay.faultTolerantMeasurement m
  return .ofList (lay.qubitCoordOps ++ c0) ++ c1 ++ .ofList c2

end HoneycombLayout
end Honeycomb
