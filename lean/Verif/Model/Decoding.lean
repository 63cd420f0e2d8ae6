import Mathlib.Analysis.SpecialFunctions.Log.Basic
import Mathlib.Data.Rat.Cast.Defs
import Verif.Model.Py

/-!
# Model of `src/decoding.py`

Detector error models are data (`Dem`); `networkx` graphs are insertion ordered node and edge tables;
sample matrices are lists of rows. The external pieces (stim's sampler and error analyser, pymatching's
`decode`, the internal decoder binary) are parameters. Floats are exact rationals, edge weights reals.
-/

namespace Honeycomb

/-! ## Detector error models (`stim.DetectorErrorModel`) -/

/-- `stim.DemTarget`: relative detector id, logical observable id, separator `^`. -/
inductive DemTarget where
  | det (n : Nat)
  | obs (n : Nat)
  | sep
deriving DecidableEq, Repr

/-- `stim.DemInstruction`. -/
inductive DemInstr where
  | error (p : Rat) (targets : List DemTarget)
  | shift (dets : Nat) (coords : List Rat)
  | detector (coords : List Rat) (ids : List Nat)
  | logicalObs (ids : List Nat)
deriving DecidableEq, Repr

/-- `stim.DetectorErrorModel`: a sequence of instructions and `repeat` blocks. -/
inductive Dem where
  | nil
  | op (i : DemInstr) (rest : Dem)
  | rep (n : Nat) (body rest : Dem)
deriving DecidableEq, Repr

/-! ## `iter_flatten_model` (decoding.py:173-219) -/

/-- The two callbacks of `iter_flatten_model` (decoding.py:174-175) as updates of a state `σ`. -/
structure DemHandlers (σ : Type) where
  handleError : Rat → List Nat → List Nat → σ → Except PyErr σ
  handleCoords : Nat → List Rat → σ → Except PyErr σ

/-- The `nonlocal` variables of `_helper` (decoding.py:176-177) together with the state of the handlers.
`coords` is `np.zeros(100)`: always 100 entries. -/
structure FlatState (σ : Type) where
  detOffset : Nat
  coords : List Rat
  st : σ

/-- `coords_offset[:len(a)] += a` (decoding.py:208). numpy raises ValueError when `a` is longer than the
array. -/
def addCoords (off a : List Rat) : Except PyErr (List Rat) :=
  if off.length < a.length then .error .valueError
  else .ok (List.zipWith (· + ·) (off.take a.length) a ++ off.drop a.length)

/-- `a + coords_offset[:len(a)]` (decoding.py:212). -/
def absCoords (off a : List Rat) : Except PyErr (List Rat) :=
  if off.length < a.length then .error .valueError
  else .ok (List.zipWith (· + ·) a (off.take a.length))

/-- The loop over the targets of an `error` instruction (decoding.py:188-204): `dets` and `frames` collect
the current component, a separator reports it and starts a new one, and the end reports the last one. -/
def flattenTargets {σ : Type} (h : DemHandlers σ) (p : Rat) (off : Nat) :
    List DemTarget → List Nat → List Nat → σ → Except PyErr σ
  | [], dets, frames, s => h.handleError p dets frames s
  | .det n :: l, dets, frames, s => flattenTargets h p off l (dets ++ [n + off]) frames s
  | .obs n :: l, dets, frames, s => flattenTargets h p off l dets (frames ++ [n]) s
  | .sep :: l, dets, frames, s => do
      let s ← h.handleError p dets frames s
      flattenTargets h p off l [] [] s

/-- The loop over the targets of a `detector` instruction (decoding.py:211-212). -/
def flattenDetector {σ : Type} (h : DemHandlers σ) (off : Nat) (coords a : List Rat) :
    List Nat → σ → Except PyErr σ
  | [], s => .ok s
  | n :: l, s => do
      let c ← absCoords coords a
      let s ← h.handleCoords (n + off) c s
      flattenDetector h off coords a l s

/-- One `DemInstruction` (decoding.py:186-216). -/
def flattenInstr {σ : Type} (h : DemHandlers σ) (i : DemInstr) (s : FlatState σ) : Except PyErr (FlatState σ) :=
  match i with
  | .error p ts => do
      let st ← flattenTargets h p s.detOffset ts [] [] s.st
      .ok { s with st := st }
  | .shift d a => do
      let c ← addCoords s.coords a
      .ok { s with detOffset := s.detOffset + d, coords := c }
  | .detector a ids => do
      let st ← flattenDetector h s.detOffset s.coords a ids s.st
      .ok { s with st := st }
  | .logicalObs _ => .ok s

/-- `for _ in range(n)`. -/
def iterM {σ : Type} (f : σ → Except PyErr σ) : Nat → σ → Except PyErr σ
  | 0, s => .ok s
  | n + 1, s => do
      let s ← f s
      iterM f n s

/-- decoding.py:179-218 `_helper`: one pass over a model; repeat blocks run `_helper` on their body with
`reps = repeat_count`. -/
def flattenHelper {σ : Type} (h : DemHandlers σ) : Dem → FlatState σ → Except PyErr (FlatState σ)
  | .nil, s => .ok s
  | .op i rest, s => do
      let s ← flattenInstr h i s
      flattenHelper h rest s
  | .rep n body rest, s => do
      let s ← iterM (flattenHelper h body) n s
      flattenHelper h rest s

/-- decoding.py:173-219 `iter_flatten_model`. -/
def iterFlattenModel {σ : Type} (m : Dem) (h : DemHandlers σ) (s : σ) : Except PyErr σ := do
  let r ← flattenHelper h m { detOffset := 0, coords := List.replicate 100 0, st := s }
  .ok r.st

/-! ## Counting (stim API) -/

/-- The executed instruction sequence: every `repeat` block unrolled (`model.flattened()` without the
change to absolute ids). -/
def Dem.unroll : Dem → List DemInstr
  | .nil => []
  | .op i rest => i :: rest.unroll
  | .rep n body rest => (List.replicate n body.unroll).flatten ++ rest.unroll

/-- 1 + the largest element, 0 for an empty list. -/
def idBound (l : List Nat) : Nat := l.foldr (fun a b => max (a + 1) b) 0

/-- The detector ids among targets. -/
def demDets : List DemTarget → List Nat := List.filterMap fun | .det n => some n | _ => none

/-- The observable ids among targets. -/
def demObs : List DemTarget → List Nat := List.filterMap fun | .obs n => some n | _ => none

/-- How far an instruction shifts the detector ids of the instructions after it. -/
def DemInstr.shiftOf : DemInstr → Nat
  | .shift d _ => d
  | _ => 0

/-- The detector ids an instruction mentions, relative to the current offset. -/
def DemInstr.detIds : DemInstr → List Nat
  | .error _ ts => demDets ts
  | .detector _ ids => ids
  | _ => []

/-- The observable ids an instruction mentions. -/
def DemInstr.obsIds : DemInstr → List Nat
  | .error _ ts => demObs ts
  | .logicalObs ids => ids
  | _ => []

/-- The detector offset in force at position `i` of an unrolled model. -/
def detOffsetAt (l : List DemInstr) (i : Nat) : Nat := ((l.take i).map DemInstr.shiftOf).sum

/-- The absolute detector ids mentioned at position `i` of an unrolled model. -/
def absDetIds (l : List DemInstr) (i : Nat) : List Nat :=
  ((l[i]?).elim [] DemInstr.detIds).map (· + detOffsetAt l i)

/-- `model.num_detectors`: 1 + the largest absolute detector id mentioned, 0 if there is none. -/
def Dem.num_detectors (m : Dem) : Nat :=
  idBound ((List.range m.unroll.length).flatMap (absDetIds m.unroll))

/-- `model.num_observables`: 1 + the largest observable id mentioned, 0 if there is none. -/
def Dem.num_observables (m : Dem) : Nat := idBound (m.unroll.flatMap DemInstr.obsIds)

/-! ## networkx graphs -/

/-- Node attributes used by the code. -/
structure NodeData where
  isBoundary : Bool := false
  coords : Option (List Rat) := none
deriving DecidableEq, Repr

/-- Edge attributes used by the code; `none` = attribute absent. -/
structure EdgeData where
  weight : ℝ
  qubit_id : Option (List Nat) := none
  error_probability : Option Rat := none

/-- Unordered pair of nodes, smaller first. -/
def edgeKey (u v : Nat) : Nat × Nat := (min u v, max u v)

/-- `nx.Graph`. The adjacency maps of networkx are symmetric, so one entry per unordered pair is kept. -/
structure NxGraph where
  nodes : PyDict Nat NodeData := []
  edges : PyDict (Nat × Nat) EdgeData := []

namespace NxGraph

/-- `g.add_node(u)`: nothing if present. -/
def touch (g : NxGraph) (u : Nat) : NxGraph :=
  match g.nodes.get? u with
  | some _ => g
  | none => { g with nodes := g.nodes.set u {} }

/-- `g.add_node(u, coords=c)`: create or update. -/
def addCoordsNode (g : NxGraph) (u : Nat) (c : List Rat) : NxGraph :=
  let old : NodeData := (g.nodes.get? u).getD {}
  { g with nodes := g.nodes.set u { old with coords := some c } }

/-- `g.get_edge_data(u, v)`; `g.has_edge(u, v)` is `(g.edge? u v).isSome`. -/
def edge? (g : NxGraph) (u v : Nat) : Option EdgeData := g.edges.get? (edgeKey u v)

/-- `g.remove_edge(u, v)`. -/
def removeEdge (g : NxGraph) (u v : Nat) : NxGraph :=
  { g with edges := g.edges.filter fun e => e.1 ≠ edgeKey u v }

/-- `g.add_edge(u, v, weight=w, qubit_id=f, error_probability=p)`: adds missing end points; the attributes that
are given replace those of an existing edge, the others are kept. -/
def addEdge (g : NxGraph) (u v : Nat) (w : ℝ) (f : Option (List Nat)) (p : Option Rat) : NxGraph :=
  let g := (g.touch u).touch v
  let old := g.edge? u v
  let d : EdgeData :=
    { weight := w
      qubit_id := f <|> old.bind EdgeData.qubit_id
      error_probability := p <|> old.bind EdgeData.error_probability }
  { g with edges := g.edges.set (edgeKey u v) d }

end NxGraph

/-! ## `detector_error_model_to_nx_graph` (decoding.py:222-257) -/

/-- `math.log((1 - p) / p)` (decoding.py:250): ZeroDivisionError for `p = 0`, ValueError unless the argument is
positive. -/
noncomputable def logOdds (p : Rat) : Except PyErr ℝ :=
  if p = 0 then .error .zeroDivision
  else if (1 - p) / p ≤ 0 then .error .valueError
  else .ok (Real.log (((1 - p) / p : Rat) : ℝ))

/-- decoding.py:242-250, the part of `handle_error` for two end points. The comment there says that the edge seen
first is kept when the frame changes differ. -/
noncomputable def handleEdge (p : Rat) (u v : Nat) (frames : List Nat) (g : NxGraph) : Except PyErr NxGraph :=
  match g.edge? u v with
  | none => do
      let w ← logOdds p
      .ok (g.addEdge u v w (some frames) (some p))
  | some d =>
    match d.error_probability, d.qubit_id with
    | some oldP, some oldF =>
      if oldF.toFinset = frames.toFinset then do
        let p' := p * (1 - oldP) + oldP * (1 - p)
        let g := g.removeEdge u v
        let w ← logOdds p'
        .ok (g.addEdge u v w (some frames) (some p'))
      else do
        let w ← logOdds p
        .ok (g.addEdge u v w (some frames) (some p))
    | _, _ => .error .keyError

/-- decoding.py:229-250 `handle_error`. -/
noncomputable def handleError (boundary : Nat) (p : Rat) (dets frames : List Nat) (g : NxGraph) : Except PyErr NxGraph :=
  if p = 0 then .ok g
  else match dets with
    | [] => .ok g
    | [a] => handleEdge p a boundary frames g
    | [a, b] => handleEdge p a b frames g
    | _ => .error .notImplemented

/-- decoding.py:252-253 `handle_detector_coords`. -/
def handleDetectorCoords (d : Nat) (coords : List Rat) (g : NxGraph) : Except PyErr NxGraph :=
  .ok (g.addCoordsNode d coords)

/-- decoding.py:225-227: a new graph with only the boundary node. -/
def startGraph (boundary : Nat) : NxGraph :=
  { nodes := [(boundary, { isBoundary := true, coords := some [-1, -1, -1] })] }

/-- decoding.py:222-257 `detector_error_model_to_nx_graph`. -/
noncomputable def demToNxGraph (m : Dem) : Except PyErr NxGraph :=
  iterFlattenModel m { handleError := handleError m.num_detectors, handleCoords := handleDetectorCoords }
    (startGraph m.num_detectors)

/-! ## `detector_error_model_to_pymatching_graph` (decoding.py:260-277) -/

/-- The weight of the extra edges (decoding.py:274-275). -/
def spandrelWeight : ℝ := 9999999999

/-- decoding.py:270-275: the nodes and edges added to a graph with `nd` detectors and `no` observables. -/
noncomputable def addSpandrels (g : NxGraph) (nd no : Nat) : NxGraph :=
  let g := (List.range nd).foldl (fun g k => g.touch k) g
  let g := g.touch (nd + 1)
  let g := (List.range (nd + 1)).foldl (fun g k => g.addEdge k (nd + 1) spandrelWeight none none) g
  g.addEdge nd (nd + 1) spandrelWeight (some (List.range no)) none

/-- decoding.py:260-277 up to the call of `pymatching.Matching`: the graph handed over. -/
noncomputable def demToPymatchingGraph (m : Dem) : Except PyErr NxGraph := do
  let g ← demToNxGraph m
  .ok (addSpandrels g m.num_detectors m.num_observables)

/-! ## Sampling and counting (decoding.py:14-75) -/

/-- Rows of a boolean matrix. -/
abbrev BitMatrix := List (List Bool)

/-- The known decoder names (decoding.py:32-42) as (use internal decoder, use correlated decoding). -/
def decoderFlags (decoder : String) : Except PyErr (Bool × Bool) :=
  if decoder = "pymatching" then .ok (false, false)
  else if decoder = "internal" then .ok (true, false)
  else if decoder = "internal_correlated" then .ok (true, true)
  else .error .notImplemented

/-- `row[:-n]` for `n > 0`. -/
def dropLastN (n : Nat) (row : List Bool) : List Bool := row.take (row.length - n)

/-- `row[-n:]` for `n > 0`. -/
def takeLastN (n : Nat) (row : List Bool) : List Bool := row.drop (row.length - n)

/-- `m.shape == (rows, cols)`. -/
def hasShape (m : BitMatrix) (rows cols : Nat) : Bool := m.length == rows && m.all fun r => r.length == cols

/-- What the code needs to know about a circuit. -/
structure CircuitInfo where
  num_detectors : Nat
  num_observables : Nat
deriving DecidableEq, Repr

/-- decoding.py:14-75 `sample_decode_count_correct`. `samples` is what the detector sampler returns,
`decode useInternal correlated detSamples` what the chosen decode method returns for the model circuit. -/
def sampleDecodeCountCorrect (circuit : CircuitInfo) (model : Option CircuitInfo) (decoder : String)
    (samples : BitMatrix) (decode : Bool → Bool → BitMatrix → Except PyErr BitMatrix) : Except PyErr Nat := do
  let (internal, correlated) ← decoderFlags decoder
  let nd := circuit.num_detectors
  let no := circuit.num_observables
  match model with
  | none => .ok ()
  | some m => if m.num_detectors = nd ∧ m.num_observables = no then .ok () else .error .assertion
  let dets := if no = 0 then samples else samples.map (dropLastN no)
  let obs := if no = 0 then samples.map (fun _ => []) else samples.map (takeLastN no)
  if obs.length ≠ dets.length then .error .assertion
  else if !(hasShape obs obs.length no) then .error .assertion
  else if !(hasShape dets dets.length nd) then .error .assertion
  else do
    let preds ← decode internal correlated dets
    if !(hasShape preds obs.length no) then .error .assertion
    else .ok ((List.zipWith (fun p o => decide (p = o)) preds obs).count true)

/-- `np.resize(row, n)`: repeat the row cyclically (zeros if it is empty). -/
def npResize (row : List Bool) (n : Nat) : List Bool :=
  (List.range n).map fun i => row.getD (i % row.length) false

/-- decoding.py:96-97: the syndrome handed to pymatching for one shot. -/
def expandedDet (row : List Bool) (nd : Nat) : List Bool :=
  (npResize row (nd + 1)).set nd false

/-- decoding.py:78-99 `decode_using_pymatching`. `matching` is `matching_graph.decode`. -/
def decodeUsingPymatching (circuit : CircuitInfo) (dets : BitMatrix) (correlated : Bool)
    (matching : List Bool → List Bool) : Except PyErr BitMatrix :=
  if correlated then .error .notImplemented
  else if !(hasShape dets dets.length circuit.num_detectors) then .error .assertion
  else .ok (dets.map fun row => matching (expandedDet row circuit.num_detectors))

/-! ## The internal decoder (decoding.py:102-170) -/

/-- decoding.py:102-107 `internal_decoder_path`. -/
def internalDecoderPath (pathExists : String → Bool) : Option String :=
  (["./", "src/", "../"].map (· ++ "internal_decoder.binary")).find? pathExists

/-- `np.nonzero(row)[0]`. -/
def nonzero (row : List Bool) : List Nat := (List.range row.length).filter fun k => row.getD k false

/-- decoding.py:128-131: the text written for one shot. -/
def detsLine (row : List Bool) : List Char :=
  "shot".toList ++ ((nonzero row).flatMap fun k => " D".toList ++ Nat.toDigits 10 k) ++ ['\n']

/-- decoding.py:126-131: the contents of the dets file. -/
def detsFile (m : BitMatrix) : List Char := m.flatMap detsLine

/-- decoding.py:139-146: the command line. -/
def internalCommand (path dem dets out : String) (correlated : Bool) : String :=
  path ++ " -mode fi_match_from_dem -dem_fname '" ++ dem ++ "' -dets_fname '" ++ dets
    ++ "' -ignore_distance_1_errors -out '" ++ out ++ "'"
    ++ (if correlated then " -cheap_corr -edge_corr -node_corr" else "")

/-- decoding.py:164-167: the predictions of one shot. `f.read(1)` returns the empty string at the end of the
file, and `'' in '01'` holds. -/
def readRow : Nat → List Char → Except PyErr (List Bool × List Char)
  | 0, f => .ok ([], f)
  | n + 1, [] => do
      let (r, f) ← readRow n []
      .ok (false :: r, f)
  | n + 1, c :: f =>
      if c = '0' ∨ c = '1' then do
        let (r, f) ← readRow n f
        .ok ((c == '1') :: r, f)
      else .error .assertion

/-- decoding.py:161-168: reading the prediction file. -/
def readPredictions : Nat → Nat → List Char → Except PyErr BitMatrix
  | 0, _, _ => .ok []
  | shots + 1, no, f => do
      let (r, f) ← readRow no f
      match f with
      | '\n' :: f => do
          let rest ← readPredictions shots no f
          .ok (r :: rest)
      | _ => .error .assertion

/-- decoding.py:110-170 `decode_using_internal_decoder`. `run command detsText` gives the contents of the out file, or
`none` if the process fails (the exception is re-raised). -/
def decodeUsingInternal (circuit : CircuitInfo) (dets : BitMatrix) (correlated : Bool)
    (pathExists : String → Bool) (tmp : String) (run : String → List Char → Option (List Char)) : Except PyErr BitMatrix :=
  if !(hasShape dets dets.length circuit.num_detectors) then .error .assertion
  else match internalDecoderPath pathExists with
    | none => .error .runtimeError
    | some path =>
      match run (internalCommand path (tmp ++ "/model.dem") (tmp ++ "/shots.dets") (tmp ++ "/out.predictions") correlated)
          (detsFile dets) with
      | none => .error .runtimeError
      | some out => readPredictions dets.length circuit.num_observables out

end Honeycomb
