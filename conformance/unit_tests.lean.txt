import Verif.Model.Noise
import Verif.Model.Tracker
import Verif.Model.Diagram

/-!
The assertions of `honeycomb_layout_test.py`, `measure_tracker_test.py` and `noise_test.py`, evaluated on the model.
Run with `lake env lean --stdin < ../conformance/unit_tests.lean.txt` in `/verif/lean`: no output means that every assertion holds.
-/

open Honeycomb

/-! ## honeycomb_layout_test.py -/

/-- A complex number with coordinates in halves. -/
def z (x y : Rat) : Pt := ⟨(2 * x).num, (2 * y).num⟩

def ctx1 : HoneycombLayout := ⟨2, 6, 18, "SD6", "V", 1 / 1000⟩
def ctx2 : HoneycombLayout := ⟨4, 12, 18, "SD6", "V", 1 / 1000⟩
def ctx3 : HoneycombLayout := ⟨6, 18, 18, "SD6", "V", 1 / 1000⟩
def E (l r c : Pt) : Edge := mkEdge l r c

#guard ctx1.wrap (z (-1) 0) = z 3 0
#guard ctx1.wrap (z 0 (-1)) = z 0 5
#guard ctx3.wrap (z (-1) 0) = z 11 0
#guard ctx3.wrap (z 0 (-1)) = z 0 17
#guard ctx1.first_edges_around_hex (z 0 0) = [E (z 1 0) (z 1 5) (z 1 5.5), E (z 1 1) (z 3 1) (z 0 1), E (z 3 0) (z 3 5) (z 3 5.5)]
#guard ctx1.second_edges_around_hex (z 0 0) = [E (z 3 5) (z 1 5) (z 0 5), E (z 1 0) (z 1 1) (z 1 0.5), E (z 3 0) (z 3 1) (z 3 0.5)]
#guard ctx1.all_edges_around_hex (z 0 0) = ctx1.first_edges_around_hex (z 0 0) ++ ctx1.second_edges_around_hex (z 0 0)
#guard ctx1.qubits_around_hex (z 0 0) = [z 1 0, z 1 1, z 1 5, z 3 0, z 3 1, z 3 5]
#guard ctx1.data_qubit_coords = [z 1 0, z 1 1, z 1 2, z 1 3, z 1 4, z 1 5, z 3 0, z 3 1, z 3 2, z 3 3, z 3 4, z 3 5]
#guard ctx1.measure_qubit_coords = [z 0 1, z 0 3, z 0 5, z 1 0.5, z 1 1.5, z 1 2.5, z 1 3.5, z 1 4.5, z 1 5.5, z 2 0, z 2 2, z 2 4,
  z 3 0.5, z 3 1.5, z 3 2.5, z 3 3.5, z 3 4.5, z 3 5.5]
#guard ctx3.data_qubit_coords.length = ctx1.data_qubit_coords.length * 3 * 3
#guard ctx3.measure_qubit_coords.length = ctx1.measure_qubit_coords.length * 3 * 3
#guard ctx1.data_qubit_indices.length = ctx1.data_qubit_coords.length
#guard ctx1.q2i.length = 30
#guard ctx1.qubit_indices_except [2, 3, 4] = [0, 1] ++ (List.range 25).map (· + 5)
#guard ctx1.coord_width = 4 ∧ ctx1.coord_height = 6 ∧ ctx3.coord_width = 12 ∧ ctx3.coord_height = 18
#guard ctx1.round_hex_centers 0 = [z 0 0, z 2 3]
#guard ctx1.round_hex_centers 1 = [z 0 4, z 2 1]
#guard ctx1.round_hex_centers 2 = [z 0 2, z 2 5]
#guard ctx2.round_hex_centers 0 = [z 0 0, z 0 6, z 2 3, z 2 9, z 4 0, z 4 6, z 6 3, z 6 9]
#guard ctx1.obs_v_qubits = [z 1 0, z 1 1, z 1 2, z 1 3, z 1 4, z 1 5]
#guard ctx1.obs_v_before_sub_round 0 = (.Z, [z 1 1, z 1 2, z 1 4, z 1 5])
#guard ctx1.obs_v_edges = [E (z 1 0) (z 1 1) (z 1 0.5), E (z 1 1) (z 1 2) (z 1 1.5), E (z 1 2) (z 1 3) (z 1 2.5),
  E (z 1 3) (z 1 4) (z 1 3.5), E (z 1 4) (z 1 5) (z 1 4.5), E (z 1 5) (z 1 0) (z 1 5.5)]
#guard ctx1.obs_h_qubits = [z 1 1, z 1 0, z 3 0, z 3 1]
#guard ctx2.obs_h_qubits = [z 1 1, z 1 0, z 3 0, z 3 1, z 5 1, z 5 0, z 7 0, z 7 1]
#guard ctx1.obs_h_before_sub_round 0 = (.X, [z 1 1, z 1 0, z 3 0, z 3 1])
#guard ctx2.obs_h_before_sub_round 0 = (.X, [z 1 1, z 1 0, z 3 0, z 3 1, z 5 1, z 5 0, z 7 0, z 7 1])
#guard ctx2.obs_h_before_sub_round 1 = (.X, [z 1 1, z 3 1, z 5 1, z 7 1])
#guard ctx2.obs_h_before_sub_round 2 = (.Z, [z 1 1, z 3 1, z 5 1, z 7 1])
#guard ctx2.obs_h_before_sub_round 3 = (.Z, [z 1 0, z 3 0, z 5 0, z 7 0])
#guard ctx2.obs_h_before_sub_round 4 = (.Y, [z 1 0, z 3 0, z 5 0, z 7 0])
#guard ctx2.obs_h_before_sub_round 5 = (.Y, [z 1 1, z 1 0, z 3 0, z 3 1, z 5 1, z 5 0, z 7 0, z 7 1])
#guard ctx1.obs_h_edges = [E (z 1 1) (z 3 1) (z 0 1), E (z 1 0) (z 1 1) (z 1 0.5), E (z 3 0) (z 1 0) (z 2 0), E (z 3 1) (z 3 0) (z 3 0.5)]
#guard ctx1.round_edges 0 = [E (z 1 3) (z 3 3) (z 0 3), E (z 1 1) (z 1 2) (z 1 1.5), E (z 1 4) (z 1 5) (z 1 4.5), E (z 1 0) (z 3 0) (z 2 0),
  E (z 3 1) (z 3 2) (z 3 1.5), E (z 3 4) (z 3 5) (z 3 4.5)]
#guard ctx1.round_edges 1 = [E (z 1 1) (z 3 1) (z 0 1), E (z 1 2) (z 1 3) (z 1 2.5), E (z 1 5) (z 1 0) (z 1 5.5), E (z 1 4) (z 3 4) (z 2 4),
  E (z 3 2) (z 3 3) (z 3 2.5), E (z 3 5) (z 3 0) (z 3 5.5)]
#guard ctx1.all_edges.length = (ctx1.round_edges 0).length * 3 ∧ ctx1.all_edges.length = (ctx1.round_edges 2).length * 3
def ctx21 : HoneycombLayout := ⟨4, 6, 18, "SD6", "V", 1 / 1000⟩
def ctx21em : HoneycombLayout := ⟨4, 6, 18, "EM3", "V", 1 / 1000⟩
#guard ctx21.code_distance_1qdep = 4 ∧ ctx1.code_distance_1qdep = 2
#guard [ctx1, ctx2, ctx21, ctx21em].all fun c => c.num_qubits = c.used_qubit_indices.length

/-- The diagram of the tests: the model of `circuit_diagrams.diagram_2d`, with four spaces before every line. -/
def drawn (d : PyDict Pt Text) : Option (List String) :=
  match diagram2d d with
  | .ok t => some ((t.splitOn '\n').map String.ofList)
  | .error _ => none

def hexLetter (k : Int) : Text := ["XYZ".toList.getD k.toNat ' ']

def layoutDiagram : PyDict Pt Text := Id.run do
  let ctx : HoneycombLayout := ⟨4, 12, 20, "SD6", "V", 1 / 1000⟩
  let scale (p : Pt) : Pt := ⟨p.x * 8, p.y * 2⟩
  let mut d : PyDict Pt Text := []
  for q in ctx.data_qubit_coords do d := d.set (scale q) ['q']
  for q in ctx.measure_qubit_coords do d := d.set (scale q) ['m']
  for (k, v) in ctx.hexCenterCategories do d := d.set (scale k) (hexLetter v)
  for r in [0, 1, 2, 3, 4, 5] do
    let (p, qs) := ctx.obs_v_before_sub_round r
    for q in qs do d := d.set ⟨(scale q).x + 2 * (r + 1), (scale q).y⟩ (hexLetter p.index)
  return d

#guard drawn layoutDiagram = some [
  "X       q  YXXZ m       q       X       q       m       q",
  "        m               m               m               m",
  "m       qZYYX   Y       q       m       q       Y       q",
  "        m               m               m               m",
  "Z       qZY  XZ m       q       Z       q       m       q",
  "        m               m               m               m",
  "m       q  YXXZ X       q       m       q       X       q",
  "        m               m               m               m",
  "Y       qZYYX   m       q       Y       q       m       q",
  "        m               m               m               m",
  "m       qZY  XZ Z       q       m       q       Z       q",
  "        m               m               m               m",
  "X       q  YXXZ m       q       X       q       m       q",
  "        m               m               m               m",
  "m       qZYYX   Y       q       m       q       Y       q",
  "        m               m               m               m",
  "Z       qZY  XZ m       q       Z       q       m       q",
  "        m               m               m               m",
  "m       q  YXXZ X       q       m       q       X       q",
  "        m               m               m               m",
  "Y       qZYYX   m       q       Y       q       m       q",
  "        m               m               m               m",
  "m       qZY  XZ Z       q       m       q       Z       q",
  "        m               m               m               m"]

/-- The indices of `test_ctx_indexing`, listed instead of drawn: the numbers of the expected diagram, row by row. -/
def indexRows : List (List (Option String)) :=
  let s (a : String) : Option String := some a
  [[s "X", s "0", s "21", s "6"], [none, s "15", none, s "24"], [s "12", s "1", s "Y", s "7"], [none, s "16", none, s "25"],
   [s "Z", s "2", s "22", s "8"], [none, s "17", none, s "26"], [s "13", s "3", s "X", s "9"], [none, s "18", none, s "27"],
   [s "Y", s "4", s "23", s "10"], [none, s "19", none, s "28"], [s "14", s "5", s "Z", s "11"], [none, s "20", none, s "29"]]

#guard indexRows.zipIdx.all fun (row, y) => row.zipIdx.all fun (v, x) =>
  let p : Pt := ⟨2 * x, y⟩
  let actual : Option String := match ctx1.q2i.get? p with
    | some i => some (toString i)
    | none => (ctx1.hexCenterCategories.get? p).map fun k => String.ofList (hexLetter k)
  actual = v

/-! ## measure_tracker_test.py -/

def times (m : Tracker String) (keys : List (TKey String)) : Option (Option (List Nat)) :=
  match m.timeSet keys with
  | .ok (some s) => some (some (s.sort (· ≤ ·)))
  | .ok none => some none
  | .error _ => none

def pl (s : String) : TKey String := .plain s
def pv (s : String) : TKey String := .mkPrev (.plain s)
def m0 : Tracker String := .empty
def m1 : Tracker String := m0.addMeasurements ["a"]
def m2 : Tracker String := m1.addMeasurements ["a"]
#guard times m0 [pl "a"] = none
#guard times m0 [pv "a"] = none
#guard times m1 [pl "a"] = some (some [0])
#guard times m1 [pv "a"] = none
#guard times m2 [pl "a"] = some (some [1])
#guard times m2 [pv "a"] = some (some [0])
#guard times m2 [pl "a", pv "a"] = some (some [0, 1])
#guard times m2 [pl "a", pl "a", pv "a"] = some (some [0])
def m3 : Tracker String := ((m0.addDummies ["a"]).addDummies ["b"] true).addMeasurements ["c"]
#guard times m3 [pl "a"] = some (some [])
#guard times m3 [pl "b"] = some none
#guard times m3 [pl "c"] = some (some [0])
#guard times m3 [pl "a", pl "b"] = some none
#guard times m3 [pl "c", pl "b"] = some none
#guard times m3 [pl "a", pl "c"] = some (some [0])
#guard times m3 [pl "a", pl "b", pl "c"] = some none

/-! ## noise_test.py -/

/-- Stim merges adjacent instructions with the same name and arguments; the model does not. -/
def fuse : Circuit → Circuit
  | .nil => .nil
  | .op i c =>
    if i.gate ≠ .TICK ∧ i.targets = [] then fuse c
    else match fuse c with
    | .op j d => if i.gate = j.gate ∧ i.args = j.args ∧ i.gate ≠ .TICK then .op { i with targets := i.targets ++ j.targets } d else .op i (.op j d)
    | d => .op i d
  | .rep n b c => .rep n (fuse b) (fuse c)

def on (g : Gate) (qs : List Nat) : Instr := .on g qs
def dep1 (p : Rat) (qs : List Nat) : Instr := { gate := .DEPOLARIZE1, targets := qs.map .q, args := [.lit p] }
def dep2 (p : Rat) (qs : List Nat) : Instr := { gate := .DEPOLARIZE2, targets := qs.map .q, args := [.lit p] }
def xerr (p : Rat) (qs : List Nat) : Instr := { gate := .X_ERROR, targets := qs.map .q, args := [.lit p] }
def mpp (a : List Arg) : Instr := { gate := .MPP, targets := [.pauli .X 1, .comb, .pauli .X 2], args := a }
def noisy (nm : NoiseModel) (c : Circuit) : Option Circuit :=
  match nm.noisyCircuit c with
  | .ok d => some (fuse d)
  | .error _ => none
def refused (nm : NoiseModel) (c : Circuit) : Bool :=
  match nm.noisyCircuit c with
  | .error .notImplemented => true
  | _ => false
def L (l : List Instr) : Circuit := .ofList l
def T : Instr := .tick
def p8 : Rat := 1 / 8

#guard noisy (.SD6 p8) .nil = some .nil
#guard noisy (.SD6 p8) (L [on .CX [1, 2]]) = some (L [on .CX [1, 2], dep2 p8 [1, 2], dep1 p8 [0]])
#guard noisy (.SD6 p8) (L [on .CX [1, 2], T]) = some (L [on .CX [1, 2], dep2 p8 [1, 2], dep1 p8 [0], T])
#guard noisy (.SD6 p8) (L [on .CX [1, 2], T, on .H [2]]) =
  some (L [on .CX [1, 2], dep2 p8 [1, 2], dep1 p8 [0], T, on .H [2], dep1 p8 [2, 0, 1]])
#guard noisy (.SD6 p8) (L [on .M [1]]) = some (L [xerr p8 [1], on .M [1], dep1 p8 [0]])
#guard noisy (.SD6 p8) (L [on .R [1]]) = some (L [on .R [1], xerr p8 [1], dep1 p8 [0]])
#guard noisy (.SD6 p8) (L [on .R [2], T] ++ .rep 100 (L [on .CX [0, 1], T]) .nil) =
  some (L [on .R [2], xerr p8 [2], dep1 p8 [0, 1], T] ++ .rep 100 (L [on .CX [0, 1], dep2 p8 [0, 1], dep1 p8 [2], T]) .nil)
#guard refused (.SD6 p8) (L [mpp []])
#guard noisy (.EM3_v1 p8) .nil = some .nil
#guard refused (.EM3_v1 p8) (L [on .CX [1, 2]])
#guard noisy (.EM3_v1 p8) (L [mpp []]) = some (L [dep2 p8 [1, 2], mpp [.lit p8], dep1 p8 [0]])
#guard noisy (.EM3_v1 p8) (L [on .R [1], T, mpp []]) =
  some (L [on .R [1], xerr p8 [1], dep1 p8 [0, 2], T, dep2 p8 [1, 2], mpp [.lit p8], dep1 p8 [0]])
def coords : Instr := { gate := .QUBIT_COORDS, targets := [.q 0], args := [.lit 2, .lit 3] }
#guard noisy (.SI1000 (1 / 1000)) (L [coords]) = some (L [coords])
#guard noisy (.SI1000 (1 / 1000)) (L [on .C_XYZ [1], T, on .CZ [1, 2], T, on .M [3], T, on .R [2]]) =
  some (L [on .C_XYZ [1], dep1 (1 / 10000) [1, 0, 2, 3], T,
    on .CZ [1, 2], dep2 (1 / 1000) [1, 2], dep1 (1 / 10000) [0, 3], T,
    xerr (5 / 1000) [3], on .M [3], dep1 (1 / 10000) [0, 1, 2], dep1 (2 / 1000) [0, 1, 2], T,
    on .R [2], xerr (2 / 1000) [2], dep1 (1 / 10000) [0, 1, 3], dep1 (2 / 1000) [0, 1, 3]])
#guard noisy (.PC3 p8) .nil = some .nil
#guard noisy (.PC3 p8) (L [on .C_XYZ [1], T, on .XCX [1, 2], T, on .M [3], T, on .R [2]]) =
  some (L [on .C_XYZ [1], dep1 p8 [1, 0, 2, 3], T, on .XCX [1, 2], dep2 p8 [1, 2], dep1 p8 [0, 3], T,
    xerr p8 [3], on .M [3], dep1 p8 [0, 1, 2], T, on .R [2], xerr p8 [2], dep1 p8 [0, 1, 3]])
