import Mathlib.Data.Rat.Floor
import Verif.Model.Diagram

/-!
# Model of `plot_circuit` and `diagram_3d` (`src/circuit_diagrams.py`)

Complex numbers are pairs of exact rationals. The texts in the cells are single characters (every text that `plot_circuit` writes has
one character).
-/

namespace Honeycomb

/-- A Python `complex`: real and imaginary part. -/
abbrev Cx := Rat × Rat

/-- circuit_diagrams.py:52-56 `plot` (and `round_complex`) for `n = len(values)` levels: column (real part) and line (imaginary
part) of a point. -/
def plotCell (n : Nat) (xy : Cx) (z : Nat) : Int × Int :=
  (⌈(xy.2 + 2) * (n + 3) + z⌉, ⌈(xy.1 + 1) * (n + 2) + z⌉)

/-- circuit_diagrams.py:64-87, the body of the loop for one connector on level `z`: the additional entries of `plotted_connectors`
and of `plotted_values`. -/
def plotConnector (n : Nat) (min_r max_r min_i max_i : Rat) (z : Nat) (a b : Cx) :
    List ((Int × Int) × (Int × Int)) × List ((Int × Int) × Char) :=
  let v1 := min a.1 b.1
  let v2 := max b.1 a.1
  let w1 := min a.2 b.2
  let w2 := max b.2 a.2
  if v1 = min_r ∧ v2 = max_r then
    ([(plotCell n (v1, a.2) z, plotCell n (v1 - 1 / 2, a.2) z), (plotCell n (v2, b.2) z, plotCell n (v2 + 1 / 2, b.2) z)],
     [(plotCell n (v1 - 1 / 2, a.2) z, '~'), (plotCell n (v2 + 1 / 2, b.2) z, '~')])
  else if w1 = min_i ∧ w2 = max_i then
    ([(plotCell n (a.1, w1) z, plotCell n (a.1, w1 - 1 / 2) z), (plotCell n (b.1, w2) z, plotCell n (b.1, w2 + 1 / 2) z)],
     [(plotCell n (a.1, w1 - 1 / 2) z, '~'), (plotCell n (b.1, w2 + 1 / 2) z, '~')])
  else ([(plotCell n a z, plotCell n b z)], [])

/-- circuit_diagrams.py:91-100: a connector within a column. -/
def drawColumn (p1 p2 : Int × Int) (projected : PyDict (Int × Int) Char) : PyDict (Int × Int) Char :=
  if p1.1 = p2.1 then
    (pyRange2 (min p1.2 p2.2) (max p1.2 p2.2 + 1)).foldl (fun projected k =>
      let key := (p1.1, k)
      if (projected.get? key).getD ' ' ∈ ['-', '+'] then projected.set key '+' else projected.set key '|') projected
  else projected

/-- circuit_diagrams.py:101-112: a connector within a line. -/
def drawLine (p1 p2 : Int × Int) (projected : PyDict (Int × Int) Char) : PyDict (Int × Int) Char :=
  if p1.2 = p2.2 then
    (pyRange2 (min p1.1 p2.1) (max p1.1 p2.1 + 1)).foldl (fun projected k =>
      let key := (k, p1.2)
      if (projected.get? key).getD ' ' ∈ ['|', '+'] then projected.set key '+'
      else if (projected.get? key).getD ' ' = '-' then projected.set key '='
      else projected.set key '-') projected
  else projected

/-- `min(iterable)`: raises ValueError if there is nothing. -/
def pyMin (l : List Rat) : Except PyErr Rat := match l.min? with
  | some m => .ok m
  | none => .error .valueError

/-- `max(iterable)`: raises ValueError if there is nothing. -/
def pyMax (l : List Rat) : Except PyErr Rat := match l.max? with
  | some m => .ok m
  | none => .error .valueError

/-- circuit_diagrams.py:58-115: what `diagram_3d` passes to `diagram_2d`. -/
def projectLevels (values : List (PyDict Cx Char)) (connector_levels : List (List (Cx × Cx))) :
    Except PyErr (PyDict (Int × Int) Char) := do
  let keys := values.flatMap PyDict.keys
  let min_r ← pyMin (keys.map Prod.fst)
  let max_r ← pyMax (keys.map Prod.fst)
  let min_i ← pyMin (keys.map Prod.snd)
  let max_i ← pyMax (keys.map Prod.snd)
  let n := values.length
  let symbols := values.zipIdx.flatMap fun (vs, z) => vs.map fun (xy, c) => (plotCell n xy z, c)
  let drawn := (connector_levels.zip values).zipIdx.map fun ((lvl, _), z) =>
    lvl.map fun (a, b) => plotConnector n min_r max_r min_i max_i z a b
  let plotted_connectors := drawn.flatten.flatMap Prod.fst
  let plotted_values := PyDict.ofItems (symbols ++ drawn.flatten.flatMap Prod.snd)
  let projected := plotted_connectors.foldl (fun projected (p1, p2) => drawLine p1 p2 (drawColumn p1 p2 projected)) []
  return plotted_values.foldl (fun projected (p, c) => projected.set p c) projected

/-- circuit_diagrams.py:43-117 `diagram_3d`. -/
def diagram3d (values : List (PyDict Cx Char)) (connector_levels : List (List (Cx × Cx))) : Except PyErr Text := do
  let projected ← projectLevels values connector_levels
  diagram2d (projected.map fun (p, c) => (Pt.ofInt p.1 p.2, [c]))

/-- `t.value` of a target. -/
def Target.value : Target → Int
  | .q i => i
  | .record k => k
  | .pauli _ i => i
  | .comb => 0

/-- The local variables of `plot_circuit` (circuit_diagrams.py:121-126). -/
structure PlotState where
  i2q : PyDict Int Cx := []
  seen_coords : List Cx := []
  levels : List (PyDict Cx Char) := []
  connectors : List (List (Cx × Cx)) := []
  cur_level : PyDict Cx Char := []
  cur_connectors : List (Cx × Cx) := []

/-- `i2q[q]`. -/
def PlotState.at (s : PlotState) (q : Int) : Except PyErr Cx := match s.i2q.get? q with
  | some p => .ok p
  | none => .error .keyError

/-- `assert q not in cur_level; cur_level[q] = s` (circuit_diagrams.py:149-150, 156-159, 184-190). -/
def PlotState.mark (s : PlotState) (p : Cx) (c : Char) : Except PyErr PlotState :=
  if p ∈ s.cur_level.keys then .error .assertion else .ok { s with cur_level := s.cur_level.set p c }

/-- circuit_diagrams.py:129-136, one target of `QUBIT_COORDS`. -/
def PlotState.addCoords (args : List Arg) (s : PlotState) (t : Target) : Except PyErr PlotState :=
  match args with
  | [.lit r, .lit i] =>
    let p : Cx := (r, 2 * i)
    if t.value ∈ s.i2q.keys then .error .assertion
    else if p ∈ s.seen_coords then .error .assertion
    else .ok { s with i2q := s.i2q.set t.value p, seen_coords := s.seen_coords ++ [p] }
  | _ => .error .valueError

/-- circuit_diagrams.py:137-146: the character of an operation on single qubits. -/
def plotSymbol1 : Gate → Option Char
  | .M => some 'M'
  | .R => some 'R'
  | .H => some 'H'
  | .H_YZ => some 'G'
  | .C_XYZ => some 'C'
  | .C_ZYX => some 'C'
  | .other "MR" => some 'D'
  | .MY => some 'm'
  | .MX => some 'm'
  | _ => none

/-- circuit_diagrams.py:151, 157, 159: the characters of a two-qubit operation: `"@"` for a name of two letters and the first letter
otherwise; the last letter. -/
def plotSymbol2 : Gate → Option (Char × Char)
  | .CX => some ('@', 'X')
  | .CY => some ('@', 'Y')
  | .CZ => some ('@', 'Z')
  | .XCX => some ('X', 'X')
  | .XCY => some ('X', 'Y')
  | .XCZ => some ('X', 'Z')
  | .YCX => some ('Y', 'X')
  | .YCY => some ('Y', 'Y')
  | .YCZ => some ('Y', 'Z')
  | _ => none

/-- circuit_diagrams.py:147-150, one target. -/
def PlotState.plot1 (c : Char) (s : PlotState) (t : Target) : Except PyErr PlotState := do
  s.mark (← s.at t.value) c

/-- circuit_diagrams.py:153-160: the pairs of targets. An odd number of targets raises IndexError. -/
def PlotState.plot2 (c1 c2 : Char) (s : PlotState) : List Target → Except PyErr PlotState
  | [] => .ok s
  | [t1] => do
    let _ ← s.at t1.value
    throw .indexError
  | t1 :: t2 :: rest => do
    let q1 ← s.at t1.value
    let q2 ← s.at t2.value
    let s ← s.mark q1 c1
    let s ← s.mark q2 c2
    PlotState.plot2 c1 c2 { s with cur_connectors := s.cur_connectors ++ [(q1, q2)] } rest

/-- circuit_diagrams.py:173-178, one target: `groups` with its last element first. -/
def plotGroupStep (groups : List (List Target)) (t : Target) : Except PyErr (List (List Target)) :=
  match groups, t with
  | [], _ => .error .indexError
  | _ :: groups, .comb => .ok groups
  | g :: groups, t => .ok ([] :: (g ++ [t]) :: groups)

/-- circuit_diagrams.py:171-179: the products of an `MPP`. -/
def plotGroupsOf (ts : List Target) : Except PyErr (List (List Target)) := do
  match ← ts.foldlM plotGroupStep [[]] with
  | [] => throw .indexError
  | _ :: groups => return groups.reverse

/-- circuit_diagrams.py:182-192, one factor of a product. -/
def PlotState.plotFactor (s : PlotState) (t : Target) : Except PyErr PlotState := do
  let q ← s.at t.value
  match t with
  | .pauli .X _ => s.mark q 'x'
  | .pauli .Y _ => s.mark q 'y'
  | .pauli .Z _ => s.mark q 'z'
  | _ => if q ∈ s.cur_level.keys then throw .assertion else throw .notImplemented

/-- circuit_diagrams.py:181-194, one product. -/
def PlotState.plotProduct (s : PlotState) (g : List Target) : Except PyErr PlotState := do
  if ¬ (1 ≤ g.length ∧ g.length ≤ 2) then throw .assertion
  let s ← g.foldlM PlotState.plotFactor s
  match g with
  | [t1, t2] => return { s with cur_connectors := s.cur_connectors ++ [(← s.at t1.value, ← s.at t2.value)] }
  | _ => return s

/-- circuit_diagrams.py:166-169: the instructions that are not drawn. -/
def notDrawn : List Gate := [.DETECTOR, .OBSERVABLE_INCLUDE, .SHIFT_COORDS, .X_ERROR, .DEPOLARIZE1, .DEPOLARIZE2]

/-- circuit_diagrams.py:128-196, the body of the loop of `plot_circuit` for one instruction. -/
def PlotState.step (s : PlotState) (op : Instr) : Except PyErr PlotState :=
  if op.gate = .QUBIT_COORDS then op.targets.foldlM (PlotState.addCoords op.args) s
  else match plotSymbol1 op.gate with
    | some c => op.targets.foldlM (PlotState.plot1 c) s
    | none => match plotSymbol2 op.gate with
      | some (c1, c2) => s.plot2 c1 c2 op.targets
      | none =>
        if op.gate = .TICK then
          .ok { s with levels := s.levels ++ [s.cur_level], connectors := s.connectors ++ [s.cur_connectors],
                       cur_level := [], cur_connectors := [] }
        else if op.gate ∈ notDrawn then .ok s
        else if op.gate = .MPP then do (← plotGroupsOf op.targets).foldlM PlotState.plotProduct s
        else .error .notImplemented

/-- circuit_diagrams.py:197-199: the last level, if anything is in it. -/
def PlotState.finish (s : PlotState) : PlotState :=
  if s.cur_level.isEmpty then s
  else { s with levels := s.levels ++ [s.cur_level], connectors := s.connectors ++ [s.cur_connectors] }

/-- circuit_diagrams.py:200-203: the other qubits of a level. -/
def fillLevel (qs : List Cx) (level : PyDict Cx Char) : PyDict Cx Char :=
  qs.foldl (fun level q => if q ∈ level.keys then level else level.set q '\\') level

/-- circuit_diagrams.py:121-203: the arguments of `diagram_3d`. -/
def plotLevels (c : Circuit) (only_repeat_block : Bool) : Except PyErr (List (PyDict Cx Char) × List (List (Cx × Cx))) := do
  let s ← (iterCircuit c 1 (if only_repeat_block then 1 else 0)).foldlM PlotState.step {}
  let s := s.finish
  return (s.levels.map (fillLevel s.i2q.values), s.connectors)

/-- circuit_diagrams.py:120-204 `plot_circuit`. -/
def plotCircuit (c : Circuit) (only_repeat_block : Bool) : Except PyErr Text := do
  let (levels, connectors) ← plotLevels c only_repeat_block
  diagram3d levels connectors

end Honeycomb
