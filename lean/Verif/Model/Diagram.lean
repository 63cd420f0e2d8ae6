import Verif.Model.Csv
import Verif.Model.Noise

/-!
# Model of `src/circuit_diagrams.py`

Coordinates are half-integer complex numbers (`Pt`), texts are lists of characters.
-/

namespace Honeycomb

/-- One pass of the loop body of circuit_diagrams.py:13-21 over a circuit (`for op in c`). -/
def iterOnce : Circuit → Int → List Instr
  | .nil, _ => []
  | .op i c, nested => (if nested ≤ 0 ∨ i.gate = .QUBIT_COORDS then [i] else []) ++ iterOnce c nested
  | .rep n body c, nested =>
      (List.replicate (if nested ≤ 0 then n else 1) (iterOnce body (nested - 1))).flatten ++ iterOnce c nested

/-- circuit_diagrams.py:12-21 `_iter_circuit` (all yielded instructions, in order). -/
def iterCircuit (c : Circuit) (reps nested : Int) : List Instr :=
  (pyRange reps).flatMap fun _ => iterOnce c nested

/-- `text.rstrip()`. -/
def rstrip (t : Text) : Text := (t.reverse.dropWhile isBlank).reverse

/-- circuit_diagrams.py:35-37: `n` times assert that the line ends with a blank and remove it. -/
def popBlanks : Nat → Text → Except PyErr Text
  | 0, line => .ok line
  | n + 1, line => if line.getLast? = some ' ' then popBlanks n line.dropLast else .error .assertion

/-- circuit_diagrams.py:34-38: put a text such that it ends at the current column. -/
def placeText (line c : Text) : Except PyErr Text := do
  let line ← popBlanks (c.length - 1) line
  return line ++ c

/-- circuit_diagrams.py:32-38: one line. -/
def diagramLine (values : PyDict Pt Text) (w y : Int) : Except PyErr Text :=
  (pyRange w).foldlM (fun line x => placeText line ((values.get? (Pt.ofInt x y)).getD [' '])) []

/-- circuit_diagrams.py:31-39: all lines. -/
def diagramLines (values : PyDict Pt Text) (w h : Int) : Except PyErr Text :=
  (pyRange h).foldlM (fun s y => do return s ++ rstrip (← diagramLine values w y) ++ ['\n']) []

/-- `int(max((v.real for v in values), default=0) + 1)` for integral coordinates, from the doubled coordinates. -/
def extent (doubled : List Int) : Int := doubled.max?.getD 0 / 2 + 1

/-- circuit_diagrams.py:24-40 `diagram_2d`. The values are given by their texts `str(value)`. -/
def diagram2d (values : PyDict Pt Text) : Except PyErr Text := do
  if ¬ values.keys.all (fun v => v.x % 2 = 0) then throw .assertion
  if ¬ values.keys.all (fun v => v.y % 2 = 0) then throw .assertion
  if ¬ values.keys.all (fun v => v.x ≥ 0 ∧ v.y ≥ 0) then throw .assertion
  let s ← diagramLines values (extent (values.keys.map Pt.x)) (extent (values.keys.map Pt.y))
  return rstrip s

end Honeycomb
