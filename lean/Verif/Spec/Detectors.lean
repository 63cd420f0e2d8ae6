import Verif.Model.Layout
import Mathlib.Data.Set.Lattice

/-!
# The detectors and observable annotations a honeycomb circuit should have

Sub-round `j` makes the measurements number `j * W * H / 2` to `(j + 1) * W * H / 2 - 1`, one per edge of
`round_edges j`, in this order. The final data measurements follow, in the order of `data_qubit_coords`. (This is
what `c22_measured` states.)
-/

namespace Honeycomb
namespace HoneycombLayout
variable (lay : HoneycombLayout)

/-- The number of the measurement of edge `e` in sub-round `j`. -/
def edgeRecord (j : Int) (e : Edge) : Int := j * (lay.data_width * lay.data_height / 2) + (lay.round_edges j).idxOf e

/-- The number of the final measurement of data qubit `q`. -/
def dataRecord (q : Pt) : Int := lay.sub_rounds * (lay.data_width * lay.data_height / 2) + lay.data_qubit_coords.idxOf q

/-- The measurements of the edges of face `h` in the given sub-rounds; sub-rounds before the first one have none. -/
def faceRecords (h : Pt) (rounds : List Int) : Set Int :=
  {m | ∃ j ∈ rounds, 0 ≤ j ∧ ∃ e ∈ lay.all_edges_around_hex h, e ∈ lay.round_edges j ∧ m = lay.edgeRecord j e}

/-- The final measurements of the data qubits of face `h`. -/
def faceData (h : Pt) : Set Int := {m | ∃ q ∈ lay.qubits_around_hex h, m = lay.dataRecord q}

/-- Whether the parity of the faces of category `c` is determined by the initial state and the sub-rounds before sub-round `k`.
The vertical observable starts with all data qubits in the +1 eigenstate of Z (category 2), the horizontal one in that of X (category 0). -/
def faceKnown (k c : Int) : Bool :=
  if lay.obs = "V" then c = 2 ∨ (c = 1 ∧ 1 ≤ k) ∨ (c = 0 ∧ 3 ≤ k)
  else c = 0 ∨ (c = 2 ∧ 2 ≤ k) ∨ (c = 1 ∧ 4 ≤ k)

/-- A detector: where it is and which measurements it compares. -/
structure ExpectedDetector where
  place : Pt
  records : Set Int

/-- The detectors of sub-round `k`: for the horizontal observable each edge of the first sub-round, and each face completed in this sub-round whose
parity was known before. In PC3 circuits a measurement yields the parity of an edge only together with the previous measurement
of the same edge, so the middle ones cancel. -/
def roundDetectors (k : Nat) : List ExpectedDetector :=
  (if k = 0 ∧ lay.obs = "H" then (lay.round_edges 0).map fun e => { place := e.center, records := {lay.edgeRecord 0 e} } else []) ++
  (if lay.faceKnown k (((k : Int) - 2) % 3) then
    (lay.round_hex_centers (((k : Int) - 2) % 3)).map fun h => {
      place := h
      records := lay.faceRecords h (if lay.style = "PC3" then [k, k - 1, k - 6, k - 7] else [k, k - 1, k - 3, k - 4]) }
   else [])

/-- The detectors after the final data measurement. The data qubits are measured in the basis of the last edge measurements (then each of these
edges is compared) or in the basis that follows it (then the half finished faces are completed); and the faces of that basis are compared. -/
def finalDetectors : List ExpectedDetector :=
  let n := lay.sub_rounds
  let pc3 := lay.style = "PC3"
  if (lay.obs = "V" ∧ n % 2 = 0) ∨ (lay.obs = "H" ∧ n % 2 = 1) then
    ((lay.round_edges (n - 1)).map fun e => {
      place := e.center
      records := {m | m = lay.dataRecord e.left ∨ m = lay.dataRecord e.right ∨ m = lay.edgeRecord (n - 1) e ∨
        (pc3 ∧ 4 ≤ n ∧ m = lay.edgeRecord (n - 4) e)} }) ++
    (if lay.faceKnown n ((n - 1) % 3) then (lay.round_hex_centers ((n - 1) % 3)).map fun h => {
      place := h
      records := lay.faceData h ∪ lay.faceRecords h (if pc3 then [n - 2, n - 3, n - 5, n - 6] else [n - 2, n - 3]) } else [])
  else
    (if lay.faceKnown n ((n - 2) % 3) then (lay.round_hex_centers ((n - 2) % 3)).map fun h => {
      place := h
      records := lay.faceData h ∪ lay.faceRecords h (if pc3 then [n - 1, n - 3, n - 6, n - 7] else [n - 1, n - 3, n - 4]) } else []) ++
    (if lay.faceKnown n (n % 3) then (lay.round_hex_centers (n % 3)).map fun h => {
      place := h
      records := lay.faceData h ∪ lay.faceRecords h (if pc3 then [n - 1, n - 2, n - 4, n - 5] else [n - 1, n - 2]) } else [])

/-- All detectors in order, each with its layer (the number of its sub-round, `sub_rounds` for the final ones). -/
def expectedDetectors : List (Nat × ExpectedDetector) :=
  ((List.range lay.sub_rounds.toNat).flatMap fun k => (lay.roundDetectors k).map fun x => (k, x)) ++
  lay.finalDetectors.map fun x => (lay.sub_rounds.toNat, x)

/-- The number of measurements made before the detectors of a layer. -/
def layerEnd (k : Nat) : Int :=
  if (k : Int) < lay.sub_rounds then (k + 1) * (lay.data_width * lay.data_height / 2)
  else lay.sub_rounds * (lay.data_width * lay.data_height / 2) + lay.data_width * lay.data_height

/-- The annotations of the logical observable in order: how many measurements precede each one, and which measurements it adds. `es` are the edges
of the observable, `qs` the qubits it occupies after the last sub-round. After each sub-round the measurements of its edges on the
observable are added; in PC3 circuits all but the last measurement of each edge cancel, and these are added at the end. -/
def expectedObservable (es : List Edge) (qs : List Pt) : List (Int × Set Int) :=
  let p := lay.data_width * lay.data_height / 2
  let n := lay.sub_rounds
  (if lay.style = "PC3" then
    [0, 1, 2].map fun r : Int => (n * p, {m | ∃ j, 0 ≤ j ∧ n - 3 ≤ j ∧ j < n ∧ j % 3 = r ∧ ∃ e ∈ es, e ∈ lay.round_edges j ∧ m = lay.edgeRecord j e})
   else
    (List.range n.toNat).map fun k : Nat => (((k : Int) + 1) * p, {m | ∃ e ∈ es, e ∈ lay.round_edges k ∧ m = lay.edgeRecord k e})) ++
  [(n * p + lay.data_width * lay.data_height, {m | ∃ q ∈ qs, m = lay.dataRecord q})]

end HoneycombLayout
end Honeycomb
