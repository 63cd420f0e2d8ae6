import Verif.Model.Py

/-!
# Model of `src/honeycomb_layout.py`

Every definition cites the lines it models. Coordinates are doubled (see `Pt`).
-/

namespace Honeycomb

/-- A measurement basis: one character of the string `"XYZ"`. -/
inductive Basis where
  | X | Y | Z
deriving DecidableEq, Repr, Inhabited

/-- `"XYZ"[k % 3]`. -/
def Basis.ofIdx (k : Int) : Basis := if k % 3 = 0 then .X else if k % 3 = 1 then .Y else .Z

/-- `"XYZ".index(b)`. -/
def Basis.index : Basis → Int
  | .X => 0
  | .Y => 1
  | .Z => 2

/-- honeycomb_layout.py:14-16 `_data_qubit_parity`: `(q.real // 2 + q.imag) % 2 != 0`.
(`q.real // 2` is `x / 4` in doubled coordinates; the sum and the modulus are doubled.) -/
def dataQubitParity (q : Pt) : Bool := decide ((2 * (q.x / 4) + q.y) % 4 ≠ 0)

/-- honeycomb_layout.py:19-25, the attributes of an `Edge`. Equality (lines 30-44) is equality of the
triple `(left, right, center)`. -/
@[ext] structure Edge where
  left : Pt
  right : Pt
  center : Pt
deriving DecidableEq, Repr, Inhabited

/-- The tuple comparison `(parity(left), left.real, left.imag) > (parity(right), ...)` of line 21. -/
def edgeKeyGt (l r : Pt) : Bool :=
  match dataQubitParity l, dataQubitParity r with
  | true, false => true
  | false, true => false
  | _, _ => decide (r.x < l.x) || (decide (r.x = l.x) && decide (r.y < l.y))

/-- honeycomb_layout.py:20-25 `Edge.__init__`. -/
def mkEdge (left right center : Pt) : Edge :=
  if edgeKeyGt left right then ⟨right, left, center⟩ else ⟨left, right, center⟩

/-- honeycomb_layout.py:80-106 `HoneycombLayout` fields. `noise` is an exact rational instead of a float. -/
structure HoneycombLayout where
  data_width : Int
  data_height : Int
  sub_rounds : Int
  style : String
  obs : String
  noise : Rat
deriving Repr

/-- honeycomb_layout.py:108-112 `__post_init__`: the constructor as a user calls it. -/
def HoneycombLayout.make (data_width data_height sub_rounds : Int) (style obs : String) (noise : Rat) :
    Except PyErr HoneycombLayout :=
  if data_width % 2 ≠ 0 then .error .notImplemented
  else if data_height % 6 ≠ 0 then .error .notImplemented
  else .ok ⟨data_width, data_height, sub_rounds, style, obs, noise⟩

/-- honeycomb_layout.py:47-50 `EdgeType`. -/
structure EdgeType where
  hex_to_hex_delta : Pt
  hex_to_qubit_delta : Pt
deriving DecidableEq, Repr

/-- honeycomb_layout.py:61-65 `EDGE_TYPES`. -/
def EDGE_TYPES : List EdgeType := [
  ⟨.ofInt 2 (-3), .ofInt 1 (-1)⟩,
  ⟨.ofInt 2 3, .ofInt 1 1⟩,
  ⟨.ofInt 4 0, .ofInt 1 0⟩]

/-- honeycomb_layout.py:428-429 `sorted_complex` (Python's `sorted` is a stable sort, as is `mergeSort`). -/
def sortedComplex (xs : List Pt) : List Pt := xs.mergeSort Pt.lexLe

namespace HoneycombLayout
variable (lay : HoneycombLayout)

/-- honeycomb_layout.py:405-407. -/
def tile_width : Int := lay.data_width / 2

/-- honeycomb_layout.py:409-411. -/
def tile_height : Int := lay.data_height / 6

/-- honeycomb_layout.py:305-307 (the undoubled value). -/
def coord_width : Int := 4 * lay.tile_width

/-- honeycomb_layout.py:309-311 (the undoubled value). -/
def coord_height : Int := 6 * lay.tile_height

/-- honeycomb_layout.py:128-131 `wrap`. For a positive modulus Python's float `%` is the non-negative
remainder, as is `Int`'s `%`. (With a zero-sized layout Python raises ZeroDivisionError; `wrap` is
never called by the layout's own code then, because it has no hexes.) -/
def wrap (c : Pt) : Pt := ⟨c.x % (2 * lay.coord_width), c.y % (2 * lay.coord_height)⟩

/-- honeycomb_layout.py:52-57 `EdgeType.hex_to_edge`. -/
def hexToEdge (center : Pt) (t : EdgeType) : Edge :=
  let a := center + t.hex_to_qubit_delta
  let b := center + t.hex_to_hex_delta - t.hex_to_qubit_delta
  mkEdge (lay.wrap a) (lay.wrap b) (lay.wrap (Pt.half (a + b)))

/-- honeycomb_layout.py:394-403 `_hex_center_categories`, the list of `(key, value)` assignments in loop
order; line 402 stores them in a dict. -/
def hexCenterItems : List (Pt × Int) :=
  (pyRange (3 * lay.tile_height)).flatMap fun row =>
    (pyRange (2 * lay.tile_width)).map fun col =>
      (lay.wrap (Pt.ofInt (2 * col) (2 * row - col % 2)), (-row - col % 2) % 3)

/-- honeycomb_layout.py:394-403 `_hex_center_categories`. -/
def hexCenterCategories : PyDict Pt Int := PyDict.ofItems lay.hexCenterItems

/-- honeycomb_layout.py:314-320 `round_hex_centers` (for `0 <= r < 3`; see `roundHexCentersChecked`). -/
def round_hex_centers (r : Int) : List Pt :=
  sortedComplex ((lay.hexCenterCategories.filter (fun hc => hc.2 = r)).map Prod.fst)

/-- honeycomb_layout.py:314-320 `round_hex_centers` including the assertion of line 315. All uses inside
the package pass an argument that is already reduced modulo 3. -/
def roundHexCentersChecked (r : Int) : Except PyErr (List Pt) :=
  if 0 ≤ r ∧ r < 3 then .ok (lay.round_hex_centers r) else .error .assertion

/-- The sort key `(e.center.real, e.center.imag)` of lines 328, 344, 392. -/
def edgeLe (a b : Edge) : Bool := a.center.lexLe b.center

/-- honeycomb_layout.py:385-392 `round_edges`. -/
def round_edges (r : Int) : List Edge :=
  ((lay.round_hex_centers (r % 3)).flatMap fun h => EDGE_TYPES.map fun t => lay.hexToEdge h t).mergeSort edgeLe

/-- honeycomb_layout.py:381-383 `all_edges`. -/
def all_edges : List Edge := lay.round_edges 0 ++ lay.round_edges 1 ++ lay.round_edges 2

/-- Lines 160-165 and 178-183: an edge around a hex from a pair of offsets. -/
def edgeAt (center a b : Pt) : Edge :=
  mkEdge (lay.wrap (center + a)) (lay.wrap (center + b)) (lay.wrap (center + Pt.half (a + b)))

/-- honeycomb_layout.py:153-166 `first_edges_around_hex`. -/
def first_edges_around_hex (center : Pt) : List Edge :=
  [(Pt.ofInt 1 (-1), Pt.ofInt 1 0),
   (Pt.ofInt 1 1, Pt.ofInt (-1) 1),
   (Pt.ofInt (-1) 0, Pt.ofInt (-1) (-1))].map fun ab => lay.edgeAt center ab.1 ab.2

/-- honeycomb_layout.py:168-169 `sub_round_edge_basis`. -/
def sub_round_edge_basis (sub_round : Int) : Basis := Basis.ofIdx sub_round

/-- honeycomb_layout.py:171-184 `second_edges_around_hex`. -/
def second_edges_around_hex (center : Pt) : List Edge :=
  [(Pt.ofInt (-1) (-1), Pt.ofInt 1 (-1)),
   (Pt.ofInt 1 0, Pt.ofInt 1 1),
   (Pt.ofInt (-1) 1, Pt.ofInt (-1) 0)].map fun ab => lay.edgeAt center ab.1 ab.2

/-- honeycomb_layout.py:186-187. -/
def all_edges_around_hex (center : Pt) : List Edge :=
  lay.first_edges_around_hex center ++ lay.second_edges_around_hex center

/-- honeycomb_layout.py:189-194 `qubits_around_hex`. -/
def qubits_around_hex (center : Pt) : List Pt :=
  sortedComplex (EDGE_TYPES.flatMap fun t =>
    [lay.wrap (center - t.hex_to_qubit_delta), lay.wrap (center + t.hex_to_qubit_delta)])

/-- honeycomb_layout.py:254-260 `data_qubit_coords`. -/
def data_qubit_coords : List Pt :=
  sortedComplex (pySet (lay.all_edges.flatMap fun e => [e.left, e.right]))

/-- honeycomb_layout.py:262-268 `measure_qubit_coords`. -/
def measure_qubit_coords : List Pt := sortedComplex (pySet (lay.all_edges.map Edge.center))

/-- honeycomb_layout.py:295-300 `q2i`, as an insertion ordered dict. -/
def q2i : PyDict Pt Nat :=
  PyDict.ofItems (sortedComplex lay.data_qubit_coords ++ sortedComplex lay.measure_qubit_coords).zipIdx

/-- `lay.q2i[q]`. The model returns 0 for a missing key, where Python raises KeyError; theorem
`Honeycomb.q2i_total` in `Props/Layout.lean` shows that every lookup made by the package hits. -/
def idx (q : Pt) : Nat := (lay.q2i.get? q).getD 0

/-- honeycomb_layout.py:246-248. -/
def data_qubit_indices_1st : List Nat :=
  (lay.data_qubit_coords.filter fun q => !dataQubitParity q).map lay.idx

/-- honeycomb_layout.py:250-252. -/
def data_qubit_indices_2nd : List Nat :=
  (lay.data_qubit_coords.filter fun q => dataQubitParity q).map lay.idx

/-- honeycomb_layout.py:270-272. -/
def measure_qubit_indices : List Nat := lay.measure_qubit_coords.map lay.idx

/-- honeycomb_layout.py:274-276. -/
def data_qubit_indices : List Nat := lay.data_qubit_coords.map lay.idx

/-- `self.style in ["EM3", "EM3_v2"]`. -/
def isEM3 : Bool := lay.style == "EM3" || lay.style == "EM3_v2"

/-- honeycomb_layout.py:278-282 `used_qubit_coords`. -/
def used_qubit_coords : List Pt := if lay.isEM3 then lay.data_qubit_coords else PyDict.keys lay.q2i

/-- honeycomb_layout.py:284-286. -/
def used_qubit_indices : List Nat := lay.used_qubit_coords.map lay.idx

/-- honeycomb_layout.py:288-293 `num_qubits` (`int(result * 2.5)` truncates towards zero). -/
def num_qubits : Int :=
  if lay.isEM3 then lay.data_width * lay.data_height
  else (lay.data_width * lay.data_height * 5).tdiv 2

/-- honeycomb_layout.py:302-303 `qubit_indices_except`. -/
def qubit_indices_except (indices : List Nat) : List Nat :=
  (pySet ((PyDict.values lay.q2i).filter fun i => i ∉ indices)).mergeSort fun a b => decide (a ≤ b)

/-- honeycomb_layout.py:322-328 `obs_h_edges` (`0` and `1` are `0` and `2` in doubled coordinates). -/
def obs_h_edges : List Edge :=
  (lay.all_edges.filter fun e => (e.left.y = 0 ∨ e.left.y = 2) ∧ (e.right.y = 0 ∨ e.right.y = 2)).mergeSort edgeLe

/-- The sort key `(q.real, (1 + q.imag + q.real // 2) % 2)` of line 336, doubled. -/
def obsHKeyLe (a b : Pt) : Bool :=
  decide (a.x < b.x) ||
    (decide (a.x = b.x) && decide ((2 + a.y + 2 * (a.x / 4)) % 4 ≤ (2 + b.y + 2 * (b.x / 4)) % 4))

/-- honeycomb_layout.py:330-336 `obs_h_qubits`. -/
def obs_h_qubits : List Pt :=
  (lay.data_qubit_coords.filter fun q => q.y = 0 ∨ q.y = 2).mergeSort obsHKeyLe

/-- honeycomb_layout.py:338-344 `obs_v_edges` (real part 1 is 2 in doubled coordinates). -/
def obs_v_edges : List Edge :=
  (lay.all_edges.filter fun e => e.left.x = e.right.x ∧ e.right.x = 2).mergeSort edgeLe

/-- honeycomb_layout.py:346-352 `obs_v_qubits`. -/
def obs_v_qubits : List Pt := sortedComplex (lay.data_qubit_coords.filter fun q => q.x = 2)

/-- The pattern strings of lines 197-209; `_` is `none`. -/
def obsHPattern (sub_round : Int) : List (Option Basis) :=
  let case := sub_round % 6
  if case = 0 then [some .X, some .X, some .X, some .X]
  else if case = 1 then [some .X, none, none, some .X]
  else if case = 2 then [some .Z, none, none, some .Z]
  else if case = 3 then [none, some .Z, some .Z, none]
  else if case = 4 then [none, some .Y, some .Y, none]
  else [some .Y, some .Y, some .Y, some .Y]

/-- The pattern strings of lines 226-238; `_` is `none`. -/
def obsVPattern (sub_round : Int) : List (Option Basis) :=
  let case := sub_round % 6
  if case = 0 then [none, some .Z, some .Z]
  else if case = 1 then [none, some .Y, some .Y]
  else if case = 2 then [some .Y, some .Y, none]
  else if case = 3 then [some .X, some .X, none]
  else if case = 4 then [some .X, none, some .X]
  else [some .Z, none, some .Z]

/-- `pattern * n` for a string and an integer (empty for `n <= 0`). -/
def pyRepeat {α : Type} (l : List α) (n : Int) : List α := (List.replicate n.toNat l).flatten

/-- Lines 210 and 239 `c, = set(obs_pattern) - {'_'}`: the single non-blank character. All patterns have
exactly one, so the unpacking never fails. -/
def patternBasis (p : List (Option Basis)) : Basis := (p.filterMap id).headD .X

/-- Lines 211-215 / 240-244. -/
def selectPattern (p : List (Option Basis)) (qs : List Pt) : List Pt :=
  (p.zip qs).filterMap fun cq => cq.1.map fun _ => cq.2

/-- honeycomb_layout.py:196-215 `obs_h_before_sub_round`. -/
def obs_h_before_sub_round (sub_round : Int) : Basis × List Pt :=
  let p := obsHPattern sub_round
  (patternBasis p, selectPattern (pyRepeat p lay.tile_width) lay.obs_h_qubits)

/-- honeycomb_layout.py:225-244 `obs_v_before_sub_round`. -/
def obs_v_before_sub_round (sub_round : Int) : Basis × List Pt :=
  let p := obsVPattern sub_round
  (patternBasis p, selectPattern (pyRepeat p (lay.tile_height * 2)) lay.obs_v_qubits)

/-- honeycomb_layout.py:217-223 `obs_before_sub_round`. -/
def obs_before_sub_round (sub_round : Int) : Except PyErr (Basis × List Pt) :=
  if lay.obs = "V" then .ok (lay.obs_v_before_sub_round sub_round)
  else if lay.obs = "H" then .ok (lay.obs_h_before_sub_round sub_round)
  else .error .notImplemented

/-- honeycomb_layout.py:354-361 `obs_index`. -/
def obs_index : Except PyErr Nat :=
  if lay.obs = "V" then .ok 0
  else if lay.obs = "H" then .ok 1
  else .error .notImplemented

/-- honeycomb_layout.py:363-370 `obs_edges`. -/
def obs_edges : Except PyErr (List Edge) :=
  if lay.obs = "V" then .ok lay.obs_v_edges
  else if lay.obs = "H" then .ok lay.obs_h_edges
  else .error .notImplemented

/-- honeycomb_layout.py:372-379 `obs_qubits`. -/
def obs_qubits : Except PyErr (List Pt) :=
  if lay.obs = "V" then .ok lay.obs_v_qubits
  else if lay.obs = "H" then .ok lay.obs_h_qubits
  else .error .notImplemented

/-- honeycomb_layout.py:413-415 `code_distance_1qdep`. -/
def code_distance_1qdep : Int := min lay.data_width (lay.data_height / 3 * 2)

end HoneycombLayout
end Honeycomb
