/-!
# Python run time notions used by the model

* exceptions as values,
* half-integer complex numbers,
* `range`, `sorted(key=...)`, `set`, insertion ordered `dict`.
-/

namespace Honeycomb

/-- The Python exceptions the modelled code can raise. -/
inductive PyErr where
  | notImplemented   -- NotImplementedError
  | assertion        -- AssertionError
  | keyError         -- KeyError
  | indexError       -- IndexError
  | valueError       -- ValueError
  | typeError        -- TypeError
  | zeroDivision     -- ZeroDivisionError
  | runtimeError     -- RuntimeError
deriving DecidableEq, Repr

/-- A Python `complex` whose parts are multiples of 1/2. `x` and `y` hold **twice** the real and
imaginary part, so that all coordinate arithmetic of `honeycomb_layout.py` is exact integer
arithmetic. (Python uses doubles, for which the same operations are exact below `2^52`.) -/
@[ext] structure Pt where
  x : Int
  y : Int
deriving DecidableEq, Repr, Inhabited

namespace Pt

/-- The complex number `re + im*1j` with integer parts. -/
def ofInt (re im : Int) : Pt := ⟨2 * re, 2 * im⟩

instance : Add Pt := ⟨fun a b => ⟨a.x + b.x, a.y + b.y⟩⟩
instance : Sub Pt := ⟨fun a b => ⟨a.x - b.x, a.y - b.y⟩⟩
instance : Neg Pt := ⟨fun a => ⟨-a.x, -a.y⟩⟩

@[simp] theorem add_x (a b : Pt) : (a + b).x = a.x + b.x := rfl
@[simp] theorem add_y (a b : Pt) : (a + b).y = a.y + b.y := rfl
@[simp] theorem sub_x (a b : Pt) : (a - b).x = a.x - b.x := rfl
@[simp] theorem sub_y (a b : Pt) : (a - b).y = a.y - b.y := rfl
@[simp] theorem neg_x (a : Pt) : (-a).x = -a.x := rfl
@[simp] theorem neg_y (a : Pt) : (-a).y = -a.y := rfl
@[simp] theorem ofInt_x (a b : Int) : (ofInt a b).x = 2 * a := rfl
@[simp] theorem ofInt_y (a b : Int) : (ofInt a b).y = 2 * b := rfl

/-- `c / 2`. Exact on the arguments the code uses it for (sums of two data qubit positions or of two
integer offsets), whose doubled parts are even. -/
def half (a : Pt) : Pt := ⟨a.x / 2, a.y / 2⟩

@[simp] theorem half_x (a : Pt) : (half a).x = a.x / 2 := rfl
@[simp] theorem half_y (a : Pt) : (half a).y = a.y / 2 := rfl

/-- The order used by `sorted_complex`: compare `(v.real, v.imag)` lexicographically. -/
def lexLe (a b : Pt) : Bool := decide (a.x < b.x) || (decide (a.x = b.x) && decide (a.y ≤ b.y))

end Pt

/-- `range(n)` for an arbitrary (possibly negative) integer `n`. -/
def pyRange (n : Int) : List Int := (List.range n.toNat).map Int.ofNat

/-- `range(a, b)`. -/
def pyRange2 (a b : Int) : List Int := (pyRange (b - a)).map (a + ·)

/-- A `set` built from an iterable, as a duplicate free list (its order never matters in the model: every
use sorts it or folds a commutative operation over it). -/
def pySet {α : Type} [DecidableEq α] : List α → List α
  | [] => []
  | a :: l => if a ∈ l then pySet l else a :: pySet l

/-- Insertion ordered dictionary. -/
abbrev PyDict (κ ν : Type) := List (κ × ν)

namespace PyDict
variable {κ ν : Type} [DecidableEq κ]

/-- `d[k] = v`: overwrite in place or append. -/
def set (d : PyDict κ ν) (k : κ) (v : ν) : PyDict κ ν :=
  match d with
  | [] => [(k, v)]
  | (k', v') :: d => if k' = k then (k', v) :: d else (k', v') :: set d k v

/-- `d.get(k)`. -/
def get? (d : PyDict κ ν) (k : κ) : Option ν :=
  match d with
  | [] => none
  | (k', v') :: d => if k' = k then some v' else get? d k

/-- `{k: v for k, v in items}`. -/
def ofItems (items : List (κ × ν)) : PyDict κ ν := items.foldl (fun d kv => d.set kv.1 kv.2) []

def keys (d : PyDict κ ν) : List κ := d.map Prod.fst
def values (d : PyDict κ ν) : List ν := d.map Prod.snd

end PyDict

end Honeycomb
