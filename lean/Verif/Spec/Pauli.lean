import Mathlib.Data.ZMod.Basic
import Mathlib.Algebra.BigOperators.Group.List.Basic
import Verif.Spec.Layout

/-!
# Pauli operators up to sign

A Pauli is its pair of bits (X part, Z part); multiplication up to sign is addition of the bits; two
Paulis anticommute exactly when their symplectic product is 1.
-/

namespace Honeycomb

/-- A single-qubit Pauli up to sign: `I = (0,0)`, `X = (1,0)`, `Y = (1,1)`, `Z = (0,1)`. -/
abbrev Pauli := ZMod 2 × ZMod 2

/-- The Pauli of a measurement basis. -/
def Basis.pauli : Basis → Pauli
  | .X => (1, 0)
  | .Y => (1, 1)
  | .Z => (0, 1)

/-- 1 if the two Paulis anticommute, 0 if they commute. -/
def anti (a b : Pauli) : ZMod 2 := a.1 * b.2 + a.2 * b.1

/-- A Pauli operator on the qubits of the layout. -/
abbrev PauliOp := Pt → Pauli

/-- The operator with Pauli `b` on each qubit of `qs`. -/
def opOn (b : Basis) (qs : List Pt) : PauliOp := fun q => if q ∈ qs then b.pauli else 0

/-- The operator measured for edge `e` in sub-round `k`: basis `"XYZ"[k % 3]` on both ends. -/
def edgeOp (k : Int) (e : Edge) : PauliOp := opOn (Basis.ofIdx k) [e.left, e.right]

/-- Product of a list of operators (up to sign). -/
def opProd (l : List PauliOp) : PauliOp := fun q => (l.map fun A => A q).sum

/-- 0 if the operators commute, 1 if they anticommute: the parity of the number of data qubits on which they
anticommute. -/
def antiOp (lay : HoneycombLayout) (A B : PauliOp) : ZMod 2 :=
  (lay.data_qubit_coords.map fun q => anti (A q) (B q)).sum

/-- The operators commute. -/
def Commute' (lay : HoneycombLayout) (A B : PauliOp) : Prop := antiOp lay A B = 0

/-- The operators anticommute. -/
def Anticommute' (lay : HoneycombLayout) (A B : PauliOp) : Prop := antiOp lay A B = 1

/-- The stabilizer of a hexagon: its colour's basis on the six qubits around it. -/
def hexOp (lay : HoneycombLayout) (h : Pt) : PauliOp :=
  opOn (Basis.ofIdx (hexColour h)) (lay.qubits_around_hex h)

/-- The operator of an observable given as (basis, qubits). -/
def obsOp (o : Basis × List Pt) : PauliOp := opOn o.1 o.2

end Honeycomb
