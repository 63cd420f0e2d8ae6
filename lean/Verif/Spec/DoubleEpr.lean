import Verif.Spec.Frame
import Verif.Model.Layout

/-!
# What the double EPR experiment measures

Written from the docstring of the experiment: for logical qubits 1, 2 and ancilla qubits a, b the parities
`X1*Xa`, `Z1*Za`, `X2*Xb`, `Z2*Zb`. The logical operators before sub-round `k` are the horizontal and vertical observables of sub-round `k`
(qubit 1) and of sub-round `k + 3` (qubit 2). The ancillas are the first two qubits after the data qubits.
-/

namespace Honeycomb

/-- 1 if two products of Paulis anticommute. -/
def crossing (P Q : List (Basis × Nat)) : ZMod 2 := (P.map fun x => (Q.map fun y => if x.2 = y.2 then anti x.1.pauli y.1.pauli else 0).sum).sum

namespace HoneycombLayout

/-- An ancilla operator times an operator of the code. -/
def ancillaTimes (lay : HoneycombLayout) (b : Basis) (ancilla : Nat) (o : Basis × List Pt) : List (Basis × Nat) :=
  (b, ancilla) :: o.2.map fun q => (o.1, lay.idx q)

/-- The four products before sub-round `k`. -/
def eprParities (lay : HoneycombLayout) (k : Int) : List (List (Basis × Nat)) :=
  let a := (lay.data_width * lay.data_height).toNat
  [lay.ancillaTimes .X a (lay.obs_h_before_sub_round k), lay.ancillaTimes .Z a (lay.obs_v_before_sub_round k),
    lay.ancillaTimes .X (a + 1) (lay.obs_h_before_sub_round (k + 3)), lay.ancillaTimes .Z (a + 1) (lay.obs_v_before_sub_round (k + 3))]

end HoneycombLayout
end Honeycomb
