import Verif.Spec.Layout
import Verif.Model.Layout

/-!
# Places of detectors
-/

namespace Honeycomb
namespace HoneycombLayout

/-- The place `p` is a face or an edge with a data qubit in `B`. -/
def Touches (lay : HoneycombLayout) (B : Pt → Prop) (p : Pt) : Prop :=
  ∃ q ∈ lay.data_qubit_coords, B q ∧ ((IsHexCenter lay p ∧ q ∈ lay.qubits_around_hex p) ∨ ∃ e ∈ lay.all_edges, (q = e.left ∨ q = e.right) ∧ p = e.center)

end HoneycombLayout
end Honeycomb
