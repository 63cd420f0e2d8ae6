import Verif.Spec.Detectors
import Verif.Model.Decoding
import Mathlib.Logic.Relation
import Mathlib.Data.Finset.Filter
import Mathlib.Data.Finset.Range

/-! # Connected parts of a matching graph -/

namespace Honeycomb

/-- There is a way along edges of `g` from node `u` to node `v`. -/
def NxGraph.Connected (g : NxGraph) (u v : Nat) : Prop := Relation.ReflTransGen (fun a b => ∃ data, g.edge? a b = some data) u v

namespace HoneycombLayout
variable (lay : HoneycombLayout)

/-- The layer of the final detectors, and every other layer of detectors before it: the odd ones for the vertical observable, the even ones for
the horizontal one. -/
def FinalHalfLayer (k : Nat) : Prop := (k : Int) = lay.sub_rounds ∨ (k : Int) % 2 = if lay.obs = "V" then 1 else 0

instance (k : Nat) : Decidable (lay.FinalHalfLayer k) := by unfold FinalHalfLayer; infer_instance

/-- The numbers of the detectors in these layers. -/
def finalHalf : Finset Nat :=
  (Finset.range lay.expectedDetectors.length).filter fun i => ∃ x, lay.expectedDetectors[i]? = some x ∧ lay.FinalHalfLayer x.1

end HoneycombLayout
end Honeycomb
