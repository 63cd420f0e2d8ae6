import Verif.Spec.CircuitPlot
import Verif.Model.Circuit

/-!
# Specification of the diagrams of experiments (C83, C84)
-/

namespace Honeycomb

/-- All blocks are repeated at least twice and contain no blocks. -/
def Circuit.FlatBlocks : Circuit → Prop
  | .nil => True
  | .op _ c => c.FlatBlocks
  | .rep n b c => (2 ≤ n ∧ ∃ l, b = .ofList l) ∧ c.FlatBlocks

/-- The links of a drawing connect qubits with the same `x` or the same `y`. -/
def Straight (coords : List (Nat × Nat × Nat)) (ds : List Drawing) : Prop :=
  ∀ level ∈ splitLevels ds, ∀ a b, (a, b) ∈ linksOf level → ∃ p q, (a, p) ∈ coords ∧ (b, q) ∈ coords ∧ (p.1 = q.1 ∨ p.2 = q.2)

namespace HoneycombLayout

/-- Where the qubits of a layout are: index, `x` and `2 * y`. -/
def diagramCoords (lay : HoneycombLayout) : List (Nat × Nat × Nat) :=
  lay.used_qubit_coords.map fun q => (lay.idx q, (q.x / 2).toNat, q.y.toNat)

/-- The number of sub-rounds from which on a circuit has a `REPEAT` block. -/
def subRoundsOfBlock (lay : HoneycombLayout) : Int :=
  if lay.style = "EM3" ∨ lay.style = "EM3_v2" then 10 else if lay.style = "PC3" then 15 else 12

end HoneycombLayout
end Honeycomb
