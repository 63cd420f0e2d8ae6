import Mathlib.Algebra.Order.BigOperators.Group.Finset
import Mathlib.Analysis.SpecialFunctions.Log.Basic
import Verif.Spec.Dem

/-!
# Likelihoods of the components of an error model, and sets of edges of a matching graph
-/

namespace Honeycomb

open Classical in
/-- Each component happens independently with its probability: the probability that the list of the components that happen has the property `E`. -/
noncomputable def probability : List Mechanism → (List Mechanism → Prop) → Rat
  | [], E => if E [] then 1 else 0
  | e :: ms, E => e.p * probability ms (fun l => E (e :: l)) + (1 - e.p) * probability ms E

/-- The components in `l` fire detector `x`: an odd number of them (with multiplicity) contains it. -/
def Fires (l : List Mechanism) (x : Nat) : Prop := Odd (l.map fun e => e.dets.count x).sum

/-- The components in `l` flip observable `j`. -/
def Flips (l : List Mechanism) (j : Nat) : Prop := Odd (l.countP fun e => j ∈ e.frames)

/-- `T` is the set of the pairs of nodes, smaller node first, that an odd number of the components in `l` connect. -/
def OddOn (boundary : Nat) (l : List Mechanism) (T : Finset (Nat × Nat)) : Prop :=
  ∀ u v, u ≤ v → (Odd (l.countP fun e => e.connects boundary u v) ↔ (u, v) ∈ T)

/-- Pairs of nodes with the smaller node first. -/
def Ordered (T : Finset (Nat × Nat)) : Prop := ∀ e ∈ T, e.1 ≤ e.2

/-- `T` is a set of edges of `g`, each written with its smaller node first. -/
def NxGraph.HasEdges (g : NxGraph) (T : Finset (Nat × Nat)) : Prop := Ordered T ∧ ∀ e ∈ T, ∃ d, g.edge? e.1 e.2 = some d

/-- The weight of an edge. -/
noncomputable def NxGraph.weightAt (g : NxGraph) (e : Nat × Nat) : ℝ :=
  match g.edge? e.1 e.2 with
  | some d => d.weight
  | none => 0

/-- The sum of the weights of the edges in `T`. -/
noncomputable def NxGraph.weightOf (g : NxGraph) (T : Finset (Nat × Nat)) : ℝ := ∑ e ∈ T, g.weightAt e

/-- The number of ends at `x` of edges in `T`. -/
def endsAt (T : Finset (Nat × Nat)) (x : Nat) : Nat := ∑ e ∈ T, ((if e.1 = x then 1 else 0) + if e.2 = x then 1 else 0)

/-- Matching the detectors `0..nd-1` by `T` and by `T'` explains the same detection events: the same detectors have an odd number of ends. -/
def SameSymptoms (nd : Nat) (T T' : Finset (Nat × Nat)) : Prop := ∀ x < nd, Odd (endsAt T x) ↔ Odd (endsAt T' x)

/-- Whether the `qubit_id` of an edge contains `j`. -/
def NxGraph.Marked (g : NxGraph) (e : Nat × Nat) (j : Nat) : Prop := ∃ d f, g.edge? e.1 e.2 = some d ∧ d.qubit_id = some f ∧ j ∈ f

open Classical in
/-- The number of edges in `T` whose `qubit_id` contains `j`; the parity is what pymatching predicts for observable `j` from the matching `T`. -/
noncomputable def NxGraph.framesOf (g : NxGraph) (T : Finset (Nat × Nat)) (j : Nat) : Nat := ∑ e ∈ T, if g.Marked e j then 1 else 0

end Honeycomb
