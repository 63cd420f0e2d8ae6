import Verif.Spec.Correct
import Verif.Spec.Likelihood

/-!
# Error models of a circuit, and matching decoders

What `circuit.detector_error_model(decompose_errors=True)` is trusted to give: a list of components with a probability each, every one of
them the symptom of a single error of the noise channels, with at most two detectors, and among them every such symptom.
-/

namespace Honeycomb

/-- The component `e` says what happens to the detectors and the observables of `d` in the sample `rec`. -/
def Mechanism.IsSymptomOf (e : Mechanism) (d : Circuit) (rec : List (ZMod 2)) : Prop :=
  (∀ x, x ∈ e.dets ↔ (detectionBits d rec)[x]? = some true) ∧ ∀ j, j ∈ e.frames ↔ (observableBits d rec)[j]? = some true

/-- `m` is an error model of `d` whose components have at most two detectors: each component that can happen is the symptom of a single error
of the noise channels of `d`, and each single error that fires one or two detectors has a component with these detectors. -/
structure ErrorModelOf (d : Circuit) (m : Dem) : Prop where
  detectors : m.num_detectors = d.num_detectors
  coords : m.CoordsFit
  prob : ∀ e ∈ m.mechanisms, 0 ≤ e.p ∧ e.p < 1
  two : ∀ e ∈ m.mechanisms, e.p ≠ 0 → e.dets.Nodup ∧ e.dets.length ≤ 2
  sound : ∀ e ∈ m.mechanisms, e.p ≠ 0 → ∃ rec, CanSample 1 d.flatten rec ∧ e.IsSymptomOf d rec
  complete : ∀ rec, CanSample 1 d.flatten rec → (detectionBits d rec).count true ∈ [1, 2] →
    ∃ e ∈ m.mechanisms, e.p ≠ 0 ∧ ∀ x, x ∈ e.dets ↔ (detectionBits d rec)[x]? = some true

/-- The edges in `T` match the nodes that `row` marks, other than the boundary: these are the nodes with an odd number of ends. -/
def Explains (boundary : Nat) (T : Finset (Nat × Nat)) (row : List Bool) : Prop :=
  ∀ x ≠ boundary, Odd (endsAt T x) ↔ row[x]? = some true

/-- The prediction for the first `no` observables from a matching: an observable is flipped if the `qubit_id` of an odd number of edges contains it. -/
noncomputable def NxGraph.predicts (g : NxGraph) (no : Nat) (T : Finset (Nat × Nat)) : List Bool :=
  (List.range no).map fun j => decide (Odd (g.framesOf T j))

/-- What `pymatching.Matching(g).decode` is trusted to do: predict from a matching of least weight, whenever there is a matching. -/
def MinimumWeight (g : NxGraph) (boundary no : Nat) (matching : List Bool → List Bool) : Prop :=
  ∀ row, (∃ T, g.HasEdges T ∧ Explains boundary T row) → ∃ T, g.HasEdges T ∧ Explains boundary T row ∧
    (∀ T', g.HasEdges T' → Explains boundary T' row → g.weightOf T ≤ g.weightOf T') ∧ matching row = g.predicts no T

/-- A number of errors that is needed to flip the observable with no detector firing (C76, C78, C85, C96). -/
def HoneycombLayout.circuitDistance (lay : HoneycombLayout) : Int :=
  if lay.style ∈ ["SD6", "PC3", "SI1000"] then (if lay.obs = "V" then lay.data_width else lay.data_height / 2)
  else (if lay.obs = "V" then lay.data_width / 2 else lay.data_height / 3)

end Honeycomb
