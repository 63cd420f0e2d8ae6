import Verif.Spec.Correct
import Verif.Spec.Sampling

/-!
# Detection events

How often detectors fire when a circuit is sampled (`Spec/Sampling.lean`).
-/

namespace Honeycomb
open scoped ENNReal

/-- The probability that detector `j` of the circuit fires. -/
noncomputable def firingProb (d : Circuit) (F : Frame) (j : Nat) : ℝ≥0∞ := recordProb d.flatten F {rec | (detectionBits d rec)[j]? = some true}

/-- The mean number of detectors that fire in a shot. -/
noncomputable def meanDetections (d : Circuit) (F : Frame) : ℝ≥0∞ :=
  ∑' rec, ((sampleCircuit d.flatten F).map Prod.fst) rec * (detectionBits d rec).count true

end Honeycomb
