import Verif.Spec.Probability

/-!
# Textbook quantities of a linear regression (C122)
-/

namespace Honeycomb

/-- The average of some numbers. -/
noncomputable def sampleMean (xs : List ℝ) : ℝ := xs.sum / xs.length

/-- The sum of the squared distances from the average. -/
noncomputable def sampleSpread (xs : List ℝ) : ℝ := (xs.map fun x => (x - sampleMean xs) ^ 2).sum

end Honeycomb
