import Mathlib.Analysis.SpecialFunctions.Pow.Real

/-! # Model of the real-valued function of `src/noise.py` -/

namespace Honeycomb

/-- noise.py:209-218 `mix_probability_to_independent_component_probability`, over the reals
(Python: floats). -/
noncomputable def mixToIndependent (mix_probability n : ℝ) : ℝ :=
  1 / 2 - 1 / 2 * (1 - mix_probability) ^ (1 / (2 : ℝ) ^ (n - 1))

end Honeycomb
