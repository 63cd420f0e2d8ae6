import Mathlib.Probability.ProbabilityMassFunction.Constructions

/-!
# Independent repetitions
-/

namespace Honeycomb

/-- `n` independent samples of `D`. -/
noncomputable def independent {α : Type} (D : PMF α) : Nat → PMF (List α)
  | 0 => PMF.pure []
  | n + 1 => D.bind fun x => (independent D n).map (x :: ·)

end Honeycomb
