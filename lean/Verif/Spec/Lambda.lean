import Verif.Model.ShotData

/-!
# Specification of grouped error rates (C59, C60)
-/

namespace Honeycomb

/-- Horizontal observables of honeycomb codes and X observables of surface codes go to the first table of a group. (The code tests
`observable in "HX"`, which also holds for two texts that are no observables.) -/
def FirstTable (obs : String) : Prop := obs = "H" ∨ obs = "X" ∨ obs = "HX" ∨ obs = ""

/-- Two descriptions that belong to the same entry of a group. -/
def SameEntry (a b : DecodingProblemDesc) : Prop :=
  a.noise = b.noise ∧ (FirstTable a.preserved_observable ↔ FirstTable b.preserved_observable) ∧ a.code_distance = b.code_distance

/-- The error rate of an observable at a distance: the one of its own table, or if that has none, the one of the other table. -/
def RateAt (own other : List (Int × ShotData)) (d : Int) (p : Rat) : Prop :=
  (∃ s, (d, s) ∈ own ∧ p = s.logical_error_rate) ∨ ((∀ s, (d, s) ∉ own) ∧ ∃ s, (d, s) ∈ other ∧ p = s.logical_error_rate)

end Honeycomb
