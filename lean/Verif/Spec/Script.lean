import Verif.Spec.Collect
import Verif.Model.Script

/-!
# Specification: runs of the collection script
-/

namespace Honeycomb

/-- The batches that a run sampled for the problem `d`, in order. -/
def rowsOf (d : DecodingProblemDesc) (effs : List Eff) : List Row := (batches effs).filter fun r => decide (r.1 = d)

/-- The script is run once for every problem id of the list, one run after the other, all with the same output file and without exceptions:
the file goes from the first text to the second. -/
inductive ShardRuns (F : FloatText) (s : ScriptArgs) (sample : DecodingProblemDesc → Nat → Int → Except PyErr (Int × Rat)) (fuel : Nat) :
    List Nat → Option Text → Option Text → Prop
  | nil (file : Option Text) : ShardRuns F s sample fuel [] file file
  | run {i : Nat} {ids : List Nat} {file file' : Option Text} {effs : List Eff} :
      collectData F { s with problem_id := some (i : Int) } sample fuel file = some (effs, none) →
      ShardRuns F s sample fuel ids (fileAfter file effs) file' → ShardRuns F s sample fuel (i :: ids) file file'

end Honeycomb
