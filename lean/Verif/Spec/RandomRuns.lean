import Verif.Spec.Repeat
import Verif.Spec.Collect

/-!
# Runs of the collection loop on random shots
-/

namespace Honeycomb

/-- A problem whose sampler takes its shots from a table: the `i`-th call evaluates the first shots of row `i` with `count` (a stand-in for decoding and counting) and
reports any time. With independent rows of independent shots (`independent (independent D m) k`) the calls get independent shots. -/
def tableProblem {α : Type} (desc : DecodingProblemDesc) (count : List α → Except PyErr Nat) (seconds : List (List α) → Nat → Int → Rat) (table : List (List α)) :
    DecodingProblem :=
  ⟨desc, fun i shots => (count ((table.getD i []).take shots.toNat)).map fun (c : Nat) => ((c : Int), seconds table i shots)⟩

/-- All that a run recorded for the problem, added up. -/
def recorded (effs : List Eff) : ShotData := sumShots ((batches effs).map Prod.snd)

end Honeycomb
