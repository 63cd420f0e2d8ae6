import Verif.Spec.Frame
import Verif.Spec.Timeline
import Verif.Model.Layout

/-!
# Glitches

A circuit `a ++ b ++ c` is executed without errors except for its part `b`, during which anything may happen: the results of `b` are
arbitrary, and so is the state (the frame of all qubits) after `b`.
-/

namespace Honeycomb

/-- `rec` is a record of measurement flips that `a ++ b ++ c` can produce if anything may happen during `b`. -/
def GlitchRecord (a b c : List Instr) (rec : List (ZMod 2)) : Prop :=
  ∃ F F1 F2 F' r1 r2 r3, StartFrame F ∧ Runs F (actions a) r1 F1 ∧ r2.length = (measured b).length ∧ Runs F2 (actions c) r3 F' ∧
    rec = r1 ++ r2 ++ r3

/-- For how many layers the effects of a glitch can last. -/
def HoneycombLayout.glitchReach (lay : HoneycombLayout) : Nat :=
  if lay.style = "EM3" ∨ lay.style = "EM3_v2" then 4 else if lay.style = "PC3" then 8 else 6

end Honeycomb
