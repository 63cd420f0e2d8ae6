import Verif.Model.Circuit

/-!
# The circuit without loop compression

The same per-sub-round functions as `generate_rounds_*`, called once for every sub-round in order, with one
measurement tracker that sees every measurement: no `REPEAT` block is built and no sub-round is skipped.
-/

namespace Honeycomb
namespace HoneycombLayout
variable (lay : HoneycombLayout)

/-- The supported (style, number of sub-rounds) combinations. -/
def Supported : Prop :=
  (lay.style = "SD6" ∨ lay.style = "PC3" ∨ lay.style = "EM3" ∨ lay.style = "EM3_v2" ∨ lay.style = "SI1000") ∧
  (lay.obs = "V" ∨ lay.obs = "H") ∧ 1 ≤ lay.sub_rounds ∧ (lay.style = "SI1000" → lay.sub_rounds % 3 = 0)

/-- SD6: start the pipeline, one pipeline step per sub-round, end the pipeline, realign. -/
def unrolledSd6 (m : MT) : Except PyErr (List Instr × MT) := do
  if lay.sub_rounds = 1 then
    let (c, m) ← lay.sd6Single m
    return (c ++ lay.sd6Realign, m)
  else
    let (c, m) ← forRounds lay.sd6PipelineStep m (pyRange (lay.sub_rounds - 2))
    let (e, m) ← lay.sd6End m
    return (lay.sd6Start ++ c ++ e ++ lay.sd6Realign, m)

/-- PC3: one moment per step of the schedule, then the observable. -/
def unrolledPc3 (m : MT) : Except PyErr (List Instr × MT) := do
  let (c, m) ← forRounds lay.pc3Moment m (pyRange (lay.sub_rounds + 2))
  let o ← lay.pc3Observables m (pyRange 3)
  return (c ++ o, m)

/-- EM3: one moment per sub-round. -/
def unrolledEm3 (m : MT) : Except PyErr (List Instr × MT) :=
  forRounds lay.em3Moment m (pyRange lay.sub_rounds)

/-- SI1000: one cycle per three sub-rounds. -/
def unrolledSI1000 (m : MT) : Except PyErr (List Instr × MT) :=
  forRounds lay.generateCycleSI1000 m ((pyRange (lay.sub_rounds / 3)).map (3 * ·))

/-- The sub-rounds of the unrolled circuit, by style. -/
def unrolledRounds (m : MT) : Except PyErr (List Instr × MT) :=
  if lay.style = "SD6" then lay.unrolledSd6 m
  else if lay.style = "PC3" then lay.unrolledPc3 m
  else if lay.isEM3 then lay.unrolledEm3 m
  else lay.unrolledSI1000 m

/-- The whole unrolled circuit. -/
def unrolledNoiseless : Except PyErr (List Instr) := do
  let (c0, m) ← lay.faultTolerantInit Tracker.empty
  let (c1, m) ← lay.unrolledRounds m
  let (c2, _) ← lay.faultTolerantMeasurement m
  return lay.qubitCoordOps ++ c0 ++ c1 ++ c2

end HoneycombLayout
end Honeycomb
