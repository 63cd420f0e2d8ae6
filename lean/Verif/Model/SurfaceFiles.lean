import Verif.Model.Stim

/-!
# The shipped surface code circuits of distance 3

Generated from `src/paper/surface_code_circuits/*/d3_p0.0.stim`, line by line. (`stim.Circuit` merges neighbouring lines with the same gate; here
every line is an instruction of its own.)
-/

namespace Honeycomb

/-- Part of src/paper/surface_code_circuits/sd6_X/d3_p0.0.stim, lines 1-161. -/
def sd6Xd3Start : List Instr := [
  ⟨.I, [.q 4], []⟩, ⟨.R, [.q 8], []⟩, ⟨.R, [.q 10], []⟩, ⟨.R, [.q 12], []⟩, ⟨.I, [.q 14], []⟩, ⟨.I, [.q 16], []⟩, ⟨.I, [.q 18], []⟩,
  ⟨.R, [.q 22], []⟩, ⟨.R, [.q 24], []⟩, ⟨.R, [.q 26], []⟩, ⟨.I, [.q 30], []⟩, ⟨.I, [.q 32], []⟩, ⟨.I, [.q 34], []⟩, ⟨.R, [.q 36], []⟩,
  ⟨.R, [.q 38], []⟩, ⟨.R, [.q 40], []⟩, ⟨.I, [.q 44], []⟩, .tick, ⟨.I, [.q 4], []⟩, ⟨.H, [.q 8], []⟩, ⟨.H, [.q 10], []⟩, ⟨.H, [.q 12], []⟩,
  ⟨.I, [.q 14], []⟩, ⟨.I, [.q 16], []⟩, ⟨.I, [.q 18], []⟩, ⟨.H, [.q 22], []⟩, ⟨.H, [.q 24], []⟩, ⟨.H, [.q 26], []⟩, ⟨.I, [.q 30], []⟩,
  ⟨.I, [.q 32], []⟩, ⟨.I, [.q 34], []⟩, ⟨.H, [.q 36], []⟩, ⟨.H, [.q 38], []⟩, ⟨.H, [.q 40], []⟩, ⟨.I, [.q 44], []⟩, .tick, ⟨.R, [.q 4], []⟩,
  ⟨.I, [.q 8], []⟩, ⟨.I, [.q 10], []⟩, ⟨.I, [.q 12], []⟩, ⟨.R, [.q 14], []⟩, ⟨.R, [.q 16], []⟩, ⟨.R, [.q 18], []⟩, ⟨.I, [.q 22], []⟩,
  ⟨.I, [.q 24], []⟩, ⟨.I, [.q 26], []⟩, ⟨.R, [.q 30], []⟩, ⟨.R, [.q 32], []⟩, ⟨.R, [.q 34], []⟩, ⟨.I, [.q 36], []⟩, ⟨.I, [.q 38], []⟩,
  ⟨.I, [.q 40], []⟩, ⟨.R, [.q 44], []⟩, .tick, ⟨.H, [.q 4], []⟩, ⟨.I, [.q 8], []⟩, ⟨.I, [.q 10], []⟩, ⟨.I, [.q 12], []⟩, ⟨.I, [.q 14], []⟩,
  ⟨.H, [.q 16], []⟩, ⟨.I, [.q 18], []⟩, ⟨.I, [.q 22], []⟩, ⟨.I, [.q 24], []⟩, ⟨.I, [.q 26], []⟩, ⟨.I, [.q 30], []⟩, ⟨.H, [.q 32], []⟩,
  ⟨.I, [.q 34], []⟩, ⟨.I, [.q 36], []⟩, ⟨.I, [.q 38], []⟩, ⟨.I, [.q 40], []⟩, ⟨.H, [.q 44], []⟩, .tick, ⟨.CX, [.q 4, .q 10], []⟩, ⟨.I, [.q 14], []⟩,
  ⟨.CX, [.q 16, .q 22], []⟩, ⟨.CX, [.q 24, .q 18], []⟩, ⟨.CX, [.q 36, .q 30], []⟩, ⟨.CX, [.q 32, .q 38], []⟩, ⟨.CX, [.q 40, .q 34], []⟩,
  ⟨.I, [.q 44], []⟩, ⟨.I, [.q 8], []⟩, ⟨.I, [.q 12], []⟩, ⟨.I, [.q 26], []⟩, .tick, ⟨.CX, [.q 4, .q 12], []⟩, ⟨.I, [.q 14], []⟩,
  ⟨.CX, [.q 16, .q 24], []⟩, ⟨.CX, [.q 10, .q 18], []⟩, ⟨.CX, [.q 22, .q 30], []⟩, ⟨.CX, [.q 32, .q 40], []⟩, ⟨.CX, [.q 26, .q 34], []⟩,
  ⟨.I, [.q 44], []⟩, ⟨.I, [.q 8], []⟩, ⟨.I, [.q 36], []⟩, ⟨.I, [.q 38], []⟩, .tick, ⟨.I, [.q 4], []⟩, ⟨.CX, [.q 22, .q 14], []⟩,
  ⟨.CX, [.q 16, .q 8], []⟩, ⟨.CX, [.q 26, .q 18], []⟩, ⟨.CX, [.q 38, .q 30], []⟩, ⟨.CX, [.q 32, .q 24], []⟩, ⟨.I, [.q 34], []⟩,
  ⟨.CX, [.q 44, .q 36], []⟩, ⟨.I, [.q 10], []⟩, ⟨.I, [.q 12], []⟩, ⟨.I, [.q 40], []⟩, .tick, ⟨.I, [.q 4], []⟩, ⟨.CX, [.q 8, .q 14], []⟩,
  ⟨.CX, [.q 16, .q 10], []⟩, ⟨.CX, [.q 12, .q 18], []⟩, ⟨.CX, [.q 24, .q 30], []⟩, ⟨.CX, [.q 32, .q 26], []⟩, ⟨.I, [.q 34], []⟩,
  ⟨.CX, [.q 44, .q 38], []⟩, ⟨.I, [.q 22], []⟩, ⟨.I, [.q 36], []⟩, ⟨.I, [.q 40], []⟩, .tick, ⟨.H, [.q 4], []⟩, ⟨.I, [.q 8], []⟩, ⟨.I, [.q 10], []⟩,
  ⟨.I, [.q 12], []⟩, ⟨.I, [.q 14], []⟩, ⟨.H, [.q 16], []⟩, ⟨.I, [.q 18], []⟩, ⟨.I, [.q 22], []⟩, ⟨.I, [.q 24], []⟩, ⟨.I, [.q 26], []⟩,
  ⟨.I, [.q 30], []⟩, ⟨.H, [.q 32], []⟩, ⟨.I, [.q 34], []⟩, ⟨.I, [.q 36], []⟩, ⟨.I, [.q 38], []⟩, ⟨.I, [.q 40], []⟩, ⟨.H, [.q 44], []⟩, .tick,
  ⟨.M, [.q 4], []⟩, ⟨.I, [.q 8], []⟩, ⟨.I, [.q 10], []⟩, ⟨.I, [.q 12], []⟩, ⟨.M, [.q 14], []⟩, ⟨.M, [.q 16], []⟩, ⟨.M, [.q 18], []⟩,
  ⟨.I, [.q 22], []⟩, ⟨.I, [.q 24], []⟩, ⟨.I, [.q 26], []⟩, ⟨.M, [.q 30], []⟩, ⟨.M, [.q 32], []⟩, ⟨.M, [.q 34], []⟩, ⟨.I, [.q 36], []⟩,
  ⟨.I, [.q 38], []⟩, ⟨.I, [.q 40], []⟩, ⟨.M, [.q 44], []⟩, .tick, ⟨.DETECTOR, [.record (-6)], [.lit (2), .lit (2), .lit (0)]⟩,
  ⟨.DETECTOR, [.record (-1)], [.lit (2), .lit (6), .lit (0)]⟩, ⟨.DETECTOR, [.record (-8)], [.lit (4), .lit (0), .lit (0)]⟩,
  ⟨.DETECTOR, [.record (-3)], [.lit (4), .lit (4), .lit (0)]⟩, ⟨.SHIFT_COORDS, [], [.lit (0), .lit (0), .lit (1)]⟩]

/-- Part of src/paper/surface_code_circuits/sd6_X/d3_p0.0.stim, lines 163-291. -/
def sd6Xd3Body : List Instr := [
  ⟨.R, [.q 4], []⟩, ⟨.I, [.q 8], []⟩, ⟨.I, [.q 10], []⟩, ⟨.I, [.q 12], []⟩, ⟨.R, [.q 14], []⟩, ⟨.R, [.q 16], []⟩, ⟨.R, [.q 18], []⟩,
  ⟨.I, [.q 22], []⟩, ⟨.I, [.q 24], []⟩, ⟨.I, [.q 26], []⟩, ⟨.R, [.q 30], []⟩, ⟨.R, [.q 32], []⟩, ⟨.R, [.q 34], []⟩, ⟨.I, [.q 36], []⟩,
  ⟨.I, [.q 38], []⟩, ⟨.I, [.q 40], []⟩, ⟨.R, [.q 44], []⟩, .tick, ⟨.H, [.q 4], []⟩, ⟨.I, [.q 8], []⟩, ⟨.I, [.q 10], []⟩, ⟨.I, [.q 12], []⟩,
  ⟨.I, [.q 14], []⟩, ⟨.H, [.q 16], []⟩, ⟨.I, [.q 18], []⟩, ⟨.I, [.q 22], []⟩, ⟨.I, [.q 24], []⟩, ⟨.I, [.q 26], []⟩, ⟨.I, [.q 30], []⟩,
  ⟨.H, [.q 32], []⟩, ⟨.I, [.q 34], []⟩, ⟨.I, [.q 36], []⟩, ⟨.I, [.q 38], []⟩, ⟨.I, [.q 40], []⟩, ⟨.H, [.q 44], []⟩, .tick, ⟨.CX, [.q 4, .q 10], []⟩,
  ⟨.I, [.q 14], []⟩, ⟨.CX, [.q 16, .q 22], []⟩, ⟨.CX, [.q 24, .q 18], []⟩, ⟨.CX, [.q 36, .q 30], []⟩, ⟨.CX, [.q 32, .q 38], []⟩,
  ⟨.CX, [.q 40, .q 34], []⟩, ⟨.I, [.q 44], []⟩, ⟨.I, [.q 8], []⟩, ⟨.I, [.q 12], []⟩, ⟨.I, [.q 26], []⟩, .tick, ⟨.CX, [.q 4, .q 12], []⟩,
  ⟨.I, [.q 14], []⟩, ⟨.CX, [.q 16, .q 24], []⟩, ⟨.CX, [.q 10, .q 18], []⟩, ⟨.CX, [.q 22, .q 30], []⟩, ⟨.CX, [.q 32, .q 40], []⟩,
  ⟨.CX, [.q 26, .q 34], []⟩, ⟨.I, [.q 44], []⟩, ⟨.I, [.q 8], []⟩, ⟨.I, [.q 36], []⟩, ⟨.I, [.q 38], []⟩, .tick, ⟨.I, [.q 4], []⟩,
  ⟨.CX, [.q 22, .q 14], []⟩, ⟨.CX, [.q 16, .q 8], []⟩, ⟨.CX, [.q 26, .q 18], []⟩, ⟨.CX, [.q 38, .q 30], []⟩, ⟨.CX, [.q 32, .q 24], []⟩,
  ⟨.I, [.q 34], []⟩, ⟨.CX, [.q 44, .q 36], []⟩, ⟨.I, [.q 10], []⟩, ⟨.I, [.q 12], []⟩, ⟨.I, [.q 40], []⟩, .tick, ⟨.I, [.q 4], []⟩,
  ⟨.CX, [.q 8, .q 14], []⟩, ⟨.CX, [.q 16, .q 10], []⟩, ⟨.CX, [.q 12, .q 18], []⟩, ⟨.CX, [.q 24, .q 30], []⟩, ⟨.CX, [.q 32, .q 26], []⟩,
  ⟨.I, [.q 34], []⟩, ⟨.CX, [.q 44, .q 38], []⟩, ⟨.I, [.q 22], []⟩, ⟨.I, [.q 36], []⟩, ⟨.I, [.q 40], []⟩, .tick, ⟨.H, [.q 4], []⟩, ⟨.I, [.q 8], []⟩,
  ⟨.I, [.q 10], []⟩, ⟨.I, [.q 12], []⟩, ⟨.I, [.q 14], []⟩, ⟨.H, [.q 16], []⟩, ⟨.I, [.q 18], []⟩, ⟨.I, [.q 22], []⟩, ⟨.I, [.q 24], []⟩,
  ⟨.I, [.q 26], []⟩, ⟨.I, [.q 30], []⟩, ⟨.H, [.q 32], []⟩, ⟨.I, [.q 34], []⟩, ⟨.I, [.q 36], []⟩, ⟨.I, [.q 38], []⟩, ⟨.I, [.q 40], []⟩,
  ⟨.H, [.q 44], []⟩, .tick, ⟨.M, [.q 4], []⟩, ⟨.I, [.q 8], []⟩, ⟨.I, [.q 10], []⟩, ⟨.I, [.q 12], []⟩, ⟨.M, [.q 14], []⟩, ⟨.M, [.q 16], []⟩,
  ⟨.M, [.q 18], []⟩, ⟨.I, [.q 22], []⟩, ⟨.I, [.q 24], []⟩, ⟨.I, [.q 26], []⟩, ⟨.M, [.q 30], []⟩, ⟨.M, [.q 32], []⟩, ⟨.M, [.q 34], []⟩,
  ⟨.I, [.q 36], []⟩, ⟨.I, [.q 38], []⟩, ⟨.I, [.q 40], []⟩, ⟨.M, [.q 44], []⟩, .tick,
  ⟨.DETECTOR, [.record (-15), .record (-7)], [.lit (0), .lit (2), .lit (0)]⟩,
  ⟨.DETECTOR, [.record (-14), .record (-6)], [.lit (2), .lit (2), .lit (0)]⟩,
  ⟨.DETECTOR, [.record (-12), .record (-4)], [.lit (2), .lit (4), .lit (0)]⟩,
  ⟨.DETECTOR, [.record (-9), .record (-1)], [.lit (2), .lit (6), .lit (0)]⟩,
  ⟨.DETECTOR, [.record (-16), .record (-8)], [.lit (4), .lit (0), .lit (0)]⟩,
  ⟨.DETECTOR, [.record (-13), .record (-5)], [.lit (4), .lit (2), .lit (0)]⟩,
  ⟨.DETECTOR, [.record (-11), .record (-3)], [.lit (4), .lit (4), .lit (0)]⟩,
  ⟨.DETECTOR, [.record (-10), .record (-2)], [.lit (6), .lit (4), .lit (0)]⟩, ⟨.SHIFT_COORDS, [], [.lit (0), .lit (0), .lit (1)]⟩]

/-- Part of src/paper/surface_code_circuits/sd6_X/d3_p0.0.stim, lines 293-334. -/
def sd6Xd3End : List Instr := [
  ⟨.I, [.q 4], []⟩, ⟨.H, [.q 8], []⟩, ⟨.H, [.q 10], []⟩, ⟨.H, [.q 12], []⟩, ⟨.I, [.q 14], []⟩, ⟨.I, [.q 16], []⟩, ⟨.I, [.q 18], []⟩,
  ⟨.H, [.q 22], []⟩, ⟨.H, [.q 24], []⟩, ⟨.H, [.q 26], []⟩, ⟨.I, [.q 30], []⟩, ⟨.I, [.q 32], []⟩, ⟨.I, [.q 34], []⟩, ⟨.H, [.q 36], []⟩,
  ⟨.H, [.q 38], []⟩, ⟨.H, [.q 40], []⟩, ⟨.I, [.q 44], []⟩, .tick, ⟨.I, [.q 4], []⟩, ⟨.M, [.q 8], []⟩, ⟨.M, [.q 10], []⟩, ⟨.M, [.q 12], []⟩,
  ⟨.I, [.q 14], []⟩, ⟨.I, [.q 16], []⟩, ⟨.I, [.q 18], []⟩, ⟨.M, [.q 22], []⟩, ⟨.M, [.q 24], []⟩, ⟨.M, [.q 26], []⟩, ⟨.I, [.q 30], []⟩,
  ⟨.I, [.q 32], []⟩, ⟨.I, [.q 34], []⟩, ⟨.M, [.q 36], []⟩, ⟨.M, [.q 38], []⟩, ⟨.M, [.q 40], []⟩, ⟨.I, [.q 44], []⟩, .tick,
  ⟨.DETECTOR, [.record (-15), .record (-5), .record (-8), .record (-9), .record (-6)], [.lit (2), .lit (2), .lit (0)]⟩,
  ⟨.DETECTOR, [.record (-10), .record (-2), .record (-3)], [.lit (2), .lit (6), .lit (0)]⟩,
  ⟨.DETECTOR, [.record (-17), .record (-7), .record (-8)], [.lit (4), .lit (0), .lit (0)]⟩,
  ⟨.DETECTOR, [.record (-12), .record (-1), .record (-4), .record (-5), .record (-2)], [.lit (4), .lit (4), .lit (0)]⟩,
  ⟨.SHIFT_COORDS, [], [.lit (0), .lit (0), .lit (1)]⟩, ⟨.OBSERVABLE_INCLUDE, [.record (-9), .record (-6), .record (-3)], [.lit (0)]⟩]

/-- src/paper/surface_code_circuits/sd6_X/d3_p0.0.stim. -/
def sd6Xd3 : Circuit :=
  .ofList sd6Xd3Start ++ .rep 8 (.ofList sd6Xd3Body) (.ofList sd6Xd3End)

/-- Part of src/paper/surface_code_circuits/sd6_Z/d3_p0.0.stim, lines 1-161. -/
def sd6Zd3Start : List Instr := [
  ⟨.I, [.q 4], []⟩, ⟨.R, [.q 8], []⟩, ⟨.R, [.q 10], []⟩, ⟨.R, [.q 12], []⟩, ⟨.I, [.q 14], []⟩, ⟨.I, [.q 16], []⟩, ⟨.I, [.q 18], []⟩,
  ⟨.R, [.q 22], []⟩, ⟨.R, [.q 24], []⟩, ⟨.R, [.q 26], []⟩, ⟨.I, [.q 30], []⟩, ⟨.I, [.q 32], []⟩, ⟨.I, [.q 34], []⟩, ⟨.R, [.q 36], []⟩,
  ⟨.R, [.q 38], []⟩, ⟨.R, [.q 40], []⟩, ⟨.I, [.q 44], []⟩, .tick, ⟨.I, [.q 4], []⟩, ⟨.I, [.q 8], []⟩, ⟨.I, [.q 10], []⟩, ⟨.I, [.q 12], []⟩,
  ⟨.I, [.q 14], []⟩, ⟨.I, [.q 16], []⟩, ⟨.I, [.q 18], []⟩, ⟨.I, [.q 22], []⟩, ⟨.I, [.q 24], []⟩, ⟨.I, [.q 26], []⟩, ⟨.I, [.q 30], []⟩,
  ⟨.I, [.q 32], []⟩, ⟨.I, [.q 34], []⟩, ⟨.I, [.q 36], []⟩, ⟨.I, [.q 38], []⟩, ⟨.I, [.q 40], []⟩, ⟨.I, [.q 44], []⟩, .tick, ⟨.R, [.q 4], []⟩,
  ⟨.I, [.q 8], []⟩, ⟨.I, [.q 10], []⟩, ⟨.I, [.q 12], []⟩, ⟨.R, [.q 14], []⟩, ⟨.R, [.q 16], []⟩, ⟨.R, [.q 18], []⟩, ⟨.I, [.q 22], []⟩,
  ⟨.I, [.q 24], []⟩, ⟨.I, [.q 26], []⟩, ⟨.R, [.q 30], []⟩, ⟨.R, [.q 32], []⟩, ⟨.R, [.q 34], []⟩, ⟨.I, [.q 36], []⟩, ⟨.I, [.q 38], []⟩,
  ⟨.I, [.q 40], []⟩, ⟨.R, [.q 44], []⟩, .tick, ⟨.H, [.q 4], []⟩, ⟨.I, [.q 8], []⟩, ⟨.I, [.q 10], []⟩, ⟨.I, [.q 12], []⟩, ⟨.I, [.q 14], []⟩,
  ⟨.H, [.q 16], []⟩, ⟨.I, [.q 18], []⟩, ⟨.I, [.q 22], []⟩, ⟨.I, [.q 24], []⟩, ⟨.I, [.q 26], []⟩, ⟨.I, [.q 30], []⟩, ⟨.H, [.q 32], []⟩,
  ⟨.I, [.q 34], []⟩, ⟨.I, [.q 36], []⟩, ⟨.I, [.q 38], []⟩, ⟨.I, [.q 40], []⟩, ⟨.H, [.q 44], []⟩, .tick, ⟨.CX, [.q 4, .q 10], []⟩, ⟨.I, [.q 14], []⟩,
  ⟨.CX, [.q 16, .q 22], []⟩, ⟨.CX, [.q 24, .q 18], []⟩, ⟨.CX, [.q 36, .q 30], []⟩, ⟨.CX, [.q 32, .q 38], []⟩, ⟨.CX, [.q 40, .q 34], []⟩,
  ⟨.I, [.q 44], []⟩, ⟨.I, [.q 8], []⟩, ⟨.I, [.q 12], []⟩, ⟨.I, [.q 26], []⟩, .tick, ⟨.CX, [.q 4, .q 12], []⟩, ⟨.I, [.q 14], []⟩,
  ⟨.CX, [.q 16, .q 24], []⟩, ⟨.CX, [.q 10, .q 18], []⟩, ⟨.CX, [.q 22, .q 30], []⟩, ⟨.CX, [.q 32, .q 40], []⟩, ⟨.CX, [.q 26, .q 34], []⟩,
  ⟨.I, [.q 44], []⟩, ⟨.I, [.q 8], []⟩, ⟨.I, [.q 36], []⟩, ⟨.I, [.q 38], []⟩, .tick, ⟨.I, [.q 4], []⟩, ⟨.CX, [.q 22, .q 14], []⟩,
  ⟨.CX, [.q 16, .q 8], []⟩, ⟨.CX, [.q 26, .q 18], []⟩, ⟨.CX, [.q 38, .q 30], []⟩, ⟨.CX, [.q 32, .q 24], []⟩, ⟨.I, [.q 34], []⟩,
  ⟨.CX, [.q 44, .q 36], []⟩, ⟨.I, [.q 10], []⟩, ⟨.I, [.q 12], []⟩, ⟨.I, [.q 40], []⟩, .tick, ⟨.I, [.q 4], []⟩, ⟨.CX, [.q 8, .q 14], []⟩,
  ⟨.CX, [.q 16, .q 10], []⟩, ⟨.CX, [.q 12, .q 18], []⟩, ⟨.CX, [.q 24, .q 30], []⟩, ⟨.CX, [.q 32, .q 26], []⟩, ⟨.I, [.q 34], []⟩,
  ⟨.CX, [.q 44, .q 38], []⟩, ⟨.I, [.q 22], []⟩, ⟨.I, [.q 36], []⟩, ⟨.I, [.q 40], []⟩, .tick, ⟨.H, [.q 4], []⟩, ⟨.I, [.q 8], []⟩, ⟨.I, [.q 10], []⟩,
  ⟨.I, [.q 12], []⟩, ⟨.I, [.q 14], []⟩, ⟨.H, [.q 16], []⟩, ⟨.I, [.q 18], []⟩, ⟨.I, [.q 22], []⟩, ⟨.I, [.q 24], []⟩, ⟨.I, [.q 26], []⟩,
  ⟨.I, [.q 30], []⟩, ⟨.H, [.q 32], []⟩, ⟨.I, [.q 34], []⟩, ⟨.I, [.q 36], []⟩, ⟨.I, [.q 38], []⟩, ⟨.I, [.q 40], []⟩, ⟨.H, [.q 44], []⟩, .tick,
  ⟨.M, [.q 4], []⟩, ⟨.I, [.q 8], []⟩, ⟨.I, [.q 10], []⟩, ⟨.I, [.q 12], []⟩, ⟨.M, [.q 14], []⟩, ⟨.M, [.q 16], []⟩, ⟨.M, [.q 18], []⟩,
  ⟨.I, [.q 22], []⟩, ⟨.I, [.q 24], []⟩, ⟨.I, [.q 26], []⟩, ⟨.M, [.q 30], []⟩, ⟨.M, [.q 32], []⟩, ⟨.M, [.q 34], []⟩, ⟨.I, [.q 36], []⟩,
  ⟨.I, [.q 38], []⟩, ⟨.I, [.q 40], []⟩, ⟨.M, [.q 44], []⟩, .tick, ⟨.DETECTOR, [.record (-7)], [.lit (0), .lit (2), .lit (0)]⟩,
  ⟨.DETECTOR, [.record (-4)], [.lit (2), .lit (4), .lit (0)]⟩, ⟨.DETECTOR, [.record (-5)], [.lit (4), .lit (2), .lit (0)]⟩,
  ⟨.DETECTOR, [.record (-2)], [.lit (6), .lit (4), .lit (0)]⟩, ⟨.SHIFT_COORDS, [], [.lit (0), .lit (0), .lit (1)]⟩]

/-- Part of src/paper/surface_code_circuits/sd6_Z/d3_p0.0.stim, lines 163-291. -/
def sd6Zd3Body : List Instr := [
  ⟨.R, [.q 4], []⟩, ⟨.I, [.q 8], []⟩, ⟨.I, [.q 10], []⟩, ⟨.I, [.q 12], []⟩, ⟨.R, [.q 14], []⟩, ⟨.R, [.q 16], []⟩, ⟨.R, [.q 18], []⟩,
  ⟨.I, [.q 22], []⟩, ⟨.I, [.q 24], []⟩, ⟨.I, [.q 26], []⟩, ⟨.R, [.q 30], []⟩, ⟨.R, [.q 32], []⟩, ⟨.R, [.q 34], []⟩, ⟨.I, [.q 36], []⟩,
  ⟨.I, [.q 38], []⟩, ⟨.I, [.q 40], []⟩, ⟨.R, [.q 44], []⟩, .tick, ⟨.H, [.q 4], []⟩, ⟨.I, [.q 8], []⟩, ⟨.I, [.q 10], []⟩, ⟨.I, [.q 12], []⟩,
  ⟨.I, [.q 14], []⟩, ⟨.H, [.q 16], []⟩, ⟨.I, [.q 18], []⟩, ⟨.I, [.q 22], []⟩, ⟨.I, [.q 24], []⟩, ⟨.I, [.q 26], []⟩, ⟨.I, [.q 30], []⟩,
  ⟨.H, [.q 32], []⟩, ⟨.I, [.q 34], []⟩, ⟨.I, [.q 36], []⟩, ⟨.I, [.q 38], []⟩, ⟨.I, [.q 40], []⟩, ⟨.H, [.q 44], []⟩, .tick, ⟨.CX, [.q 4, .q 10], []⟩,
  ⟨.I, [.q 14], []⟩, ⟨.CX, [.q 16, .q 22], []⟩, ⟨.CX, [.q 24, .q 18], []⟩, ⟨.CX, [.q 36, .q 30], []⟩, ⟨.CX, [.q 32, .q 38], []⟩,
  ⟨.CX, [.q 40, .q 34], []⟩, ⟨.I, [.q 44], []⟩, ⟨.I, [.q 8], []⟩, ⟨.I, [.q 12], []⟩, ⟨.I, [.q 26], []⟩, .tick, ⟨.CX, [.q 4, .q 12], []⟩,
  ⟨.I, [.q 14], []⟩, ⟨.CX, [.q 16, .q 24], []⟩, ⟨.CX, [.q 10, .q 18], []⟩, ⟨.CX, [.q 22, .q 30], []⟩, ⟨.CX, [.q 32, .q 40], []⟩,
  ⟨.CX, [.q 26, .q 34], []⟩, ⟨.I, [.q 44], []⟩, ⟨.I, [.q 8], []⟩, ⟨.I, [.q 36], []⟩, ⟨.I, [.q 38], []⟩, .tick, ⟨.I, [.q 4], []⟩,
  ⟨.CX, [.q 22, .q 14], []⟩, ⟨.CX, [.q 16, .q 8], []⟩, ⟨.CX, [.q 26, .q 18], []⟩, ⟨.CX, [.q 38, .q 30], []⟩, ⟨.CX, [.q 32, .q 24], []⟩,
  ⟨.I, [.q 34], []⟩, ⟨.CX, [.q 44, .q 36], []⟩, ⟨.I, [.q 10], []⟩, ⟨.I, [.q 12], []⟩, ⟨.I, [.q 40], []⟩, .tick, ⟨.I, [.q 4], []⟩,
  ⟨.CX, [.q 8, .q 14], []⟩, ⟨.CX, [.q 16, .q 10], []⟩, ⟨.CX, [.q 12, .q 18], []⟩, ⟨.CX, [.q 24, .q 30], []⟩, ⟨.CX, [.q 32, .q 26], []⟩,
  ⟨.I, [.q 34], []⟩, ⟨.CX, [.q 44, .q 38], []⟩, ⟨.I, [.q 22], []⟩, ⟨.I, [.q 36], []⟩, ⟨.I, [.q 40], []⟩, .tick, ⟨.H, [.q 4], []⟩, ⟨.I, [.q 8], []⟩,
  ⟨.I, [.q 10], []⟩, ⟨.I, [.q 12], []⟩, ⟨.I, [.q 14], []⟩, ⟨.H, [.q 16], []⟩, ⟨.I, [.q 18], []⟩, ⟨.I, [.q 22], []⟩, ⟨.I, [.q 24], []⟩,
  ⟨.I, [.q 26], []⟩, ⟨.I, [.q 30], []⟩, ⟨.H, [.q 32], []⟩, ⟨.I, [.q 34], []⟩, ⟨.I, [.q 36], []⟩, ⟨.I, [.q 38], []⟩, ⟨.I, [.q 40], []⟩,
  ⟨.H, [.q 44], []⟩, .tick, ⟨.M, [.q 4], []⟩, ⟨.I, [.q 8], []⟩, ⟨.I, [.q 10], []⟩, ⟨.I, [.q 12], []⟩, ⟨.M, [.q 14], []⟩, ⟨.M, [.q 16], []⟩,
  ⟨.M, [.q 18], []⟩, ⟨.I, [.q 22], []⟩, ⟨.I, [.q 24], []⟩, ⟨.I, [.q 26], []⟩, ⟨.M, [.q 30], []⟩, ⟨.M, [.q 32], []⟩, ⟨.M, [.q 34], []⟩,
  ⟨.I, [.q 36], []⟩, ⟨.I, [.q 38], []⟩, ⟨.I, [.q 40], []⟩, ⟨.M, [.q 44], []⟩, .tick,
  ⟨.DETECTOR, [.record (-15), .record (-7)], [.lit (0), .lit (2), .lit (0)]⟩,
  ⟨.DETECTOR, [.record (-14), .record (-6)], [.lit (2), .lit (2), .lit (0)]⟩,
  ⟨.DETECTOR, [.record (-12), .record (-4)], [.lit (2), .lit (4), .lit (0)]⟩,
  ⟨.DETECTOR, [.record (-9), .record (-1)], [.lit (2), .lit (6), .lit (0)]⟩,
  ⟨.DETECTOR, [.record (-16), .record (-8)], [.lit (4), .lit (0), .lit (0)]⟩,
  ⟨.DETECTOR, [.record (-13), .record (-5)], [.lit (4), .lit (2), .lit (0)]⟩,
  ⟨.DETECTOR, [.record (-11), .record (-3)], [.lit (4), .lit (4), .lit (0)]⟩,
  ⟨.DETECTOR, [.record (-10), .record (-2)], [.lit (6), .lit (4), .lit (0)]⟩, ⟨.SHIFT_COORDS, [], [.lit (0), .lit (0), .lit (1)]⟩]

/-- Part of src/paper/surface_code_circuits/sd6_Z/d3_p0.0.stim, lines 293-334. -/
def sd6Zd3End : List Instr := [
  ⟨.I, [.q 4], []⟩, ⟨.I, [.q 8], []⟩, ⟨.I, [.q 10], []⟩, ⟨.I, [.q 12], []⟩, ⟨.I, [.q 14], []⟩, ⟨.I, [.q 16], []⟩, ⟨.I, [.q 18], []⟩,
  ⟨.I, [.q 22], []⟩, ⟨.I, [.q 24], []⟩, ⟨.I, [.q 26], []⟩, ⟨.I, [.q 30], []⟩, ⟨.I, [.q 32], []⟩, ⟨.I, [.q 34], []⟩, ⟨.I, [.q 36], []⟩,
  ⟨.I, [.q 38], []⟩, ⟨.I, [.q 40], []⟩, ⟨.I, [.q 44], []⟩, .tick, ⟨.I, [.q 4], []⟩, ⟨.M, [.q 8], []⟩, ⟨.M, [.q 10], []⟩, ⟨.M, [.q 12], []⟩,
  ⟨.I, [.q 14], []⟩, ⟨.I, [.q 16], []⟩, ⟨.I, [.q 18], []⟩, ⟨.M, [.q 22], []⟩, ⟨.M, [.q 24], []⟩, ⟨.M, [.q 26], []⟩, ⟨.I, [.q 30], []⟩,
  ⟨.I, [.q 32], []⟩, ⟨.I, [.q 34], []⟩, ⟨.M, [.q 36], []⟩, ⟨.M, [.q 38], []⟩, ⟨.M, [.q 40], []⟩, ⟨.I, [.q 44], []⟩, .tick,
  ⟨.DETECTOR, [.record (-16), .record (-6), .record (-9)], [.lit (0), .lit (2), .lit (0)]⟩,
  ⟨.DETECTOR, [.record (-13), .record (-2), .record (-5), .record (-6), .record (-3)], [.lit (2), .lit (4), .lit (0)]⟩,
  ⟨.DETECTOR, [.record (-14), .record (-4), .record (-7), .record (-8), .record (-5)], [.lit (4), .lit (2), .lit (0)]⟩,
  ⟨.DETECTOR, [.record (-11), .record (-4), .record (-1)], [.lit (6), .lit (4), .lit (0)]⟩, ⟨.SHIFT_COORDS, [], [.lit (0), .lit (0), .lit (1)]⟩,
  ⟨.OBSERVABLE_INCLUDE, [.record (-9), .record (-8), .record (-7)], [.lit (0)]⟩]

/-- src/paper/surface_code_circuits/sd6_Z/d3_p0.0.stim. -/
def sd6Zd3 : Circuit :=
  .ofList sd6Zd3Start ++ .rep 8 (.ofList sd6Zd3Body) (.ofList sd6Zd3End)

/-- Part of src/paper/surface_code_circuits/si1000_X/d3_p0.0.stim, lines 1-197. -/
def si1000Xd3Start : List Instr := [
  ⟨.I, [.q 4], []⟩, ⟨.R, [.q 8], []⟩, ⟨.R, [.q 10], []⟩, ⟨.R, [.q 12], []⟩, ⟨.I, [.q 14], []⟩, ⟨.I, [.q 16], []⟩, ⟨.I, [.q 18], []⟩,
  ⟨.R, [.q 22], []⟩, ⟨.R, [.q 24], []⟩, ⟨.R, [.q 26], []⟩, ⟨.I, [.q 30], []⟩, ⟨.I, [.q 32], []⟩, ⟨.I, [.q 34], []⟩, ⟨.R, [.q 36], []⟩,
  ⟨.R, [.q 38], []⟩, ⟨.R, [.q 40], []⟩, ⟨.I, [.q 44], []⟩, .tick, ⟨.I, [.q 4], []⟩, ⟨.H, [.q 8], []⟩, ⟨.H, [.q 10], []⟩, ⟨.H, [.q 12], []⟩,
  ⟨.I, [.q 14], []⟩, ⟨.I, [.q 16], []⟩, ⟨.I, [.q 18], []⟩, ⟨.H, [.q 22], []⟩, ⟨.H, [.q 24], []⟩, ⟨.H, [.q 26], []⟩, ⟨.I, [.q 30], []⟩,
  ⟨.I, [.q 32], []⟩, ⟨.I, [.q 34], []⟩, ⟨.H, [.q 36], []⟩, ⟨.H, [.q 38], []⟩, ⟨.H, [.q 40], []⟩, ⟨.I, [.q 44], []⟩, .tick, ⟨.R, [.q 4], []⟩,
  ⟨.I, [.q 8], []⟩, ⟨.I, [.q 10], []⟩, ⟨.I, [.q 12], []⟩, ⟨.R, [.q 14], []⟩, ⟨.R, [.q 16], []⟩, ⟨.R, [.q 18], []⟩, ⟨.I, [.q 22], []⟩,
  ⟨.I, [.q 24], []⟩, ⟨.I, [.q 26], []⟩, ⟨.R, [.q 30], []⟩, ⟨.R, [.q 32], []⟩, ⟨.R, [.q 34], []⟩, ⟨.I, [.q 36], []⟩, ⟨.I, [.q 38], []⟩,
  ⟨.I, [.q 40], []⟩, ⟨.R, [.q 44], []⟩, .tick, ⟨.H, [.q 4], []⟩, ⟨.I, [.q 8], []⟩, ⟨.H, [.q 10], []⟩, ⟨.I, [.q 12], []⟩, ⟨.H, [.q 14], []⟩,
  ⟨.H, [.q 16], []⟩, ⟨.H, [.q 18], []⟩, ⟨.H, [.q 22], []⟩, ⟨.I, [.q 24], []⟩, ⟨.H, [.q 26], []⟩, ⟨.H, [.q 30], []⟩, ⟨.H, [.q 32], []⟩,
  ⟨.H, [.q 34], []⟩, ⟨.I, [.q 36], []⟩, ⟨.H, [.q 38], []⟩, ⟨.I, [.q 40], []⟩, ⟨.H, [.q 44], []⟩, .tick, ⟨.CZ, [.q 4, .q 10], []⟩, ⟨.I, [.q 14], []⟩,
  ⟨.CZ, [.q 16, .q 22], []⟩, ⟨.CZ, [.q 18, .q 24], []⟩, ⟨.CZ, [.q 30, .q 36], []⟩, ⟨.CZ, [.q 32, .q 38], []⟩, ⟨.CZ, [.q 34, .q 40], []⟩,
  ⟨.I, [.q 44], []⟩, ⟨.I, [.q 8], []⟩, ⟨.I, [.q 12], []⟩, ⟨.I, [.q 26], []⟩, .tick, ⟨.I, [.q 4], []⟩, ⟨.H, [.q 8], []⟩, ⟨.H, [.q 10], []⟩,
  ⟨.H, [.q 12], []⟩, ⟨.I, [.q 14], []⟩, ⟨.I, [.q 16], []⟩, ⟨.I, [.q 18], []⟩, ⟨.H, [.q 22], []⟩, ⟨.H, [.q 24], []⟩, ⟨.H, [.q 26], []⟩,
  ⟨.I, [.q 30], []⟩, ⟨.I, [.q 32], []⟩, ⟨.I, [.q 34], []⟩, ⟨.H, [.q 36], []⟩, ⟨.H, [.q 38], []⟩, ⟨.H, [.q 40], []⟩, ⟨.I, [.q 44], []⟩, .tick,
  ⟨.CZ, [.q 4, .q 12], []⟩, ⟨.I, [.q 14], []⟩, ⟨.CZ, [.q 16, .q 24], []⟩, ⟨.CZ, [.q 18, .q 10], []⟩, ⟨.CZ, [.q 30, .q 22], []⟩,
  ⟨.CZ, [.q 32, .q 40], []⟩, ⟨.CZ, [.q 34, .q 26], []⟩, ⟨.I, [.q 44], []⟩, ⟨.I, [.q 8], []⟩, ⟨.I, [.q 36], []⟩, ⟨.I, [.q 38], []⟩, .tick,
  ⟨.I, [.q 4], []⟩, ⟨.CZ, [.q 14, .q 22], []⟩, ⟨.CZ, [.q 16, .q 8], []⟩, ⟨.CZ, [.q 18, .q 26], []⟩, ⟨.CZ, [.q 30, .q 38], []⟩,
  ⟨.CZ, [.q 32, .q 24], []⟩, ⟨.I, [.q 34], []⟩, ⟨.CZ, [.q 44, .q 36], []⟩, ⟨.I, [.q 10], []⟩, ⟨.I, [.q 12], []⟩, ⟨.I, [.q 40], []⟩, .tick,
  ⟨.I, [.q 4], []⟩, ⟨.H, [.q 8], []⟩, ⟨.H, [.q 10], []⟩, ⟨.H, [.q 12], []⟩, ⟨.I, [.q 14], []⟩, ⟨.I, [.q 16], []⟩, ⟨.I, [.q 18], []⟩,
  ⟨.H, [.q 22], []⟩, ⟨.H, [.q 24], []⟩, ⟨.H, [.q 26], []⟩, ⟨.I, [.q 30], []⟩, ⟨.I, [.q 32], []⟩, ⟨.I, [.q 34], []⟩, ⟨.H, [.q 36], []⟩,
  ⟨.H, [.q 38], []⟩, ⟨.H, [.q 40], []⟩, ⟨.I, [.q 44], []⟩, .tick, ⟨.I, [.q 4], []⟩, ⟨.CZ, [.q 14, .q 8], []⟩, ⟨.CZ, [.q 16, .q 10], []⟩,
  ⟨.CZ, [.q 18, .q 12], []⟩, ⟨.CZ, [.q 30, .q 24], []⟩, ⟨.CZ, [.q 32, .q 26], []⟩, ⟨.I, [.q 34], []⟩, ⟨.CZ, [.q 44, .q 38], []⟩, ⟨.I, [.q 22], []⟩,
  ⟨.I, [.q 36], []⟩, ⟨.I, [.q 40], []⟩, .tick, ⟨.H, [.q 4], []⟩, ⟨.I, [.q 8], []⟩, ⟨.H, [.q 10], []⟩, ⟨.I, [.q 12], []⟩, ⟨.H, [.q 14], []⟩,
  ⟨.H, [.q 16], []⟩, ⟨.H, [.q 18], []⟩, ⟨.H, [.q 22], []⟩, ⟨.I, [.q 24], []⟩, ⟨.H, [.q 26], []⟩, ⟨.H, [.q 30], []⟩, ⟨.H, [.q 32], []⟩,
  ⟨.H, [.q 34], []⟩, ⟨.I, [.q 36], []⟩, ⟨.H, [.q 38], []⟩, ⟨.I, [.q 40], []⟩, ⟨.H, [.q 44], []⟩, .tick, ⟨.M, [.q 4], []⟩, ⟨.I, [.q 8], []⟩,
  ⟨.I, [.q 10], []⟩, ⟨.I, [.q 12], []⟩, ⟨.M, [.q 14], []⟩, ⟨.M, [.q 16], []⟩, ⟨.M, [.q 18], []⟩, ⟨.I, [.q 22], []⟩, ⟨.I, [.q 24], []⟩,
  ⟨.I, [.q 26], []⟩, ⟨.M, [.q 30], []⟩, ⟨.M, [.q 32], []⟩, ⟨.M, [.q 34], []⟩, ⟨.I, [.q 36], []⟩, ⟨.I, [.q 38], []⟩, ⟨.I, [.q 40], []⟩,
  ⟨.M, [.q 44], []⟩, .tick, ⟨.DETECTOR, [.record (-6)], [.lit (2), .lit (2), .lit (0)]⟩, ⟨.DETECTOR, [.record (-1)], [.lit (2), .lit (6), .lit (0)]⟩,
  ⟨.DETECTOR, [.record (-8)], [.lit (4), .lit (0), .lit (0)]⟩, ⟨.DETECTOR, [.record (-3)], [.lit (4), .lit (4), .lit (0)]⟩,
  ⟨.SHIFT_COORDS, [], [.lit (0), .lit (0), .lit (1)]⟩]

/-- Part of src/paper/surface_code_circuits/si1000_X/d3_p0.0.stim, lines 199-363. -/
def si1000Xd3Body : List Instr := [
  ⟨.R, [.q 4], []⟩, ⟨.I, [.q 8], []⟩, ⟨.I, [.q 10], []⟩, ⟨.I, [.q 12], []⟩, ⟨.R, [.q 14], []⟩, ⟨.R, [.q 16], []⟩, ⟨.R, [.q 18], []⟩,
  ⟨.I, [.q 22], []⟩, ⟨.I, [.q 24], []⟩, ⟨.I, [.q 26], []⟩, ⟨.R, [.q 30], []⟩, ⟨.R, [.q 32], []⟩, ⟨.R, [.q 34], []⟩, ⟨.I, [.q 36], []⟩,
  ⟨.I, [.q 38], []⟩, ⟨.I, [.q 40], []⟩, ⟨.R, [.q 44], []⟩, .tick, ⟨.H, [.q 4], []⟩, ⟨.I, [.q 8], []⟩, ⟨.H, [.q 10], []⟩, ⟨.I, [.q 12], []⟩,
  ⟨.H, [.q 14], []⟩, ⟨.H, [.q 16], []⟩, ⟨.H, [.q 18], []⟩, ⟨.H, [.q 22], []⟩, ⟨.I, [.q 24], []⟩, ⟨.H, [.q 26], []⟩, ⟨.H, [.q 30], []⟩,
  ⟨.H, [.q 32], []⟩, ⟨.H, [.q 34], []⟩, ⟨.I, [.q 36], []⟩, ⟨.H, [.q 38], []⟩, ⟨.I, [.q 40], []⟩, ⟨.H, [.q 44], []⟩, .tick, ⟨.CZ, [.q 4, .q 10], []⟩,
  ⟨.I, [.q 14], []⟩, ⟨.CZ, [.q 16, .q 22], []⟩, ⟨.CZ, [.q 18, .q 24], []⟩, ⟨.CZ, [.q 30, .q 36], []⟩, ⟨.CZ, [.q 32, .q 38], []⟩,
  ⟨.CZ, [.q 34, .q 40], []⟩, ⟨.I, [.q 44], []⟩, ⟨.I, [.q 8], []⟩, ⟨.I, [.q 12], []⟩, ⟨.I, [.q 26], []⟩, .tick, ⟨.I, [.q 4], []⟩, ⟨.H, [.q 8], []⟩,
  ⟨.H, [.q 10], []⟩, ⟨.H, [.q 12], []⟩, ⟨.I, [.q 14], []⟩, ⟨.I, [.q 16], []⟩, ⟨.I, [.q 18], []⟩, ⟨.H, [.q 22], []⟩, ⟨.H, [.q 24], []⟩,
  ⟨.H, [.q 26], []⟩, ⟨.I, [.q 30], []⟩, ⟨.I, [.q 32], []⟩, ⟨.I, [.q 34], []⟩, ⟨.H, [.q 36], []⟩, ⟨.H, [.q 38], []⟩, ⟨.H, [.q 40], []⟩,
  ⟨.I, [.q 44], []⟩, .tick, ⟨.CZ, [.q 4, .q 12], []⟩, ⟨.I, [.q 14], []⟩, ⟨.CZ, [.q 16, .q 24], []⟩, ⟨.CZ, [.q 18, .q 10], []⟩,
  ⟨.CZ, [.q 30, .q 22], []⟩, ⟨.CZ, [.q 32, .q 40], []⟩, ⟨.CZ, [.q 34, .q 26], []⟩, ⟨.I, [.q 44], []⟩, ⟨.I, [.q 8], []⟩, ⟨.I, [.q 36], []⟩,
  ⟨.I, [.q 38], []⟩, .tick, ⟨.I, [.q 4], []⟩, ⟨.CZ, [.q 14, .q 22], []⟩, ⟨.CZ, [.q 16, .q 8], []⟩, ⟨.CZ, [.q 18, .q 26], []⟩,
  ⟨.CZ, [.q 30, .q 38], []⟩, ⟨.CZ, [.q 32, .q 24], []⟩, ⟨.I, [.q 34], []⟩, ⟨.CZ, [.q 44, .q 36], []⟩, ⟨.I, [.q 10], []⟩, ⟨.I, [.q 12], []⟩,
  ⟨.I, [.q 40], []⟩, .tick, ⟨.I, [.q 4], []⟩, ⟨.H, [.q 8], []⟩, ⟨.H, [.q 10], []⟩, ⟨.H, [.q 12], []⟩, ⟨.I, [.q 14], []⟩, ⟨.I, [.q 16], []⟩,
  ⟨.I, [.q 18], []⟩, ⟨.H, [.q 22], []⟩, ⟨.H, [.q 24], []⟩, ⟨.H, [.q 26], []⟩, ⟨.I, [.q 30], []⟩, ⟨.I, [.q 32], []⟩, ⟨.I, [.q 34], []⟩,
  ⟨.H, [.q 36], []⟩, ⟨.H, [.q 38], []⟩, ⟨.H, [.q 40], []⟩, ⟨.I, [.q 44], []⟩, .tick, ⟨.I, [.q 4], []⟩, ⟨.CZ, [.q 14, .q 8], []⟩,
  ⟨.CZ, [.q 16, .q 10], []⟩, ⟨.CZ, [.q 18, .q 12], []⟩, ⟨.CZ, [.q 30, .q 24], []⟩, ⟨.CZ, [.q 32, .q 26], []⟩, ⟨.I, [.q 34], []⟩,
  ⟨.CZ, [.q 44, .q 38], []⟩, ⟨.I, [.q 22], []⟩, ⟨.I, [.q 36], []⟩, ⟨.I, [.q 40], []⟩, .tick, ⟨.H, [.q 4], []⟩, ⟨.I, [.q 8], []⟩, ⟨.H, [.q 10], []⟩,
  ⟨.I, [.q 12], []⟩, ⟨.H, [.q 14], []⟩, ⟨.H, [.q 16], []⟩, ⟨.H, [.q 18], []⟩, ⟨.H, [.q 22], []⟩, ⟨.I, [.q 24], []⟩, ⟨.H, [.q 26], []⟩,
  ⟨.H, [.q 30], []⟩, ⟨.H, [.q 32], []⟩, ⟨.H, [.q 34], []⟩, ⟨.I, [.q 36], []⟩, ⟨.H, [.q 38], []⟩, ⟨.I, [.q 40], []⟩, ⟨.H, [.q 44], []⟩, .tick,
  ⟨.M, [.q 4], []⟩, ⟨.I, [.q 8], []⟩, ⟨.I, [.q 10], []⟩, ⟨.I, [.q 12], []⟩, ⟨.M, [.q 14], []⟩, ⟨.M, [.q 16], []⟩, ⟨.M, [.q 18], []⟩,
  ⟨.I, [.q 22], []⟩, ⟨.I, [.q 24], []⟩, ⟨.I, [.q 26], []⟩, ⟨.M, [.q 30], []⟩, ⟨.M, [.q 32], []⟩, ⟨.M, [.q 34], []⟩, ⟨.I, [.q 36], []⟩,
  ⟨.I, [.q 38], []⟩, ⟨.I, [.q 40], []⟩, ⟨.M, [.q 44], []⟩, .tick, ⟨.DETECTOR, [.record (-15), .record (-7)], [.lit (0), .lit (2), .lit (0)]⟩,
  ⟨.DETECTOR, [.record (-14), .record (-6)], [.lit (2), .lit (2), .lit (0)]⟩,
  ⟨.DETECTOR, [.record (-12), .record (-4)], [.lit (2), .lit (4), .lit (0)]⟩,
  ⟨.DETECTOR, [.record (-9), .record (-1)], [.lit (2), .lit (6), .lit (0)]⟩,
  ⟨.DETECTOR, [.record (-16), .record (-8)], [.lit (4), .lit (0), .lit (0)]⟩,
  ⟨.DETECTOR, [.record (-13), .record (-5)], [.lit (4), .lit (2), .lit (0)]⟩,
  ⟨.DETECTOR, [.record (-11), .record (-3)], [.lit (4), .lit (4), .lit (0)]⟩,
  ⟨.DETECTOR, [.record (-10), .record (-2)], [.lit (6), .lit (4), .lit (0)]⟩, ⟨.SHIFT_COORDS, [], [.lit (0), .lit (0), .lit (1)]⟩]

/-- Part of src/paper/surface_code_circuits/si1000_X/d3_p0.0.stim, lines 365-406. -/
def si1000Xd3End : List Instr := [
  ⟨.I, [.q 4], []⟩, ⟨.H, [.q 8], []⟩, ⟨.H, [.q 10], []⟩, ⟨.H, [.q 12], []⟩, ⟨.I, [.q 14], []⟩, ⟨.I, [.q 16], []⟩, ⟨.I, [.q 18], []⟩,
  ⟨.H, [.q 22], []⟩, ⟨.H, [.q 24], []⟩, ⟨.H, [.q 26], []⟩, ⟨.I, [.q 30], []⟩, ⟨.I, [.q 32], []⟩, ⟨.I, [.q 34], []⟩, ⟨.H, [.q 36], []⟩,
  ⟨.H, [.q 38], []⟩, ⟨.H, [.q 40], []⟩, ⟨.I, [.q 44], []⟩, .tick, ⟨.I, [.q 4], []⟩, ⟨.M, [.q 8], []⟩, ⟨.M, [.q 10], []⟩, ⟨.M, [.q 12], []⟩,
  ⟨.I, [.q 14], []⟩, ⟨.I, [.q 16], []⟩, ⟨.I, [.q 18], []⟩, ⟨.M, [.q 22], []⟩, ⟨.M, [.q 24], []⟩, ⟨.M, [.q 26], []⟩, ⟨.I, [.q 30], []⟩,
  ⟨.I, [.q 32], []⟩, ⟨.I, [.q 34], []⟩, ⟨.M, [.q 36], []⟩, ⟨.M, [.q 38], []⟩, ⟨.M, [.q 40], []⟩, ⟨.I, [.q 44], []⟩, .tick,
  ⟨.DETECTOR, [.record (-15), .record (-5), .record (-8), .record (-9), .record (-6)], [.lit (2), .lit (2), .lit (0)]⟩,
  ⟨.DETECTOR, [.record (-10), .record (-2), .record (-3)], [.lit (2), .lit (6), .lit (0)]⟩,
  ⟨.DETECTOR, [.record (-17), .record (-7), .record (-8)], [.lit (4), .lit (0), .lit (0)]⟩,
  ⟨.DETECTOR, [.record (-12), .record (-1), .record (-4), .record (-5), .record (-2)], [.lit (4), .lit (4), .lit (0)]⟩,
  ⟨.SHIFT_COORDS, [], [.lit (0), .lit (0), .lit (1)]⟩, ⟨.OBSERVABLE_INCLUDE, [.record (-9), .record (-6), .record (-3)], [.lit (0)]⟩]

/-- src/paper/surface_code_circuits/si1000_X/d3_p0.0.stim. -/
def si1000Xd3 : Circuit :=
  .ofList si1000Xd3Start ++ .rep 8 (.ofList si1000Xd3Body) (.ofList si1000Xd3End)

/-- Part of src/paper/surface_code_circuits/si1000_Z/d3_p0.0.stim, lines 1-197. -/
def si1000Zd3Start : List Instr := [
  ⟨.I, [.q 4], []⟩, ⟨.R, [.q 8], []⟩, ⟨.R, [.q 10], []⟩, ⟨.R, [.q 12], []⟩, ⟨.I, [.q 14], []⟩, ⟨.I, [.q 16], []⟩, ⟨.I, [.q 18], []⟩,
  ⟨.R, [.q 22], []⟩, ⟨.R, [.q 24], []⟩, ⟨.R, [.q 26], []⟩, ⟨.I, [.q 30], []⟩, ⟨.I, [.q 32], []⟩, ⟨.I, [.q 34], []⟩, ⟨.R, [.q 36], []⟩,
  ⟨.R, [.q 38], []⟩, ⟨.R, [.q 40], []⟩, ⟨.I, [.q 44], []⟩, .tick, ⟨.I, [.q 4], []⟩, ⟨.I, [.q 8], []⟩, ⟨.I, [.q 10], []⟩, ⟨.I, [.q 12], []⟩,
  ⟨.I, [.q 14], []⟩, ⟨.I, [.q 16], []⟩, ⟨.I, [.q 18], []⟩, ⟨.I, [.q 22], []⟩, ⟨.I, [.q 24], []⟩, ⟨.I, [.q 26], []⟩, ⟨.I, [.q 30], []⟩,
  ⟨.I, [.q 32], []⟩, ⟨.I, [.q 34], []⟩, ⟨.I, [.q 36], []⟩, ⟨.I, [.q 38], []⟩, ⟨.I, [.q 40], []⟩, ⟨.I, [.q 44], []⟩, .tick, ⟨.R, [.q 4], []⟩,
  ⟨.I, [.q 8], []⟩, ⟨.I, [.q 10], []⟩, ⟨.I, [.q 12], []⟩, ⟨.R, [.q 14], []⟩, ⟨.R, [.q 16], []⟩, ⟨.R, [.q 18], []⟩, ⟨.I, [.q 22], []⟩,
  ⟨.I, [.q 24], []⟩, ⟨.I, [.q 26], []⟩, ⟨.R, [.q 30], []⟩, ⟨.R, [.q 32], []⟩, ⟨.R, [.q 34], []⟩, ⟨.I, [.q 36], []⟩, ⟨.I, [.q 38], []⟩,
  ⟨.I, [.q 40], []⟩, ⟨.R, [.q 44], []⟩, .tick, ⟨.H, [.q 4], []⟩, ⟨.I, [.q 8], []⟩, ⟨.H, [.q 10], []⟩, ⟨.I, [.q 12], []⟩, ⟨.H, [.q 14], []⟩,
  ⟨.H, [.q 16], []⟩, ⟨.H, [.q 18], []⟩, ⟨.H, [.q 22], []⟩, ⟨.I, [.q 24], []⟩, ⟨.H, [.q 26], []⟩, ⟨.H, [.q 30], []⟩, ⟨.H, [.q 32], []⟩,
  ⟨.H, [.q 34], []⟩, ⟨.I, [.q 36], []⟩, ⟨.H, [.q 38], []⟩, ⟨.I, [.q 40], []⟩, ⟨.H, [.q 44], []⟩, .tick, ⟨.CZ, [.q 4, .q 10], []⟩, ⟨.I, [.q 14], []⟩,
  ⟨.CZ, [.q 16, .q 22], []⟩, ⟨.CZ, [.q 18, .q 24], []⟩, ⟨.CZ, [.q 30, .q 36], []⟩, ⟨.CZ, [.q 32, .q 38], []⟩, ⟨.CZ, [.q 34, .q 40], []⟩,
  ⟨.I, [.q 44], []⟩, ⟨.I, [.q 8], []⟩, ⟨.I, [.q 12], []⟩, ⟨.I, [.q 26], []⟩, .tick, ⟨.I, [.q 4], []⟩, ⟨.H, [.q 8], []⟩, ⟨.H, [.q 10], []⟩,
  ⟨.H, [.q 12], []⟩, ⟨.I, [.q 14], []⟩, ⟨.I, [.q 16], []⟩, ⟨.I, [.q 18], []⟩, ⟨.H, [.q 22], []⟩, ⟨.H, [.q 24], []⟩, ⟨.H, [.q 26], []⟩,
  ⟨.I, [.q 30], []⟩, ⟨.I, [.q 32], []⟩, ⟨.I, [.q 34], []⟩, ⟨.H, [.q 36], []⟩, ⟨.H, [.q 38], []⟩, ⟨.H, [.q 40], []⟩, ⟨.I, [.q 44], []⟩, .tick,
  ⟨.CZ, [.q 4, .q 12], []⟩, ⟨.I, [.q 14], []⟩, ⟨.CZ, [.q 16, .q 24], []⟩, ⟨.CZ, [.q 18, .q 10], []⟩, ⟨.CZ, [.q 30, .q 22], []⟩,
  ⟨.CZ, [.q 32, .q 40], []⟩, ⟨.CZ, [.q 34, .q 26], []⟩, ⟨.I, [.q 44], []⟩, ⟨.I, [.q 8], []⟩, ⟨.I, [.q 36], []⟩, ⟨.I, [.q 38], []⟩, .tick,
  ⟨.I, [.q 4], []⟩, ⟨.CZ, [.q 14, .q 22], []⟩, ⟨.CZ, [.q 16, .q 8], []⟩, ⟨.CZ, [.q 18, .q 26], []⟩, ⟨.CZ, [.q 30, .q 38], []⟩,
  ⟨.CZ, [.q 32, .q 24], []⟩, ⟨.I, [.q 34], []⟩, ⟨.CZ, [.q 44, .q 36], []⟩, ⟨.I, [.q 10], []⟩, ⟨.I, [.q 12], []⟩, ⟨.I, [.q 40], []⟩, .tick,
  ⟨.I, [.q 4], []⟩, ⟨.H, [.q 8], []⟩, ⟨.H, [.q 10], []⟩, ⟨.H, [.q 12], []⟩, ⟨.I, [.q 14], []⟩, ⟨.I, [.q 16], []⟩, ⟨.I, [.q 18], []⟩,
  ⟨.H, [.q 22], []⟩, ⟨.H, [.q 24], []⟩, ⟨.H, [.q 26], []⟩, ⟨.I, [.q 30], []⟩, ⟨.I, [.q 32], []⟩, ⟨.I, [.q 34], []⟩, ⟨.H, [.q 36], []⟩,
  ⟨.H, [.q 38], []⟩, ⟨.H, [.q 40], []⟩, ⟨.I, [.q 44], []⟩, .tick, ⟨.I, [.q 4], []⟩, ⟨.CZ, [.q 14, .q 8], []⟩, ⟨.CZ, [.q 16, .q 10], []⟩,
  ⟨.CZ, [.q 18, .q 12], []⟩, ⟨.CZ, [.q 30, .q 24], []⟩, ⟨.CZ, [.q 32, .q 26], []⟩, ⟨.I, [.q 34], []⟩, ⟨.CZ, [.q 44, .q 38], []⟩, ⟨.I, [.q 22], []⟩,
  ⟨.I, [.q 36], []⟩, ⟨.I, [.q 40], []⟩, .tick, ⟨.H, [.q 4], []⟩, ⟨.I, [.q 8], []⟩, ⟨.H, [.q 10], []⟩, ⟨.I, [.q 12], []⟩, ⟨.H, [.q 14], []⟩,
  ⟨.H, [.q 16], []⟩, ⟨.H, [.q 18], []⟩, ⟨.H, [.q 22], []⟩, ⟨.I, [.q 24], []⟩, ⟨.H, [.q 26], []⟩, ⟨.H, [.q 30], []⟩, ⟨.H, [.q 32], []⟩,
  ⟨.H, [.q 34], []⟩, ⟨.I, [.q 36], []⟩, ⟨.H, [.q 38], []⟩, ⟨.I, [.q 40], []⟩, ⟨.H, [.q 44], []⟩, .tick, ⟨.M, [.q 4], []⟩, ⟨.I, [.q 8], []⟩,
  ⟨.I, [.q 10], []⟩, ⟨.I, [.q 12], []⟩, ⟨.M, [.q 14], []⟩, ⟨.M, [.q 16], []⟩, ⟨.M, [.q 18], []⟩, ⟨.I, [.q 22], []⟩, ⟨.I, [.q 24], []⟩,
  ⟨.I, [.q 26], []⟩, ⟨.M, [.q 30], []⟩, ⟨.M, [.q 32], []⟩, ⟨.M, [.q 34], []⟩, ⟨.I, [.q 36], []⟩, ⟨.I, [.q 38], []⟩, ⟨.I, [.q 40], []⟩,
  ⟨.M, [.q 44], []⟩, .tick, ⟨.DETECTOR, [.record (-7)], [.lit (0), .lit (2), .lit (0)]⟩, ⟨.DETECTOR, [.record (-4)], [.lit (2), .lit (4), .lit (0)]⟩,
  ⟨.DETECTOR, [.record (-5)], [.lit (4), .lit (2), .lit (0)]⟩, ⟨.DETECTOR, [.record (-2)], [.lit (6), .lit (4), .lit (0)]⟩,
  ⟨.SHIFT_COORDS, [], [.lit (0), .lit (0), .lit (1)]⟩]

/-- Part of src/paper/surface_code_circuits/si1000_Z/d3_p0.0.stim, lines 199-363. -/
def si1000Zd3Body : List Instr := [
  ⟨.R, [.q 4], []⟩, ⟨.I, [.q 8], []⟩, ⟨.I, [.q 10], []⟩, ⟨.I, [.q 12], []⟩, ⟨.R, [.q 14], []⟩, ⟨.R, [.q 16], []⟩, ⟨.R, [.q 18], []⟩,
  ⟨.I, [.q 22], []⟩, ⟨.I, [.q 24], []⟩, ⟨.I, [.q 26], []⟩, ⟨.R, [.q 30], []⟩, ⟨.R, [.q 32], []⟩, ⟨.R, [.q 34], []⟩, ⟨.I, [.q 36], []⟩,
  ⟨.I, [.q 38], []⟩, ⟨.I, [.q 40], []⟩, ⟨.R, [.q 44], []⟩, .tick, ⟨.H, [.q 4], []⟩, ⟨.I, [.q 8], []⟩, ⟨.H, [.q 10], []⟩, ⟨.I, [.q 12], []⟩,
  ⟨.H, [.q 14], []⟩, ⟨.H, [.q 16], []⟩, ⟨.H, [.q 18], []⟩, ⟨.H, [.q 22], []⟩, ⟨.I, [.q 24], []⟩, ⟨.H, [.q 26], []⟩, ⟨.H, [.q 30], []⟩,
  ⟨.H, [.q 32], []⟩, ⟨.H, [.q 34], []⟩, ⟨.I, [.q 36], []⟩, ⟨.H, [.q 38], []⟩, ⟨.I, [.q 40], []⟩, ⟨.H, [.q 44], []⟩, .tick, ⟨.CZ, [.q 4, .q 10], []⟩,
  ⟨.I, [.q 14], []⟩, ⟨.CZ, [.q 16, .q 22], []⟩, ⟨.CZ, [.q 18, .q 24], []⟩, ⟨.CZ, [.q 30, .q 36], []⟩, ⟨.CZ, [.q 32, .q 38], []⟩,
  ⟨.CZ, [.q 34, .q 40], []⟩, ⟨.I, [.q 44], []⟩, ⟨.I, [.q 8], []⟩, ⟨.I, [.q 12], []⟩, ⟨.I, [.q 26], []⟩, .tick, ⟨.I, [.q 4], []⟩, ⟨.H, [.q 8], []⟩,
  ⟨.H, [.q 10], []⟩, ⟨.H, [.q 12], []⟩, ⟨.I, [.q 14], []⟩, ⟨.I, [.q 16], []⟩, ⟨.I, [.q 18], []⟩, ⟨.H, [.q 22], []⟩, ⟨.H, [.q 24], []⟩,
  ⟨.H, [.q 26], []⟩, ⟨.I, [.q 30], []⟩, ⟨.I, [.q 32], []⟩, ⟨.I, [.q 34], []⟩, ⟨.H, [.q 36], []⟩, ⟨.H, [.q 38], []⟩, ⟨.H, [.q 40], []⟩,
  ⟨.I, [.q 44], []⟩, .tick, ⟨.CZ, [.q 4, .q 12], []⟩, ⟨.I, [.q 14], []⟩, ⟨.CZ, [.q 16, .q 24], []⟩, ⟨.CZ, [.q 18, .q 10], []⟩,
  ⟨.CZ, [.q 30, .q 22], []⟩, ⟨.CZ, [.q 32, .q 40], []⟩, ⟨.CZ, [.q 34, .q 26], []⟩, ⟨.I, [.q 44], []⟩, ⟨.I, [.q 8], []⟩, ⟨.I, [.q 36], []⟩,
  ⟨.I, [.q 38], []⟩, .tick, ⟨.I, [.q 4], []⟩, ⟨.CZ, [.q 14, .q 22], []⟩, ⟨.CZ, [.q 16, .q 8], []⟩, ⟨.CZ, [.q 18, .q 26], []⟩,
  ⟨.CZ, [.q 30, .q 38], []⟩, ⟨.CZ, [.q 32, .q 24], []⟩, ⟨.I, [.q 34], []⟩, ⟨.CZ, [.q 44, .q 36], []⟩, ⟨.I, [.q 10], []⟩, ⟨.I, [.q 12], []⟩,
  ⟨.I, [.q 40], []⟩, .tick, ⟨.I, [.q 4], []⟩, ⟨.H, [.q 8], []⟩, ⟨.H, [.q 10], []⟩, ⟨.H, [.q 12], []⟩, ⟨.I, [.q 14], []⟩, ⟨.I, [.q 16], []⟩,
  ⟨.I, [.q 18], []⟩, ⟨.H, [.q 22], []⟩, ⟨.H, [.q 24], []⟩, ⟨.H, [.q 26], []⟩, ⟨.I, [.q 30], []⟩, ⟨.I, [.q 32], []⟩, ⟨.I, [.q 34], []⟩,
  ⟨.H, [.q 36], []⟩, ⟨.H, [.q 38], []⟩, ⟨.H, [.q 40], []⟩, ⟨.I, [.q 44], []⟩, .tick, ⟨.I, [.q 4], []⟩, ⟨.CZ, [.q 14, .q 8], []⟩,
  ⟨.CZ, [.q 16, .q 10], []⟩, ⟨.CZ, [.q 18, .q 12], []⟩, ⟨.CZ, [.q 30, .q 24], []⟩, ⟨.CZ, [.q 32, .q 26], []⟩, ⟨.I, [.q 34], []⟩,
  ⟨.CZ, [.q 44, .q 38], []⟩, ⟨.I, [.q 22], []⟩, ⟨.I, [.q 36], []⟩, ⟨.I, [.q 40], []⟩, .tick, ⟨.H, [.q 4], []⟩, ⟨.I, [.q 8], []⟩, ⟨.H, [.q 10], []⟩,
  ⟨.I, [.q 12], []⟩, ⟨.H, [.q 14], []⟩, ⟨.H, [.q 16], []⟩, ⟨.H, [.q 18], []⟩, ⟨.H, [.q 22], []⟩, ⟨.I, [.q 24], []⟩, ⟨.H, [.q 26], []⟩,
  ⟨.H, [.q 30], []⟩, ⟨.H, [.q 32], []⟩, ⟨.H, [.q 34], []⟩, ⟨.I, [.q 36], []⟩, ⟨.H, [.q 38], []⟩, ⟨.I, [.q 40], []⟩, ⟨.H, [.q 44], []⟩, .tick,
  ⟨.M, [.q 4], []⟩, ⟨.I, [.q 8], []⟩, ⟨.I, [.q 10], []⟩, ⟨.I, [.q 12], []⟩, ⟨.M, [.q 14], []⟩, ⟨.M, [.q 16], []⟩, ⟨.M, [.q 18], []⟩,
  ⟨.I, [.q 22], []⟩, ⟨.I, [.q 24], []⟩, ⟨.I, [.q 26], []⟩, ⟨.M, [.q 30], []⟩, ⟨.M, [.q 32], []⟩, ⟨.M, [.q 34], []⟩, ⟨.I, [.q 36], []⟩,
  ⟨.I, [.q 38], []⟩, ⟨.I, [.q 40], []⟩, ⟨.M, [.q 44], []⟩, .tick, ⟨.DETECTOR, [.record (-15), .record (-7)], [.lit (0), .lit (2), .lit (0)]⟩,
  ⟨.DETECTOR, [.record (-14), .record (-6)], [.lit (2), .lit (2), .lit (0)]⟩,
  ⟨.DETECTOR, [.record (-12), .record (-4)], [.lit (2), .lit (4), .lit (0)]⟩,
  ⟨.DETECTOR, [.record (-9), .record (-1)], [.lit (2), .lit (6), .lit (0)]⟩,
  ⟨.DETECTOR, [.record (-16), .record (-8)], [.lit (4), .lit (0), .lit (0)]⟩,
  ⟨.DETECTOR, [.record (-13), .record (-5)], [.lit (4), .lit (2), .lit (0)]⟩,
  ⟨.DETECTOR, [.record (-11), .record (-3)], [.lit (4), .lit (4), .lit (0)]⟩,
  ⟨.DETECTOR, [.record (-10), .record (-2)], [.lit (6), .lit (4), .lit (0)]⟩, ⟨.SHIFT_COORDS, [], [.lit (0), .lit (0), .lit (1)]⟩]

/-- Part of src/paper/surface_code_circuits/si1000_Z/d3_p0.0.stim, lines 365-406. -/
def si1000Zd3End : List Instr := [
  ⟨.I, [.q 4], []⟩, ⟨.I, [.q 8], []⟩, ⟨.I, [.q 10], []⟩, ⟨.I, [.q 12], []⟩, ⟨.I, [.q 14], []⟩, ⟨.I, [.q 16], []⟩, ⟨.I, [.q 18], []⟩,
  ⟨.I, [.q 22], []⟩, ⟨.I, [.q 24], []⟩, ⟨.I, [.q 26], []⟩, ⟨.I, [.q 30], []⟩, ⟨.I, [.q 32], []⟩, ⟨.I, [.q 34], []⟩, ⟨.I, [.q 36], []⟩,
  ⟨.I, [.q 38], []⟩, ⟨.I, [.q 40], []⟩, ⟨.I, [.q 44], []⟩, .tick, ⟨.I, [.q 4], []⟩, ⟨.M, [.q 8], []⟩, ⟨.M, [.q 10], []⟩, ⟨.M, [.q 12], []⟩,
  ⟨.I, [.q 14], []⟩, ⟨.I, [.q 16], []⟩, ⟨.I, [.q 18], []⟩, ⟨.M, [.q 22], []⟩, ⟨.M, [.q 24], []⟩, ⟨.M, [.q 26], []⟩, ⟨.I, [.q 30], []⟩,
  ⟨.I, [.q 32], []⟩, ⟨.I, [.q 34], []⟩, ⟨.M, [.q 36], []⟩, ⟨.M, [.q 38], []⟩, ⟨.M, [.q 40], []⟩, ⟨.I, [.q 44], []⟩, .tick,
  ⟨.DETECTOR, [.record (-16), .record (-6), .record (-9)], [.lit (0), .lit (2), .lit (0)]⟩,
  ⟨.DETECTOR, [.record (-13), .record (-2), .record (-5), .record (-6), .record (-3)], [.lit (2), .lit (4), .lit (0)]⟩,
  ⟨.DETECTOR, [.record (-14), .record (-4), .record (-7), .record (-8), .record (-5)], [.lit (4), .lit (2), .lit (0)]⟩,
  ⟨.DETECTOR, [.record (-11), .record (-4), .record (-1)], [.lit (6), .lit (4), .lit (0)]⟩, ⟨.SHIFT_COORDS, [], [.lit (0), .lit (0), .lit (1)]⟩,
  ⟨.OBSERVABLE_INCLUDE, [.record (-9), .record (-8), .record (-7)], [.lit (0)]⟩]

/-- src/paper/surface_code_circuits/si1000_Z/d3_p0.0.stim. -/
def si1000Zd3 : Circuit :=
  .ofList si1000Zd3Start ++ .rep 8 (.ofList si1000Zd3Body) (.ofList si1000Zd3End)

end Honeycomb
