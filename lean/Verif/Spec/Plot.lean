import Verif.Model.Plot
import Verif.Spec.Probability

/-!
# Specification of the plotted curves (C70)
-/

namespace Honeycomb

/-- `q` is the error rate of each of `cells` independent cells whose total error rate is `e`: below one half the rates compose
exactly; a rate above one half is treated as one minus the rate below one half. -/
def IsPerCell (e : ℝ) (cells : Nat) (q : ℝ) : Prop :=
  if e ≤ 1 / 2 then 0 ≤ q ∧ q ≤ 1 / 2 ∧ oddFlips q cells = e
  else 1 / 2 ≤ q ∧ q ≤ 1 ∧ oddFlips (1 - q) cells = 1 - e

/-- Data that can be plotted: one entry per problem, each with at least one shot, a sensible count of correct shots, and a positive
number of rounds and distance. -/
structure Plottable (data : ProblemShotData) : Prop where
  nodup : (data.map Prod.fst).Nodup
  shots : ∀ e ∈ data, 0 < e.2.num_shots
  correct : ∀ e ∈ data, 0 ≤ e.2.num_correct ∧ e.2.num_correct ≤ e.2.num_shots
  rounds : ∀ e ∈ data, 0 < e.1.rounds
  distance : ∀ e ∈ data, 0 < e.1.code_distance

/-- `c` is the curve for the problems that equal `key` up to their noise. -/
structure CurveShows (data : ProblemShotData) (key : DecodingProblemDesc) (c : Curve) : Prop where
  /-- The points: noise and error rate per cell of the problems with at least one error, from left to right. A cell is
  `code_distance` rounds. -/
  line_sorted : c.line.Pairwise fun a b => a.1 < b.1
  line : ∀ x y, (x, y) ∈ c.line ↔ ∃ v, ({ key with noise := x }, v) ∈ data ∧ v.num_correct < v.num_shots ∧
    IsPerCell (((v.num_shots - v.num_correct : Int) : ℝ) / (v.num_shots : ℝ)) ⌈(key.rounds : ℝ) / (key.code_distance : ℝ)⌉₊ y
  /-- The error bands of all problems, from left to right. -/
  band_sorted : c.band.Pairwise fun a b => a.1 < b.1
  band : ∀ x lo hi, (x, lo, hi) ∈ c.band ↔ ∃ v low high, ({ key with noise := x }, v) ∈ data ∧
    v.likelyErrorRateBounds (1 / 1000) = .ok (low, high) ∧
    IsPerCell low ⌈(key.rounds : ℝ) / (key.code_distance : ℝ)⌉₊ lo ∧ IsPerCell high ⌈(key.rounds : ℝ) / (key.code_distance : ℝ)⌉₊ hi
  /-- Every point lies in its band. -/
  inside : ∀ x y, (x, y) ∈ c.line → ∃ lo hi, (x, lo, hi) ∈ c.band ∧ lo ≤ y ∧ y ≤ hi
  label : c.label = toString key.rounds ++ " rounds, " ++ toString key.data_width ++ "x" ++ toString key.data_height ++ " data"

/-- The curves show exactly the given data: one curve per problem up to noise, in the order of the problems, distinguishable. -/
def ShowsData (data : ProblemShotData) (curves : List Curve) : Prop :=
  ∃ keys : List DecodingProblemDesc, keys.Nodup ∧ keys.Pairwise (fun a b => descKey a ≤ descKey b) ∧
    (∀ k, k ∈ keys ↔ ∃ e ∈ data, k = { e.1 with noise := 0 }) ∧
    List.Forall₂ (CurveShows data) keys curves ∧
    (curves.map fun c => (c.marker, c.color)).Nodup

end Honeycomb
