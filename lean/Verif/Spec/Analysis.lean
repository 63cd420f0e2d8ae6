import Verif.Spec.ErrorModel
import Verif.Spec.Sampling

/-!
# Where the probabilities of an error model come from

What `circuit.detector_error_model(decompose_errors=True)` is trusted to do: take every error of every place where the noise channels of the circuit can make one,
give it a probability, join the errors that fire the same detectors and flip the same observables into one line, and split the line into components.
-/

namespace Honeycomb
open scoped ENNReal

/-- The probabilities of an error at the places of the instructions `l`: the targets of noise channels and the results, in the order of `sampleCircuit`. -/
noncomputable def placeChances (l : List Instr) : List ℝ≥0∞ := l.flatMap fun i => List.replicate (i.errors.length + i.measures.length) i.chance

/-- `rec` is a record of `d` for which there was an error at the place `a` and nowhere else. -/
def HitAt (d : Circuit) (a : Nat) (rec : List (ZMod 2)) : Prop :=
  ∃ F hits, StartFrame F ∧ (rec, hits) ∈ (sampleCircuit d.flatten F).support ∧ ∀ b, hits[b]? = some true ↔ b = a

/-- A line of an error model: its probability, its components (the detectors that they fire and the observables that they flip), and the errors it stands for: the
place of each, and its number among the errors of this place. -/
structure ErrorLine where
  p : Rat
  parts : List (List Nat × List Nat)
  causes : Finset (Nat × Nat)

/-- The detectors of a line. -/
def ErrorLine.dets (line : ErrorLine) : List Nat := line.parts.flatMap Prod.fst

/-- `m` is an error model of `d` with the given lines. The components of a line have different detectors. An error that a line stands for fires the detectors of
this line; no error belongs to two lines; a place has at most fifteen errors (there are fifteen two-qubit Pauli errors). Each error has a probability, which is at
most that of an error at its place and not less than a hundredth of it (for stim a fifteenth), and the probability of the line is that of an odd number of its
errors. -/
structure AnalysisOf (d : Circuit) (m : Dem) (lines : List ErrorLine) : Prop extends ErrorModelOf d m where
  mechanisms : m.mechanisms = lines.flatMap fun line => line.parts.map fun x => ⟨line.p, x.1, x.2⟩
  disjoint : ∀ line ∈ lines, line.dets.Nodup
  caused : ∀ line ∈ lines, line.causes.Nonempty
  fires : ∀ line ∈ lines, ∀ a ∈ line.causes, a.2 < 15 ∧ ∃ rec, HitAt d a.1 rec ∧ ∀ x, x ∈ line.dets ↔ (detectionBits d rec)[x]? = some true
  once : lines.Pairwise fun line line' => Disjoint line.causes line'.causes
  chance : ∀ line ∈ lines, ∃ P : Nat × Nat → Rat, line.p = probOdd (line.causes.toList.map P) ∧
    ∀ a ∈ line.causes, ∀ c, (placeChances d.flatten)[a.1]? = some c → c / 100 ≤ ENNReal.ofReal (P a) ∧ ENNReal.ofReal (P a) ≤ c

end Honeycomb
