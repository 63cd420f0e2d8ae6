import Verif.Spec.Damage

/-!
# Decoding with the fewest errors

One shot of the detector sampler gives the bits of the detectors, then the bits of the observables. A decoder sees only the detector
bits and predicts the observable bits. It is a minimum error decoder if its prediction is always what happens in some sample with these
detector bits and as few errors as possible.
-/

namespace Honeycomb

/-- Which detectors fired. -/
def detectionBits (d : Circuit) (rec : List (ZMod 2)) : List Bool := (detectorValues d.flatten rec).map fun v => decide (v = some 1)

/-- Which observables were flipped. -/
def observableBits (d : Circuit) (rec : List (ZMod 2)) : List Bool :=
  (List.range d.num_observables).map fun k => decide (observableValue k d.flatten rec = some 1)

/-- A minimum error decoder of the circuit: whatever errors really happened, the predicted observable bits belong to a sample with the
same detector bits and not more errors. -/
def MinimumErrors (d : Circuit) (guess : List Bool → List Bool) : Prop :=
  ∀ (n : Nat) rec, CanSample n d.flatten rec → ∃ m ≤ n, ∃ rec', CanSample m d.flatten rec' ∧
    detectionBits d rec' = detectionBits d rec ∧ guess (detectionBits d rec) = observableBits d rec'

end Honeycomb
