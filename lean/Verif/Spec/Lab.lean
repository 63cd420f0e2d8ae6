import Verif.Model.Lab
import Verif.Spec.Pipeline

/-!
# Specification: what a row of the data counts
-/

namespace Honeycomb

/-- What is expected of stim's sampler: it returns as many shots as requested, each one a sample of the circuit. -/
def Lab.Sound (lab : Lab) : Prop :=
  ∀ d k n c recs, lab.records d k n c = .ok recs → (recs.length : Int) = n ∧ ∀ rec ∈ recs, ∃ m, CanSample m c.flatten rec

/-- A row of the data is the result of call `k` for its problem: the shots were sampled from the circuit `c`, the decoder got the detector bits
of every shot and predicted observable bits for every shot, and `num_correct` is the number of shots for which the prediction is right. -/
def Counted (lab : Lab) (c : Circuit) (k : Nat) (b : Row) : Prop :=
  ∃ recs flags preds, lab.records b.1 k b.2.num_shots c = .ok recs ∧ decoderFlags b.1.decoder = .ok flags ∧
    lab.decode b.1 k c flags.1 flags.2 (recs.map (detectionBits c)) = .ok preds ∧ preds.length = recs.length ∧
    b.2.num_correct = ((Finset.range recs.length).filter fun j => preds[j]? = (recs[j]?).map (observableBits c)).card ∧
    b.2.total_processing_seconds = lab.seconds b.1 k

/-- The circuit that belongs to a description of the script: the circuit of the honeycomb layout that is described, or the noiseless surface code
circuit from the described file with the described noise added. -/
def CircuitOf (read : String → Except PyErr Circuit) (directory : String) (d : DecodingProblemDesc) (c : Circuit) : Prop :=
  (∃ lay ∈ collectLayouts, d = lay.asDecoderProblemDesc d.decoder ∧ lay.makeCircuit = .ok c) ∨
  (∃ noise_name ∈ ["SD6", "SI1000"], d.circuit_style = "surface_" ++ noise_name ∧ ∃ file,
    read (directory ++ "/" ++ (if noise_name = "SD6" then "sd6" else "si1000") ++ "_" ++ d.preserved_observable ++ "/d" ++
      toString d.code_distance ++ "_p0.0.stim") = .ok file ∧
    (if noise_name = "SD6" then NoiseModel.SD6 d.noise else .SI1000 d.noise).noisyCircuit file none = .ok c)

/-- A decoder that predicts no flip if it sees no detection event. -/
def Lab.Quiet (lab : Lab) : Prop :=
  ∀ d k c i j dets, (∀ r ∈ dets, ∀ b ∈ r, b = false) → lab.decode d k c i j dets = .ok (dets.map fun _ => List.replicate c.num_observables false)

end Honeycomb
