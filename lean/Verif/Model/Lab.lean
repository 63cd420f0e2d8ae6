import Verif.Model.Script
import Verif.Model.SurfaceCode
import Verif.Model.Decoding
import Verif.Spec.Correct

/-!
# Model of the decoding problems together with their circuits

`Model/Collect.lean` and `Model/Script.lean` take sampling and decoding as one oracle for each description. Here the circuits are made by the
package, and only stim's sampler, the decoder and the clock are external.
-/

namespace Honeycomb

/-- The external parts of a run. `records desc k n c`: the measurement flips of the `n` shots that stim's sampler takes of the circuit `c` in
call number `k` for a problem. `decode desc k c`: what the decode method returns for the circuit, the two flags and the detector samples.
`seconds`: the time a call takes. -/
structure Lab where
  records : DecodingProblemDesc → Nat → Int → Circuit → Except PyErr (List (List (ZMod 2)))
  decode : DecodingProblemDesc → Nat → Circuit → Bool → Bool → BitMatrix → Except PyErr BitMatrix
  seconds : DecodingProblemDesc → Nat → Rat

/-- collect_data.py:83-93 `DecodingProblem`: a description and what its `circuit_maker` returns. -/
abbrev MadeProblem := DecodingProblemDesc × Except PyErr Circuit

/-- honeycomb_layout.py:137-138 `as_decoder_problem`. -/
def HoneycombLayout.asDecoderProblem (lay : HoneycombLayout) (decoder : String) : MadeProblem :=
  (lay.asDecoderProblemDesc decoder, lay.makeCircuit)

/-- collect_data.py:155-160: one call of `sample_decode_count_correct` in the loop, with the time it takes. The circuit is made first. The decoder
name is looked at before anything is sampled (decoding.py:32-43). A shot of the sampler (decoding.py:54) is the bits of the detectors, then the
bits of the observables. -/
def Lab.sample (lab : Lab) (p : MadeProblem) (k : Nat) (n : Int) : Except PyErr (Int × Rat) :=
  match p.2 with
  | .error e => .error e
  | .ok c =>
    match decoderFlags p.1.decoder with
    | .error e => .error e
    | .ok _ =>
      match lab.records p.1 k n c with
      | .error e => .error e
      | .ok recs =>
        match sampleDecodeCountCorrect ⟨c.num_detectors, c.num_observables⟩ none p.1.decoder
            (recs.map fun rec => detectionBits c rec ++ observableBits c rec) (lab.decode p.1 k c) with
        | .error e => .error e
        | .ok correct => .ok (correct, lab.seconds p.1 k)

/-- The problem as the collection loop sees it. -/
def Lab.problem (lab : Lab) (p : MadeProblem) : DecodingProblem := ⟨p.1, lab.sample p⟩

/-- main_collect_all.py:163-195 `honeycomb_problems`. -/
def honeycombProblems : List MadeProblem :=
  DECODERS.flatMap fun decoder => collectLayouts.map fun lay => lay.asDecoderProblem decoder

/-- main_collect_all.py:50-52, 121-123: all problems. `here` is the directory of the script. -/
def scriptProblems (read : String → Except PyErr Circuit) (here : String) (surface_dir : Option String) : List MadeProblem :=
  honeycombProblems ++
    (if surface_dir = some "-" ∨ surface_dir = some "" then []
     else surfaceCodeProblems read (surface_dir.getD (here ++ "/surface_code_circuits")))

/-- main_collect_all.py:42-76 `collect_data`, with the circuits. -/
def collectCircuits (F : FloatText) (s : ScriptArgs) (lab : Lab) (read : String → Except PyErr Circuit) (here : String) (fuel : Nat)
    (file : Option Text) : Option (List Eff × Option PyErr) :=
  match selectProblems ((scriptProblems read here s.surface_dir).map lab.problem) s.problem_id with
  | .error e => some ([], some e)
  | .ok problems =>
    match s.collectArgs with
    | .error e => some ([], some e)
    | .ok a => collect F a fuel problems file

end Honeycomb
