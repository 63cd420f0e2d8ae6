import Verif.Model.Noise
import Verif.Model.Lambda

/-!
# Model of `surface_code_circuit` of `src/paper/main_collect_all.py`

The surface code circuits are not generated by the package: they are read from files and only the noise is added.
-/

namespace Honeycomb

/-- main_collect_all.py:84: where the circuit is read from. (`lower` acts on the ASCII letters only.) -/
def surfaceCodePath (directory noise_name obs : String) (d : Int) : String :=
  directory ++ "/" ++ noise_name.toLower ++ "_" ++ obs ++ "/d" ++ toString d ++ "_p0.0.stim"

/-- main_collect_all.py:79-94 `surface_code_circuit`. `read` opens a file and parses it (`open`, `stim.Circuit`), or raises. -/
def surfaceCodeCircuit (read : String → Except PyErr Circuit) (directory noise_name : String) (noise : Rat) (obs : String) (d : Int) :
    Except PyErr Circuit :=
  match read (surfaceCodePath directory noise_name obs d) with
  | .error e => .error e
  | .ok circuit =>
    if noise_name = "SI1000" then (NoiseModel.SI1000 noise).noisyCircuit circuit none
    else if noise_name = "SD6" then (NoiseModel.SD6 noise).noisyCircuit circuit none
    else .error .notImplemented

/-- main_collect_all.py:121-139 and 97-118, the problems of `surface_code_problems` for a directory that is given: each description with
the circuit that its `circuit_maker` returns. -/
def surfaceCodeProblems (read : String → Except PyErr Circuit) (directory : String) : List (DecodingProblemDesc × Except PyErr Circuit) :=
  DECODERS.flatMap fun decoder => ([3, 7, 11, 15, 19] : List Int).flatMap fun d => USED_NOISE_VALUES.flatMap fun p =>
    ["SD6", "SI1000"].flatMap fun noise_name => ["X", "Z"].map fun obs =>
      (surfaceCodeDesc noise_name p obs d decoder, surfaceCodeCircuit read directory noise_name p obs d)

end Honeycomb
