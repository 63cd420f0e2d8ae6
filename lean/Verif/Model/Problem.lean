import Mathlib.Data.Rat.Floor
import Verif.Model.Layout

/-!
# Model of the problem descriptions of `src/collect_data.py` and `src/honeycomb_layout.py`
-/

namespace Honeycomb

/-- collect_data.py:33-56 `DecodingProblemDesc`, in the order of its fields. `noise` is an exact rational instead
of a float. -/
structure DecodingProblemDesc where
  data_width : Int
  data_height : Int
  code_distance : Int
  num_qubits : Int
  rounds : Int
  noise : Rat
  circuit_style : String
  preserved_observable : String
  decoder : String
deriving DecidableEq, Repr

/-- honeycomb_layout.py:140-151 `as_decoder_problem_desc`. `int(math.ceil(self.sub_rounds / 3))` is computed by
Python with a float division; the model uses the exact quotient (the two agree below `2^52`). -/
def HoneycombLayout.asDecoderProblemDesc (lay : HoneycombLayout) (decoder : String) : DecodingProblemDesc where
  data_width := lay.data_width
  data_height := lay.data_height
  rounds := ⌈(lay.sub_rounds : Rat) / 3⌉
  noise := lay.noise
  circuit_style := "honeycomb_" ++ lay.style
  preserved_observable := lay.obs
  decoder := decoder
  code_distance := lay.code_distance_1qdep
  num_qubits := lay.num_qubits

end Honeycomb
