import Verif.Model.Decoding

/-!
# Specification: prediction files and counting of correct shots
-/

namespace Honeycomb

/-- The prediction file format of the internal decoder: one line per shot, one character `0` or `1` per observable. -/
def predictionFile (m : BitMatrix) : List Char :=
  m.flatMap fun r => (r.map fun b => if b then '1' else '0') ++ ['\n']

/-- Two nodes joined by an edge. -/
def NxGraph.Adj (g : NxGraph) (u v : Nat) : Prop := ∃ d, g.edge? u v = some d

end Honeycomb
