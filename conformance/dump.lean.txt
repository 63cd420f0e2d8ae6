import Verif.Model.Noise
open Honeycomb HoneycombLayout
def gname : Gate → String
  | .other n => n
  | g => ((reprStr g).splitOn ".").getLastD ""
def bs : Basis → String | .X => "X" | .Y => "Y" | .Z => "Z"
def tname : Target → String
  | .q i => s!"{i}"
  | .record k => s!"rec[{k}]"
  | .pauli b i => s!"{bs b}{i}"
  | .comb => "*"
def aname : Arg → String
  | .lit q => s!"{q.num}/{q.den}"
  | .indep m n => s!"indep:{m.num}/{m.den}:{n}"
partial def dump (ind : String) : Circuit → List String
  | .nil => []
  | .op i c => (ind ++ gname i.gate ++ "|" ++ ",".intercalate (i.args.map aname) ++ "|" ++ " ".intercalate (i.targets.map tname)) :: dump ind c
  | .rep n b c => [ind ++ s!"REPEAT {n}"] ++ dump (ind ++ "") b ++ ["END"] ++ dump ind c
def go (fn : String) (lay : HoneycombLayout) : IO Unit := do
  match lay.makeCircuit with
  | .error e => IO.println s!"{fn} {repr e}"
  | .ok c => IO.FS.writeFile fn ("\n".intercalate (dump "" c))
def main (args : List String) : IO Unit := do
  match args with
  | [style, obs, w, h, n, fn] =>
    go fn ⟨w.toInt!, h.toInt!, n.toInt!, style, obs, 1/1000⟩
  | _ => pure ()
