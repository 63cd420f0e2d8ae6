import Verif.Model.CircuitPlot
open Honeycomb
def lay (style obs : String) (w h s : Int) : HoneycombLayout := { data_width := w, data_height := h, sub_rounds := s, style := style, obs := obs, noise := 1/1000 }
def run (l : HoneycombLayout) (b : Bool) : String := match l.makeCircuit with
  | .error e => s!"gen {repr e}"
  | .ok c => match plotCircuit c b with
    | .error e => s!"plot {repr e}"
    | .ok t => String.ofList t
#eval IO.FS.writeFile "/root/p_SD6.txt" (run (lay "SD6" "V" 2 6 13) true)
#eval IO.FS.writeFile "/root/p_PC3.txt" (run (lay "PC3" "V" 2 6 20) true)
#eval IO.FS.writeFile "/root/p_EM3.txt" (run (lay "EM3" "V" 4 12 20) true)
