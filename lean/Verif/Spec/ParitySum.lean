import Verif.Spec.Frame

/-! # Sums of detector and observable values -/

namespace Honeycomb

/-- The sum (exclusive or) of the values; `none` if one of them is. -/
def sumValues : List (Option (ZMod 2)) → Option (ZMod 2)
  | [] => some 0
  | v :: vs => do
    let a ← v
    let b ← sumValues vs
    return a + b

end Honeycomb
