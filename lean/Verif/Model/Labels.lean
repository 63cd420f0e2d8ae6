import Verif.Model.Layout
import Verif.Model.Csv
import Verif.Model.Tracker

/-!
Model of the texts that stand for layouts, edges and lookups: `HoneycombLayout.legend_label`, `Edge.__repr__` and
`Prev.__repr__`.
-/

namespace Honeycomb

/-- honeycomb_layout.py:417-424 `HoneycombLayout.legend_label`. The format specification in `f"{self.noise:!r}"` is the text
`!r`, which no number accepts, so that formatting it raises a ValueError. -/
def HoneycombLayout.legend_label (lay : HoneycombLayout) : Except PyErr Text :=
  if lay.noise ≠ 0 then .error .valueError
  else .ok (intStr (lay.sub_rounds / 3) ++ " rounds".toList ++ ", ".toList ++
    (intStr lay.data_width ++ 'x' :: (intStr lay.data_height ++ " data".toList)))

/-- `repr` of the float `n / 2`, without sign, as it appears inside `repr` of a complex number (no trailing `.0`).
Floats of 10¹⁶ and more, which Python writes with an exponent, are not modelled. -/
def halfDigits (n : Nat) : Text := Nat.toDigits 10 (n / 2) ++ (if n % 2 = 1 then ".5".toList else [])

/-- The sign of a part of a complex number: `plus` is written for a part that is not negative. Signed zeros are not
modelled. -/
def halfSigned (plus : Text) (n : Int) : Text := (if n < 0 then ['-'] else plus) ++ halfDigits n.natAbs

/-- `repr(z)` for a complex number: `1.5j` when the real part is zero, `(2+1.5j)` otherwise. -/
def Pt.repr (z : Pt) : Text :=
  if z.x = 0 then halfSigned [] z.y ++ ['j']
  else '(' :: (halfSigned [] z.x ++ (halfSigned ['+'] z.y ++ "j)".toList))

/-- honeycomb_layout.py:27-28 `Edge.__repr__`. -/
def Edge.repr (e : Edge) : Text :=
  "Edge(left=".toList ++ e.left.repr ++ ", right=".toList ++ e.right.repr ++ ", center=".toList ++ e.center.repr ++
    ")".toList

/-- measure_tracker.py:18-19 `Prev.__repr__`, for a key whose own `repr` is `text`; a plain key keeps its own `repr`. -/
def TKey.repr {κ : Type} (text : κ → Text) : TKey κ → Text
  | .plain v => text v
  | .prev v offset => "Prev(".toList ++ text v ++ ", offset=".toList ++ intStr offset ++ ")".toList

end Honeycomb
