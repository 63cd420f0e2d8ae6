import Verif.Model.Layout

/-!
# Specification of the honeycomb torus

Plain descriptions of what the layout should be, in doubled coordinates (`Pt` holds twice the
coordinate), independent of how `honeycomb_layout.py` computes it.
-/

namespace Honeycomb

/-- The layouts the constructor is meant for: a positive even number of data qubit columns and a positive
multiple of 6 data qubit rows. -/
structure HoneycombLayout.Valid (lay : HoneycombLayout) : Prop where
  width_even : lay.data_width % 2 = 0
  height_six : lay.data_height % 6 = 0
  width_pos : 0 < lay.data_width
  height_pos : 0 < lay.data_height

/-- `p` lies on the torus of circumference `2 * data_width` by `data_height` (in undoubled units). -/
def OnTorus (lay : HoneycombLayout) (p : Pt) : Prop :=
  0 ≤ p.x ∧ p.x < 4 * lay.data_width ∧ 0 ≤ p.y ∧ p.y < 2 * lay.data_height

/-- Data qubits sit at odd integer `x` and integer `y`. -/
def IsDataQubit (lay : HoneycombLayout) (p : Pt) : Prop :=
  OnTorus lay p ∧ p.x % 4 = 2 ∧ p.y % 2 = 0

/-- Hexagon centers sit at even integer `x` and integer `y` with `y ≡ x/2 (mod 2)`. -/
def IsHexCenter (lay : HoneycombLayout) (p : Pt) : Prop :=
  OnTorus lay p ∧ p.x % 4 = 0 ∧ p.y % 2 = 0 ∧ (p.y - p.x / 2) % 4 = 0

/-- The colour (0, 1 or 2) of a hexagon: its row modulo 3. -/
def hexColour (p : Pt) : Int := (p.y / 2) % 3

/-- Two positions are the same point of the torus. -/
def SamePoint (lay : HoneycombLayout) (p q : Pt) : Prop :=
  (p.x - q.x) % (4 * lay.data_width) = 0 ∧ (p.y - q.y) % (2 * lay.data_height) = 0

/-- `q` is an endpoint of `e`. -/
def Edge.Touches (e : Edge) (q : Pt) : Prop := e.left = q ∨ e.right = q

instance (e : Edge) (q : Pt) : Decidable (e.Touches q) := by unfold Edge.Touches; infer_instance
instance (lay : HoneycombLayout) (p : Pt) : Decidable (OnTorus lay p) := by unfold OnTorus; infer_instance
instance (lay : HoneycombLayout) (p : Pt) : Decidable (IsDataQubit lay p) := by
  unfold IsDataQubit; infer_instance
instance (lay : HoneycombLayout) (p : Pt) : Decidable (IsHexCenter lay p) := by
  unfold IsHexCenter; infer_instance

end Honeycomb
