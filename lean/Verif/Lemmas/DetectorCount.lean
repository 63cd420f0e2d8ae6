import Verif.Props.Detectors
import Verif.Lemmas.Qubits

/-! # The number of detectors -/

namespace Honeycomb
open HoneycombLayout

variable {lay : HoneycombLayout} {N : Nat}

namespace HoneycombLayout

/-- The number of faces of one colour. -/
def faces (lay : HoneycombLayout) : Nat := (lay.round_hex_centers 0).length

theorem faces_eq (hv : lay.Valid) (k : Int) : (lay.round_hex_centers (k % 3)).length = lay.faces := by
  have h1 := length_round_hex_centers hv (r := k % 3) (by omega) (by omega)
  have h2 := length_round_hex_centers hv (r := 0) (by omega) (by omega)
  rw [← faces] at h2
  omega

theorem edges_eq (hv : lay.Valid) (k : Int) : (lay.round_edges k).length = 3 * lay.faces := by
  have h1 := length_round_edges hv k
  have h2 := length_round_hex_centers hv (r := 0) (by omega) (by omega)
  rw [← faces] at h2
  have : ((lay.round_edges k).length : Int) = (3 * lay.faces : Nat) := by rw [h1, Nat.cast_mul, h2]; push_cast; ring
  exact_mod_cast this

end HoneycombLayout

theorem annDets_length (hv : lay.Valid) (k : Nat) : (annDets lay k).length =
    (if k = 0 ∧ lay.obs = "H" then 3 * lay.faces else 0) + if lay.faceKnown k (((k : Int) - 2) % 3) then lay.faces else 0 := by
  rw [annDets, List.length_append]
  split_ifs <;> simp [faces_eq hv, edges_eq hv]

theorem finDets_length (hv : lay.Valid) (N : Nat) : (finDets lay N).length =
    if sameBasis lay N then 3 * lay.faces + (if lay.faceKnown N (((N : Int) - 1) % 3) then lay.faces else 0)
    else (if lay.faceKnown N (((N : Int) - 2) % 3) then lay.faces else 0) + if lay.faceKnown N ((N : Int) % 3) then lay.faces else 0 := by
  rw [finDets]
  split_ifs <;> simp [faces_eq hv, edges_eq hv]

theorem once (c : Prop) [Decidable c] (n : Nat) : (if c then n else 0) = n * if c then 1 else 0 := by split_ifs <;> simp

theorem thrice (c : Prop) [Decidable c] (n : Nat) : (if c then 3 * n else 0) = n * if c then 3 else 0 := by split_ifs <;> simp [mul_comm]

/-- The detectors of the first `N` sub-rounds. -/
theorem range_length (hv : lay.Valid) (ho : lay.ObsOk) (N : Nat) :
    ((List.range N).flatMap fun k => (annDets lay k).map fun x => (k, x)).length = lay.faces *
      (if lay.obs = "V" then N - (if 1 ≤ N then 1 else 0) - (if 3 ≤ N then 1 else 0) else
        N + (if 1 ≤ N then 2 else 0) - (if 2 ≤ N then 1 else 0) - (if 4 ≤ N then 1 else 0)) := by
  induction N with
  | zero => simp
  | succ N ih =>
    rw [List.range_succ, List.flatMap_append, List.length_append, List.flatMap_singleton, List.length_map, ih, annDets_length hv,
      once _ lay.faces, thrice, ← mul_add, ← mul_add, faceKnown]
    congr 1
    rcases ho with hV | hH
    · simp only [hV, if_true, show ¬ ("V" = "H") by decide, and_false, if_false, zero_add, decide_eq_true_eq]
      split_ifs <;> omega
    · simp only [hH, if_true, show ¬ ("H" = "V") by decide, and_true, if_false, decide_eq_true_eq]
      split_ifs <;> omega

/-- The number of detectors of a circuit with `N` sub-rounds. -/
theorem allDets_length (hv : lay.Valid) (ho : lay.ObsOk) (h1 : 1 ≤ N) :
    (allDets lay N).length = lay.faces * (if lay.obs = "V" then
        N + (if N % 2 = 0 then 2 else 0) + (if N < 3 then 1 else 0) else
        N + (if N % 2 = 0 then 2 else 4) + (if N < 4 then 1 else 0) + (if N < 2 then 1 else 0)) := by
  rw [allDets, List.length_append, range_length hv ho, List.length_map, finDets_length hv, once (lay.faceKnown _ (((N : Int) - 1) % 3) = true), once (lay.faceKnown _ (((N : Int) - 2) % 3) = true),
    once (lay.faceKnown _ ((N : Int) % 3) = true), mul_comm 3, ← mul_add, ← mul_add, ← mul_ite, ← mul_add, faceKnown, faceKnown, faceKnown]
  congr 1
  simp only [sameBasis]
  rcases ho with hV | hH
  · simp only [hV, if_true, show ¬ ("V" = "H") by decide, false_and, true_and, or_false, if_false, decide_eq_true_eq]
    split_ifs <;> omega
  · simp only [hH, if_true, show ¬ ("H" = "V") by decide, false_and, true_and, false_or, if_false, decide_eq_true_eq]
    split_ifs <;> omega

end Honeycomb
