import Verif.Lemmas.Felt
import Verif.Lemmas.Membrane
import Verif.Spec.Components

/-! # An even number of the detectors of one half fires -/

namespace Honeycomb
open HoneycombLayout

variable {lay : HoneycombLayout} {N : Nat} {F : Nat → PauliOp} {R : Nat → ZMod 2}

namespace HoneycombLayout

/-- The flips on all data qubits in sub-round `j`; none before the first sub-round. -/
def allZ (lay : HoneycombLayout) (F : Nat → PauliOp) (j : Int) : ZMod 2 :=
  if j < 0 then 0 else (lay.data_qubit_coords.map fun q => anti (F j.toNat q) (Basis.ofIdx j).pauli).sum

theorem allZ_neg {j : Int} (h : j < 0) : lay.allZ F j = 0 := by rw [allZ, if_pos h]

theorem faces_hexSum (hv : lay.Valid) (c : Int) (f : PauliOp) (P : Pauli) :
    ((lay.round_hex_centers (c % 3)).map fun h => lay.hexSum h f P).sum = (lay.data_qubit_coords.map fun q => anti (f q) P).sum := by
  rw [← ((hexes_cover hv (c := c % 3) (by omega) (by omega)).map _).sum_eq, sum_flatMap]
  rfl

theorem faces_ringZ (hv : lay.Valid) (c j : Int) : ((lay.round_hex_centers (c % 3)).map fun h => lay.ringZ F h j).sum = lay.allZ F j := by
  by_cases h : j < 0
  · simp only [ringZ, allZ, if_pos h]
    exact sum_map_eq_zero fun _ _ => rfl
  · simp only [ringZ, allZ, if_neg h]
    exact faces_hexSum hv c _ _

theorem faces_compZ (hv : lay.Valid) (c j : Int) :
    ((lay.round_hex_centers (c % 3)).map fun h => lay.compZ F h j).sum = lay.allZ F j + lay.allZ F (j - 1) := by
  simp only [compZ]
  rw [sum_map_add, faces_ringZ hv, faces_ringZ hv]

theorem edges_par (hv : lay.Valid) (k : Int) (f : PauliOp) :
    ((lay.round_edges k).map fun e => par f k e).sum = (lay.data_qubit_coords.map fun q => anti (f q) (Basis.ofIdx k).pauli).sum := by
  rw [← ((edgeEnds_data hv k).map _).sum_eq, sum_edgeEnds]
  rfl

/-- The layers of the half are complete. -/
theorem half_known (ho : lay.ObsOk) {k : Nat} (hk : (k : Int) % 2 = if lay.obs = "V" then 1 else 0) :
    lay.faceKnown k (((k : Int) - 2) % 3) = true ∨ k = 0 ∧ lay.obs = "H" := by
  rw [faceKnown]
  rcases ho with h | h <;> simp only [h, if_true, show ¬ ("H" = "V") by decide, show ¬ ("V" = "H") by decide, if_false, decide_eq_true_eq, and_false, or_false, and_true] at hk ⊢ <;> omega

theorem not_known_zero (ho : lay.ObsOk) : lay.faceKnown ((0 : Nat) : Int) ((((0 : Nat) : Int) - 2) % 3) = false := by
  rw [faceKnown]
  rcases ho with h | h <;> simp [h]

end HoneycombLayout

/-- What the detectors of a layer of the half add up to. -/
theorem layer_sum (hv : lay.Valid) (ho : lay.ObsOk) (h1 : 1 ≤ N) (hr : lay.Recorded N F R) {k : Nat} (hkN : k < N)
    (hk : (k : Int) % 2 = if lay.obs = "V" then 1 else 0) :
    ((annDets lay k).map fun x => val R x.2).sum = lay.allZ F k + lay.allZ F ((k : Int) - 1) + lay.allZ F ((k : Int) - 3) + lay.allZ F ((k : Int) - 4) := by
  rw [annDets, List.map_append, List.sum_append]
  rcases half_known ho hk with h | ⟨rfl, hH⟩
  · have h0 : k ≠ 0 := by rintro rfl; rw [not_known_zero ho] at h; cases h
    rw [if_neg (by tauto), if_pos h, List.map_map]
    have e : ((lay.round_hex_centers (((k : Int) - 2) % 3)).map ((fun x : Pt × Finset Nat => val R x.2) ∘ fun h => (h, symmDiff (lay.rF h k) (lay.rF h (k - 3))))).sum =
        ((lay.round_hex_centers (((k : Int) - 2) % 3)).map fun h => lay.compZ F h k + lay.compZ F h ((k : Int) - 3)).sum :=
      sum_map_congr fun x hx => (reads_hex hv ho hkN hx h).val F R hr
    rw [e, sum_map_add, faces_compZ hv, faces_compZ hv, show (k : Int) - 3 - 1 = k - 4 by ring, List.map_nil, List.sum_nil]
    ring
  · rw [if_pos ⟨rfl, hH⟩, if_neg (by rw [not_known_zero ho]; decide), List.map_map]
    have e : ((lay.round_edges 0).map ((fun x : Pt × Finset Nat => val R x.2) ∘ fun e => (e.center, lay.vE 0 e))).sum =
        ((lay.round_edges 0).map fun e => par (F 0) 0 e).sum :=
      sum_map_congr fun x hx => (reads_first hv ho h1 hH hx).val F R hr
    rw [e, edges_par hv, allZ_neg (show ((0 : Nat) : Int) - 1 < 0 by omega), allZ_neg (show ((0 : Nat) : Int) - 3 < 0 by omega),
      allZ_neg (show ((0 : Nat) : Int) - 4 < 0 by omega), allZ, if_neg (by omega)]
    simp

/-- What the detectors of the layers of the half before the final ones add up to. -/
theorem layers_sum (hv : lay.Valid) (ho : lay.ObsOk) (h1 : 1 ≤ N) (hr : lay.Recorded N F R) {n : Nat} (hn : n ≤ N) :
    (((List.range n).flatMap fun k => (annDets lay k).map fun x => (k, x)).map fun x =>
      if (x.1 : Int) % 2 = (if lay.obs = "V" then 1 else 0) then val R x.2.2 else 0).sum =
    (let K := if ((n : Int) - 1) % 2 = (if lay.obs = "V" then 1 else 0) then (n : Int) - 1 else (n : Int) - 2
     lay.allZ F K + lay.allZ F (K - 1) + lay.allZ F (K - 2)) := by
  induction n with
  | zero =>
    simp only [List.range_zero, List.flatMap_nil, List.map_nil, List.sum_nil]
    rw [allZ_neg, allZ_neg, allZ_neg] <;> (try split_ifs) <;> simp
  | succ n ih =>
    rw [List.range_succ, List.flatMap_append, List.map_append, List.sum_append, ih (by omega), List.flatMap_singleton, List.map_map]
    have self := fun z : ZMod 2 => zmod2_add_self z
    by_cases hk : (n : Int) % 2 = if lay.obs = "V" then 1 else 0
    · have e : ((annDets lay n).map ((fun x : Nat × Pt × Finset Nat => if (x.1 : Int) % 2 = (if lay.obs = "V" then 1 else 0) then val R x.2.2 else 0) ∘
          fun x => (n, x))).sum = ((annDets lay n).map fun x => val R x.2).sum := sum_map_congr fun x _ => if_pos hk
      rw [e, layer_sum hv ho h1 hr (by omega) hk]
      have h3 : ¬ ((n : Int) - 1) % 2 = if lay.obs = "V" then 1 else 0 := by split_ifs at hk ⊢ <;> omega
      simp only [if_neg h3, Nat.cast_succ, show (n : Int) + 1 - 1 = n by ring, if_pos hk]
      rw [show (n : Int) - 2 - 1 = n - 3 by ring, show (n : Int) - 2 - 2 = n - 4 by ring]
      linear_combination self (lay.allZ F (n - 3)) + self (lay.allZ F (n - 4))
    · have e : ((annDets lay n).map ((fun x : Nat × Pt × Finset Nat => if (x.1 : Int) % 2 = (if lay.obs = "V" then 1 else 0) then val R x.2.2 else 0) ∘
          fun x => (n, x))).sum = 0 := sum_map_eq_zero fun x _ => if_neg hk
      have h3 : ((n : Int) - 1) % 2 = if lay.obs = "V" then 1 else 0 := by split_ifs at hk ⊢ <;> omega
      rw [e]
      simp only [if_pos h3, Nat.cast_succ, show (n : Int) + 1 - 1 = n by ring, if_neg hk, show (n : Int) + 1 - 2 = n - 1 by ring, add_zero]

/-- What the final detectors add up to. -/
theorem finals_sum (hv : lay.Valid) (ho : lay.ObsOk) (h1 : 1 ≤ N) (hr : lay.Recorded N F R) :
    ((finDets lay N).map fun x => val R x.2).sum = (let K := if sameBasis lay N then (N : Int) - 1 else (N : Int) - 2
      lay.allZ F K + lay.allZ F (K - 1) + lay.allZ F (K - 2)) := by
  have hB := Honeycomb.obsAt_basis ho N
  have self := fun z : ZMod 2 => zmod2_add_self z
  rw [finDets]
  by_cases hs : sameBasis lay N
  · rw [if_pos hs] at hB
    have hk : lay.faceKnown N (((N : Int) - 1) % 3) = true := by
      rw [sameBasis] at hs
      rw [faceKnown]
      rcases ho with h | h <;> simp only [h, if_true, show ¬ ("H" = "V") by decide, show ¬ ("V" = "H") by decide, if_false, decide_eq_true_eq, false_and, or_false, true_and, false_or] at hs ⊢ <;> omega
    rw [if_pos hs, if_pos hk, List.map_append, List.sum_append, List.map_map, List.map_map]
    have e1 : ((lay.round_edges ((N : Int) - 1)).map ((fun x : Pt × Finset Nat => val R x.2) ∘ fun e =>
        (e.center, symmDiff (symmDiff {lay.dTime N e.left} {lay.dTime N e.right}) (lay.vE (N - 1) e)))).sum =
        ((lay.round_edges ((N : Int) - 1)).map fun e => par (F N) ((N : Int) - 1) e + par (F (N - 1)) ((N : Int) - 1) e).sum :=
      sum_map_congr fun x hx => (reads_edge hv h1 hB hx).val F R hr
    have e2 : ((lay.round_hex_centers (((N : Int) - 1) % 3)).map ((fun x : Pt × Finset Nat => val R x.2) ∘ fun h => (h, symmDiff (lay.dHex N h) (lay.rF h (N - 2))))).sum =
        ((lay.round_hex_centers (((N : Int) - 1) % 3)).map fun h => lay.hexSum h (F N) (Basis.ofIdx ((N : Int) - 1)).pauli + lay.compZ F h (N - 2)).sum :=
      sum_map_congr fun x hx => by
        obtain ⟨hx, hc⟩ := (mem_round_hex_centers hv).1 hx
        have := (reads_last hv ho h1 hx (by rw [hB]; exact ofIdx_congr (by omega)) (i := (N : Int) - 2) (by omega) (by omega) (by omega) (by rw [hc]; exact hk)).val F R hr
        rw [ofIdx_congr (k := (N : Int) - 1) (k' := hexColour x) (by omega)]
        exact this
    rw [e1, e2, sum_map_add, sum_map_add, edges_par hv, edges_par hv, faces_hexSum hv, faces_compZ hv]
    simp only [if_pos hs]
    have eN : lay.allZ F ((N : Int) - 1) = (lay.data_qubit_coords.map fun q => anti (F (N - 1) q) (Basis.ofIdx ((N : Int) - 1)).pauli).sum := by
      rw [allZ, if_neg (by omega), show ((N : Int) - 1).toNat = N - 1 by omega]
    rw [eN, show (N : Int) - 2 - 1 = N - 1 - 2 by ring,
      show (N : Int) - 2 = N - 1 - 1 by ring]
    linear_combination self ((lay.data_qubit_coords.map fun q => anti (F N q) (Basis.ofIdx ((N : Int) - 1)).pauli).sum)
  · rw [if_neg hs] at hB
    have hk : lay.faceKnown N (((N : Int) - 2) % 3) = true ∧ lay.faceKnown N ((N : Int) % 3) = true := by
      rw [sameBasis] at hs
      rw [faceKnown, faceKnown]
      rcases ho with h | h <;> simp only [h, if_true, show ¬ ("H" = "V") by decide, show ¬ ("V" = "H") by decide, if_false, decide_eq_true_eq, false_and, or_false, true_and, false_or] at hs ⊢ <;> constructor <;> omega
    rw [if_neg hs, if_pos hk.1, if_pos hk.2, List.map_append, List.sum_append, List.map_map, List.map_map]
    have e1 : ((lay.round_hex_centers (((N : Int) - 2) % 3)).map ((fun x : Pt × Finset Nat => val R x.2) ∘ fun h =>
        (h, symmDiff (symmDiff (lay.dHex N h) (lay.rV (lay.first_edges_around_hex h) ((N : Int) - 1))) (lay.rF h ((N : Int) - 3))))).sum =
        ((lay.round_hex_centers (((N : Int) - 2) % 3)).map fun h => lay.hexSum h (F N) (Basis.ofIdx (N : Int)).pauli + lay.ringZ F h ((N : Int) - 1) + lay.compZ F h ((N : Int) - 3)).sum :=
      sum_map_congr fun x hx => (reads_half hv ho h1 hB hx hk.1).val F R hr
    have e2 : ((lay.round_hex_centers ((N : Int) % 3)).map ((fun x : Pt × Finset Nat => val R x.2) ∘ fun h => (h, symmDiff (lay.dHex N h) (lay.rF h (N - 1))))).sum =
        ((lay.round_hex_centers ((N : Int) % 3)).map fun h => lay.hexSum h (F N) (Basis.ofIdx (N : Int)).pauli + lay.compZ F h (N - 1)).sum :=
      sum_map_congr fun x hx => by
        obtain ⟨hx, hc⟩ := (mem_round_hex_centers hv).1 hx
        have := (reads_last hv ho h1 hx (by rw [hB]; exact ofIdx_congr (by omega)) (i := (N : Int) - 1) (by omega) (by omega) (by omega) (by rw [hc]; exact hk.2)).val F R hr
        rw [ofIdx_congr (k := (N : Int)) (k' := hexColour x) (by omega)]
        exact this
    rw [e1, e2, sum_map_add, sum_map_add, sum_map_add, faces_hexSum hv, faces_hexSum hv, faces_ringZ hv, faces_compZ hv, faces_compZ hv]
    simp only [if_neg hs]
    rw [show (N : Int) - 3 - 1 = N - 2 - 2 by ring, show (N : Int) - 3 = N - 2 - 1 by ring, show (N : Int) - 1 - 1 = N - 2 by ring]
    linear_combination self ((lay.data_qubit_coords.map fun q => anti (F N q) (Basis.ofIdx (N : Int)).pauli).sum) + self (lay.allZ F (N - 1))

/-- An even number of the detectors of the half fires. -/
theorem half_even (hv : lay.Valid) (hs : lay.Supported) (hN : lay.sub_rounds = N) (hr : lay.Recorded N F R) :
    ((allDets lay N).map fun x => if lay.FinalHalfLayer x.1 then val R x.2.2 else 0).sum = 0 := by
  have h1 : 1 ≤ N := by have := hs.2.2.1; omega
  have ho := hs.2.1
  rw [allDets, List.map_append, List.sum_append]
  have e1 : (((List.range N).flatMap fun k => (annDets lay k).map fun x => (k, x)).map fun x => if lay.FinalHalfLayer x.1 then val R x.2.2 else 0).sum =
      (((List.range N).flatMap fun k => (annDets lay k).map fun x => (k, x)).map fun x =>
        if (x.1 : Int) % 2 = (if lay.obs = "V" then 1 else 0) then val R x.2.2 else 0).sum := sum_map_congr fun x hx => by
    obtain ⟨k, hk, hx⟩ := List.mem_flatMap.1 hx
    obtain ⟨y, hy, rfl⟩ := List.mem_map.1 hx
    have hk := List.mem_range.1 hk
    refine if_congr ?_ rfl rfl
    show lay.FinalHalfLayer k ↔ _
    rw [FinalHalfLayer, hN, or_iff_right (by omega)]
  have e2 : (((finDets lay N).map fun x => (N, x)).map fun x => if lay.FinalHalfLayer x.1 then val R x.2.2 else 0).sum = ((finDets lay N).map fun x => val R x.2).sum := by
    rw [List.map_map]
    exact sum_map_congr fun x _ => if_pos (Or.inl hN.symm)
  rw [e1, e2, layers_sum hv ho h1 hr (le_refl _), finals_sum hv ho h1 hr]
  have hsb : sameBasis lay N ↔ ((N : Int) - 1) % 2 = if lay.obs = "V" then 1 else 0 := by
    rw [sameBasis]
    rcases ho with h | h <;> simp only [h, if_true, show ¬ ("H" = "V") by decide, show ¬ ("V" = "H") by decide, if_false, false_and, or_false, true_and, false_or] <;> omega
  simp only [hsb]
  exact zmod2_add_self _

end Honeycomb
