import Mathlib.Tactic.Abel
import Verif.Lemmas.Distance

/-!
# Flipped results

A flipped result is the same as a pair of faults on one of the measured qubits, just before and just after the measurement. So a
record with flipped results is the record of another faulty trajectory, whose faults stay on the qubits of the flipped results.
-/

namespace Honeycomb
namespace HoneycombLayout
variable {lay : HoneycombLayout} {N : Nat} {E F : Nat → PauliOp} {B : Pt → Prop} {R R' : Nat → ZMod 2}

theorem edge_unique (hv : lay.Valid) {k : Int} {e e' : Edge} (he : e ∈ lay.round_edges k) (he' : e' ∈ lay.round_edges k)
    {q : Pt} (h : q = e.left ∨ q = e.right) (h' : q = e'.left ∨ q = e'.right) : e = e' := by
  have hn : (edgeEnds (lay.round_edges k)).Nodup := ((edgeEnds_data hv k).nodup_iff).2 (nodup_data_qubit_coords lay)
  rw [edgeEnds, List.nodup_flatMap] at hn
  by_contra hne
  have hs : Std.Symm (Function.onFun List.Disjoint fun e : Edge => [e.left, e.right]) := ⟨fun _ _ hd => hd.symm⟩
  have hd := List.Pairwise.forall hn.2 he he' hne
  exact hd (a := q) (by simpa using h) (by simpa using h')

theorem anti_next (i : Int) : anti (Basis.ofIdx (i + 1)).pauli (Basis.ofIdx i).pauli = 1 := by
  have h3 : i % 3 = 0 ∨ i % 3 = 1 ∨ i % 3 = 2 := by omega
  rcases h3 with h | h | h
  · rw [ofIdx_congr (k := i) (k' := 0) (by omega), ofIdx_congr (k := i + 1) (k' := 1) (by omega)]; decide
  · rw [ofIdx_congr (k := i) (k' := 1) (by omega), ofIdx_congr (k := i + 1) (k' := 2) (by omega)]; decide
  · rw [ofIdx_congr (k := i) (k' := 2) (by omega), ofIdx_congr (k := i + 1) (k' := 0) (by omega)]; decide

open Classical in
/-- The Pauli that makes up for the flipped results `D` of sub-round `k` (`N`: of the final measurements). -/
noncomputable def patch (lay : HoneycombLayout) (B : Pt → Prop) (N : Nat) (D : Nat → ZMod 2) (k : Nat) : PauliOp := fun q =>
  if k < N then
    if ∃ e ∈ lay.round_edges k, val D (lay.vE k e) ≠ 0 ∧ q = if B e.left then e.left else e.right then (Basis.ofIdx ((k : Int) + 1)).pauli else 0
  else if k = N then
    if D (lay.dTime N q) ≠ 0 then (Basis.ofIdx (lay.loopBasis N + 1)).pauli else 0
  else 0

theorem val_add (R D : Nat → ZMod 2) (s : Finset Nat) : val (fun t => R t + D t) s = val R s + val D s := Finset.sum_add_distrib

theorem zmod2_one {a : ZMod 2} (h : a ≠ 0) : a = 1 := by revert a; decide

open Classical in
theorem patch_par (hv : lay.Valid) (D : Nat → ZMod 2) {k : Nat} (hk : k < N) {e : Edge} (he : e ∈ lay.round_edges k) :
    par (lay.patch B N D k) k e = val D (lay.vE k e) := by
  have hne := edge_left_ne_right hv (round_edges_subset_all he)
  have hl : (∃ e' ∈ lay.round_edges k, val D (lay.vE k e') ≠ 0 ∧ e.left = if B e'.left then e'.left else e'.right) ↔
      val D (lay.vE k e) ≠ 0 ∧ B e.left := by
    constructor
    · rintro ⟨e', he', h1, h2⟩
      obtain rfl : e = e' := edge_unique hv he he' (.inl rfl) (by split_ifs at h2 <;> simp [h2])
      refine ⟨h1, ?_⟩
      by_contra hb
      rw [if_neg hb] at h2
      exact hne h2
    · rintro ⟨h1, h2⟩
      exact ⟨e, he, h1, by rw [if_pos h2]⟩
  have hr : (∃ e' ∈ lay.round_edges k, val D (lay.vE k e') ≠ 0 ∧ e.right = if B e'.left then e'.left else e'.right) ↔
      val D (lay.vE k e) ≠ 0 ∧ ¬ B e.left := by
    constructor
    · rintro ⟨e', he', h1, h2⟩
      obtain rfl : e = e' := edge_unique hv he he' (.inr rfl) (by split_ifs at h2 <;> simp [h2])
      refine ⟨h1, ?_⟩
      intro hb
      rw [if_pos hb] at h2
      exact hne h2.symm
    · rintro ⟨h1, h2⟩
      exact ⟨e, he, h1, by rw [if_neg h2]⟩
  rw [par, patch, patch, if_pos hk, if_pos hk]
  simp only [hl, hr]
  by_cases hz : val D (lay.vE k e) = 0
  · simp [hz, anti_zero_left]
  · by_cases hb : B e.left
    · simp [hz, hb, anti_next, anti_zero_left, zmod2_one hz]
    · simp [hz, hb, anti_next, anti_zero_left, zmod2_one hz]

theorem patch_sub {D : Nat → ZMod 2} (hD : ∀ k < N, ∀ e ∈ lay.round_edges (k : Nat), val D (lay.vE k e) ≠ 0 → B e.left ∨ B e.right)
    (hDd : ∀ q ∈ lay.data_qubit_coords, D (lay.dTime N q) ≠ 0 → B q) {k : Nat} {q : Pt} (hq : q ∈ lay.data_qubit_coords) (h : lay.patch B N D k q ≠ 0) : B q := by
  rw [patch] at h
  split_ifs at h with h1 h2 h3 h4
  · obtain ⟨e, he, hz, rfl⟩ := h2
    split_ifs with hb
    · exact hb
    · exact (hD k h1 e he hz).resolve_left hb
  · exact absurd rfl h
  · exact hDd q hq h4
  · exact absurd rfl h
  · exact absurd rfl h

theorem pauli_add_self (p : Pauli) : p + p = 0 := by revert p; decide

/-- Patching every flipped result just before and taking the patch back just after gives a trajectory with the flipped record. -/
theorem patched_trajectory (hv : lay.Valid) (ht : lay.FaultyTrajectory N E F) (hr : lay.Recorded N F R) {D : Nat → ZMod 2} (hR' : R' = fun t => R t + D t) :
    lay.FaultyTrajectory N (fun k q => E k q + lay.patch B N D k q + (if k = 0 then 0 else lay.patch B N D (k - 1) q)) (fun k q => F k q + lay.patch B N D k q) ∧
      lay.Recorded N (fun k q => F k q + lay.patch B N D k q) R' := by
  refine ⟨⟨?_, ?_⟩, ⟨?_, ?_⟩⟩
  · intro q hq
    obtain ⟨r, e⟩ := ht.init q hq
    exact ⟨r, by simp only [e, if_true, add_zero]; abel⟩
  · intro k hk e he
    obtain ⟨r, e1, e2⟩ := ht.step k hk e he
    refine ⟨r, ?_, ?_⟩
    · simp only [e1, Nat.add_sub_cancel, Nat.succ_ne_zero, if_false]
      have := pauli_add_self (lay.patch B N D k e.left)
      calc _ = F k e.left + r • (Basis.ofIdx k).pauli + E (k + 1) e.left + lay.patch B N D (k + 1) e.left + (lay.patch B N D k e.left + lay.patch B N D k e.left) := by
            rw [this, add_zero]
        _ = _ := by abel
    · simp only [e2, Nat.add_sub_cancel, Nat.succ_ne_zero, if_false]
      have := pauli_add_self (lay.patch B N D k e.right)
      calc _ = F k e.right + r • (Basis.ofIdx k).pauli + E (k + 1) e.right + lay.patch B N D (k + 1) e.right + (lay.patch B N D k e.right + lay.patch B N D k e.right) := by
            rw [this, add_zero]
        _ = _ := by abel
  · intro k hk e he
    rw [hR', val_add, hr.edge k hk e he, ← patch_par hv D hk he]
    simp only [par, anti_add_left]
    ring
  · intro q hq
    have := hr.data q hq
    rw [obsAt_basis] at this ⊢
    rw [show R' (lay.dTime N q) = R (lay.dTime N q) + D (lay.dTime N q) from congrFun hR' _, this, anti_add_left]
    congr 1
    rw [patch, if_neg (lt_irrefl N), if_pos rfl]
    split_ifs with h
    · rw [anti_next, zmod2_one h]
    · push Not at h
      rw [h, anti_zero_left]

/-- A record with flipped results is the record of a faulty trajectory whose faults stay on the qubits of the flipped results. -/
theorem flipped_trajectory (hv : lay.Valid) (ht : lay.FaultyTrajectory N E F) (hr : lay.Recorded N F R) (hE : ∀ k, ∀ q ∈ lay.data_qubit_coords, E k q ≠ 0 → B q)
    (hD : ∀ k < N, ∀ e ∈ lay.round_edges (k : Nat), R' (lay.mTime k e) ≠ R (lay.mTime k e) → B e.left ∨ B e.right)
    (hDd : ∀ q ∈ lay.data_qubit_coords, R' (lay.dTime N q) ≠ R (lay.dTime N q) → B q) :
    ∃ E' F', lay.FaultyTrajectory N E' F' ∧ lay.Recorded N F' R' ∧ ∀ k, ∀ q ∈ lay.data_qubit_coords, E' k q ≠ 0 → B q := by
  set D : Nat → ZMod 2 := fun t => R t + R' t with hDdef
  have hDne : ∀ t, D t ≠ 0 → R' t ≠ R t := by
    intro t h e
    exact h (by simp only [hDdef, e, zmod2_add_self])
  have hR' : R' = fun t => R t + D t := by
    funext t
    simp only [hDdef]
    rw [← add_assoc, zmod2_add_self, zero_add]
  have hDv : ∀ k < N, ∀ e ∈ lay.round_edges (k : Nat), val D (lay.vE k e) ≠ 0 → B e.left ∨ B e.right := by
    intro k hk e he hz
    rw [vE] at hz
    split_ifs at hz with h3
    · rw [val_symmDiff, val_singleton, val_singleton] at hz
      by_cases hk' : D (lay.mTime k e) = 0
      · rw [hk', zero_add] at hz
        exact hD (k - 3) (by omega) e (by rw [round_edges_congr lay (r' := (k : Int)) (by omega)]; exact he) (hDne _ hz)
      · exact hD k hk e he (hDne _ hk')
    · rw [val_singleton] at hz
      exact hD k hk e he (hDne _ hz)
  have hDd' : ∀ q ∈ lay.data_qubit_coords, D (lay.dTime N q) ≠ 0 → B q := fun q hq h => hDd q hq (hDne _ h)
  have hp : ∀ k, ∀ q ∈ lay.data_qubit_coords, lay.patch B N D k q ≠ 0 → B q := fun k q hq h => patch_sub hDv hDd' hq h
  refine ⟨fun k q => E k q + lay.patch B N D k q + (if k = 0 then 0 else lay.patch B N D (k - 1) q), fun k q => F k q + lay.patch B N D k q, (patched_trajectory hv ht hr hR').1, (patched_trajectory hv ht hr hR').2, ?_⟩
  · intro k q hq h
    by_contra hb
    apply h
    have h1 : E k q = 0 := by_contra fun h' => hb (hE k q hq h')
    have h2 : ∀ j, lay.patch B N D j q = 0 := fun j => by_contra fun h' => hb (hp j q hq h')
    beta_reduce
    rw [h1, h2, h2]
    split_ifs <;> rfl

/-- Every column contains a fault. -/
theorem cut_v (hv : lay.Valid) (hV : lay.obs = "V") (ht : lay.FaultyTrajectory N E F) (hq : lay.Quiet N F) (hE : ∀ k, ∀ q ∈ lay.data_qubit_coords, E k q ≠ 0 → B q)
    (hobs : lay.loopValue F lay.obsLoop N ≠ 0) {i : Nat} (hi : (i : Int) < lay.data_width) :
    ∃ q ∈ lay.data_qubit_coords, B q ∧ q.x = 4 * i + 2 := by
  have hm := ht.membrane hv (G := fun _ => colLoop (4 * (i : Int) + 2)) (fun _ => isLoop_col hv _) (fun _ _ _ _ => rfl) (t := N) le_rfl
  have hc := col_value hv hq i hi
  rw [obsLoop, if_pos hV, ← hc, loopValue, hm] at hobs
  have : ∃ k, lay.loopErr E (colLoop (4 * (i : Int) + 2)) k ≠ 0 := by
    by_contra h
    push Not at h
    exact hobs (sum_map_eq_zero fun k _ => h k)
  obtain ⟨k, hk⟩ := this
  obtain ⟨q, hqd, h1, h2⟩ := err_place hk
  refine ⟨q, hqd, hE k q hqd h2, ?_⟩
  rw [colLoop] at h1
  split_ifs at h1 with h
  · exact h.1
  · exact absurd rfl h1

/-- Every two neighbouring rows contain a fault. -/
theorem cut_h (hv : lay.Valid) (hV : lay.obs ≠ "V") (ht : lay.FaultyTrajectory N E F) (hq : lay.Quiet N F) (hE : ∀ k, ∀ q ∈ lay.data_qubit_coords, E k q ≠ 0 → B q)
    (hobs : lay.loopValue F lay.obsLoop N ≠ 0) (r : Nat) :
    ∃ q ∈ lay.data_qubit_coords, B q ∧ ((q.y / 2 - r) % lay.data_height = 0 ∨ (q.y / 2 - (r + 1)) % lay.data_height = 0) := by
  have hm := ht.membrane hv (G := fun _ => lay.zigLoop r) (fun _ => isLoop_zig hv _) (fun _ _ _ _ => rfl) (t := N) le_rfl
  have hc := zig_value hv hq r
  rw [obsLoop, if_neg hV, ← hc, loopValue, hm] at hobs
  have : ∃ k, lay.loopErr E (lay.zigLoop r) k ≠ 0 := by
    by_contra h
    push Not at h
    exact hobs (sum_map_eq_zero fun k _ => h k)
  obtain ⟨k, hk⟩ := this
  obtain ⟨q, hqd, h1, h2⟩ := err_place hk
  refine ⟨q, hqd, hE k q hqd h2, ?_⟩
  rw [Valid.dh hv]
  rcases zig_ne_zero h1 with h | h
  · exact .inl h.2
  · exact .inr h.2

end HoneycombLayout
end Honeycomb
