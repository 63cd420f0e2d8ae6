import Verif.Lemmas.Loops

/-!
# Counting: every undetected fault pattern that flips the observable has at least `d` faults
-/

namespace Honeycomb
namespace HoneycombLayout
variable {lay : HoneycombLayout} {N : Nat} {E F : Nat → PauliOp}

/-! ## The observable is a loop -/

/-- The loop of the layout's observable. -/
def obsLoop (lay : HoneycombLayout) : Int → Pt → ZMod 2 := if lay.obs = "V" then colLoop 2 else lay.zigLoop 0

theorem v_row_table : ∀ c ∈ ([0, 1, 2, 3, 4, 5] : List Int), ∀ y ∈ ([0, 1, 2] : List Int),
    rowPauli (obsVPattern c) y.toNat =
      if (y - (if c % 2 = 0 then c else c - 1)) % 3 = 0 then 0 else (Basis.ofIdx (if c % 2 = 0 then c - 1 else c)).pauli := by decide

theorem h_row_table : ∀ c ∈ ([0, 1, 2, 3, 4, 5] : List Int),
    rowPauli (obsHPattern c) 0 =
      (if (1 - (if c % 2 = 1 then c else c - 1)) % 3 = 1 then 0 else (Basis.ofIdx (if c % 2 = 1 then c - 1 else c)).pauli) ∧
    rowPauli (obsHPattern c) 1 =
      (if (0 - (if c % 2 = 1 then c else c - 1)) % 3 = 2 then 0 else (Basis.ofIdx (if c % 2 = 1 then c - 1 else c)).pauli) := by decide

theorem inRow_small (hv : lay.Valid) {q : Pt} (hq : q ∈ lay.data_qubit_coords) {i : Int} (h0 : 0 ≤ i) (h2 : i < 2) :
    lay.inRow i q = if q.y = 2 * i then 1 else 0 := by
  have hh := Valid.th_pos hv
  obtain ⟨⟨-, -, a1, a2⟩, -, b⟩ := (mem_data_qubit_coords hv).1 hq
  rw [inRow]
  by_cases hy : q.y = 2 * i
  · rw [if_pos hy, if_pos]
    rw [show q.y / 2 - i = 0 by omega]; rfl
  · rw [if_neg hy, if_neg]
    intro hm
    have := emod_zero_small hm (by omega) (by omega)
    omega

theorem zig_zero (hv : lay.Valid) {q : Pt} (hq : q ∈ lay.data_qubit_coords) (k : Int) :
    lay.zigLoop 0 k q = if q.y = 2 then (if (1 - k) % 3 = 1 then 0 else 1) else if q.y = 0 then (if (0 - k) % 3 = 2 then 0 else 1) else 0 := by
  rw [zigLoop, inRow_small hv hq (by omega) (by omega), inRow_small hv hq (by omega) (by omega)]
  by_cases h2 : q.y = 2
  · rw [h2]; norm_num
  · by_cases h0 : q.y = 0
    · rw [h0]; norm_num
    · simp [h2, h0]

theorem zero_smul_pauli (p : Pauli) : (0 : ZMod 2) • p = 0 := by revert p; decide

theorem one_smul_pauli (p : Pauli) : (1 : ZMod 2) • p = p := by revert p; decide

/-- The observable's operator is the loop's operator. -/
theorem obsOp_loop (hv : lay.Valid) (k : Int) {q : Pt} (hq : q ∈ lay.data_qubit_coords) :
    obsOp (lay.obsAt k) q = lay.obsLoop (lay.loopColour k) q • (Basis.ofIdx (lay.loopBasis k)).pauli := by
  rw [obsAt, obsLoop, loopColour, loopBasis]
  by_cases hV : lay.obs = "V"
  · simp only [hV, if_true]
    rw [obsV_closed hv k hq, colLoop]
    by_cases hx : q.x = 2
    · have := v_row_table (k % 6) (six_mem k) ((q.y / 2) % 3) (three_mem _)
      rw [obsVPattern_emod] at this
      rw [if_pos hx, this]
      have e1 : Basis.ofIdx (if k % 6 % 2 = 0 then k % 6 - 1 else k % 6) = Basis.ofIdx (if k % 2 = 0 then k - 1 else k) :=
        ofIdx_congr (by split_ifs <;> omega)
      rw [e1]
      by_cases hc : (q.y / 2 - (if k % 2 = 0 then k else k - 1)) % 3 = 0
      · rw [if_pos (by split_ifs at hc ⊢ <;> omega), if_neg (by simp [hc]), zero_smul_pauli]
      · rw [if_neg (by split_ifs at hc ⊢ <;> omega), if_pos (show q.x = 2 ∧ _ from ⟨hx, hc⟩), one_smul_pauli]
    · rw [if_neg hx, if_neg (by simp [hx]), zero_smul_pauli]
  · simp only [hV, if_false]
    rw [obsH_closed hv k hq, zig_zero hv hq]
    have := h_row_table (k % 6) (six_mem k)
    rw [obsHPattern_emod] at this
    rw [this.1, this.2]
    have e1 : Basis.ofIdx (if k % 6 % 2 = 1 then k % 6 - 1 else k % 6) = Basis.ofIdx (if k % 2 = 1 then k - 1 else k) :=
      ofIdx_congr (by split_ifs <;> omega)
    have e2 : (1 - (if k % 6 % 2 = 1 then k % 6 else k % 6 - 1)) % 3 = (1 - (if k % 2 = 1 then k else k - 1)) % 3 := by split_ifs <;> omega
    have e3 : (0 - (if k % 6 % 2 = 1 then k % 6 else k % 6 - 1)) % 3 = (0 - (if k % 2 = 1 then k else k - 1)) % 3 := by split_ifs <;> omega
    rw [e1, e2, e3]
    split_ifs <;> simp only [zero_smul_pauli, one_smul_pauli]

/-- An edge is on the observable's path exactly if the loop uses it. -/
theorem obsE_loop (hv : lay.Valid) {k : Int} {e : Edge} (he : e ∈ lay.round_edges k) :
    lay.obsLoop k e.left = if e ∈ lay.obsE then 1 else 0 := by
  have hd := edge_ends_data hv (round_edges_subset_all he)
  rw [obsLoop, obsE]
  by_cases hV : lay.obs = "V"
  · simp only [hV, if_true]
    rw [colLoop, if_congr (obs_v_edge_at hv he (q := e.left) (Or.inl rfl)).symm rfl rfl]
  · simp only [hV, if_false]
    rw [zig_zero hv hd.1, if_congr (obs_h_edge_at hv he (q := e.left) (Or.inl rfl)) rfl rfl]
    split_ifs <;> first | rfl | omega

theorem anti_smul_right (r : ZMod 2) (a b : Pauli) : anti a (r • b) = r * anti a b := by revert r a b; decide

theorem isLoop_obs (hv : lay.Valid) : lay.IsLoop lay.obsLoop := by
  rw [obsLoop]; split_ifs
  · exact isLoop_col hv 2
  · exact isLoop_zig hv 0

/-- The recorded observable is the parity of its loop. -/
theorem obs_value (hv : lay.Valid) {R : Nat → ZMod 2} (hr : lay.Recorded N F R) :
    ((List.range N).map fun k => val R (lay.vObs k)).sum + val R (xorS ((lay.obsAt N).2.map fun q => {lay.dTime N q})) =
      lay.loopValue F lay.obsLoop N := by
  rw [loopValue, add_comm, val_finalObs hv hr]
  congr 1
  · refine sum_map_congr fun q hq => ?_
    rw [obsOp_loop hv N hq, anti_smul_right]
  · refine sum_map_congr fun k hk => ?_
    rw [val_vObs hv hr (List.mem_range.1 hk), loopMeas, sum_by_edges hv k]
    have hperm : (lay.obsE.filter fun e => e ∈ lay.round_edges k).Perm ((lay.round_edges k).filter fun e => e ∈ lay.obsE) := by
      refine (List.perm_ext_iff_of_nodup ((nodup_obsE hv).filter _) ((nodup_round_edges hv k).filter _)).2 fun e => ?_
      simp only [List.mem_filter, decide_eq_true_eq]
      exact and_comm
    rw [(hperm.map _).sum_eq, filter_map_sum]
    refine sum_map_congr fun e he => ?_
    rw [← (isLoop_obs hv).edge k e he, obsE_loop hv he]
    by_cases h : e ∈ lay.obsE <;> simp [h, par]

/-! ## Equivalent loops -/

theorem col_value (hv : lay.Valid) (hq : lay.Quiet N F) (i : Nat) (hi : (i : Int) < lay.data_width) :
    lay.loopValue F (colLoop (4 * i + 2)) N = lay.loopValue F (colLoop 2) N := by
  have hw := Valid.dw hv
  induction i with
  | zero => rfl
  | succ i ih =>
    rw [← ih (by push_cast at hi; omega)]
    have := hq.value hv (homologous_col hv (x := 4 * (i : Int) + 2) (by omega) (by omega) (by push_cast at hi; omega))
    rw [this]; push_cast; ring_nf

theorem zig_value (hv : lay.Valid) (hq : lay.Quiet N F) (r : Nat) : lay.loopValue F (lay.zigLoop r) N = lay.loopValue F (lay.zigLoop 0) N := by
  induction r with
  | zero => rfl
  | succ r ih =>
    rw [← ih]
    have := hq.value hv (homologous_zig hv ((r + 1 : Nat) : Int))
    rw [this]; push_cast; ring_nf

/-- The row of membrane `j` before sub-round `k`: it moves up by one row every four sub-rounds. -/
def driftRow (j k : Nat) : Nat := (3 * j + k / 2 + 1) / 2

theorem zig_switch (_hv : lay.Valid) {r k : Int} (h : (r - k) % 3 = 0) (q : Pt) : lay.zigLoop r k q = lay.zigLoop (r - 1) k q := by
  simp only [zigLoop, sub_add_cancel]
  have zA : (q.y / 2 - r) % 3 ≠ 0 → lay.inRow r q = 0 := inRow_zero
  have zB : (q.y / 2 - (r + 1)) % 3 ≠ 0 → lay.inRow (r + 1) q = 0 := inRow_zero
  have zC : (q.y / 2 - (r - 1)) % 3 ≠ 0 → lay.inRow (r - 1) q = 0 := inRow_zero
  have h3 : (q.y / 2 - k) % 3 = 0 ∨ (q.y / 2 - k) % 3 = 1 ∨ (q.y / 2 - k) % 3 = 2 := by omega
  rcases h3 with h' | h' | h'
  · rw [zB (by omega), zC (by omega)]; simp [h']
  · rw [zA (by omega), zC (by omega)]; simp [h']
  · rw [zA (by omega), zB (by omega)]; simp [h']

theorem drift_step (hV : lay.obs ≠ "V") (j k : Nat) : driftRow j (k + 1) = driftRow j k ∨
    (driftRow j (k + 1) = driftRow j k + 1 ∧ ((driftRow j (k + 1) : Int) - lay.loopColour ((k + 1 : Nat) : Int)) % 3 = 0) := by
  simp only [driftRow, loopColour, hV, if_false]
  rcases Nat.mod_two_eq_zero_or_one k with h | h
  · left; omega
  · rcases Nat.mod_two_eq_zero_or_one (3 * j + k / 2) with h' | h'
    · right
      refine ⟨by omega, ?_⟩
      obtain ⟨a, ha⟩ : ∃ a, 3 * j + k / 2 = 2 * a := ⟨(3 * j + k / 2) / 2, by omega⟩
      have e1 : (3 * j + (k + 1) / 2 + 1) / 2 = a + 1 := by omega
      rw [e1, if_neg (by omega)]
      omega
    · left; omega

theorem drift_meas (hv : lay.Valid) (hV : lay.obs ≠ "V") (hq : lay.Quiet N F) (j : Nat) {t : Nat} (ht : t ≤ N) :
    ((List.range t).map fun k => lay.loopMeas F (lay.zigLoop (driftRow j k)) k).sum =
      ((List.range t).map fun k => lay.loopMeas F (lay.zigLoop (driftRow j t)) k).sum := by
  induction t with
  | zero => rfl
  | succ t ih =>
    have e : ((List.range (t + 1)).map fun k => lay.loopMeas F (lay.zigLoop (driftRow j k)) k).sum =
        ((List.range (t + 1)).map fun k => lay.loopMeas F (lay.zigLoop (driftRow j t)) k).sum := by
      rw [List.range_succ, List.map_append, List.map_append, List.sum_append, List.sum_append, ih (by omega)]
      rfl
    rw [e]
    rcases drift_step hV j t with h | ⟨h, hc⟩
    · rw [h]
    · have hm := hq.meas hv (homologous_zig hv (driftRow j (t + 1) : Int)) ht (by
        intro f hf hne
        refine inRow_zero ?_
        simp only [hexColour] at hne
        omega)
      rw [hm]
      congr 3
      funext k
      rw [h]; push_cast; ring_nf

/-! ## Counting -/

/-- All faults are at one of the places `locs` (sub-round, data qubit). -/
def Located (lay : HoneycombLayout) (E : Nat → PauliOp) (locs : List (Nat × Pt)) : Prop :=
  ∀ k, ∀ q ∈ lay.data_qubit_coords, E k q ≠ 0 → (k, q) ∈ locs

theorem err_place {g : Int → Pt → ZMod 2} {k : Nat} (h : lay.loopErr E g k ≠ 0) :
    ∃ q ∈ lay.data_qubit_coords, g (lay.loopColour k) q ≠ 0 ∧ E k q ≠ 0 := by
  by_contra hc
  push Not at hc
  refine h (sum_map_eq_zero fun q hq => ?_)
  by_cases hg : g (lay.loopColour k) q = 0
  · rw [hg, zero_mul]
  · rw [hc q hq hg, anti_zero_left, mul_zero]

/-- If every one of `d` membranes is flipped and no place touches two of them, there are at least `d` faults. -/
theorem count_faults {d : Nat} {G : Fin d → Nat → Int → Pt → ZMod 2} {locs : List (Nat × Pt)} (hl : lay.Located E locs)
    (hflip : ∀ j, ((List.range (N + 1)).map fun k => lay.loopErr E (G j k) k).sum ≠ 0)
    (huniq : ∀ k, ∀ q ∈ lay.data_qubit_coords, ∀ i j, G i k (lay.loopColour (k : Nat)) q ≠ 0 → G j k (lay.loopColour (k : Nat)) q ≠ 0 → i = j) :
    d ≤ locs.length := by
  have hex : ∀ j, ∃ x ∈ locs, x.2 ∈ lay.data_qubit_coords ∧ G j x.1 (lay.loopColour (x.1 : Nat)) x.2 ≠ 0 := by
    intro j
    have : ∃ k, lay.loopErr E (G j k) k ≠ 0 := by
      by_contra hc
      push Not at hc
      exact hflip j (sum_map_eq_zero fun k _ => hc k)
    obtain ⟨k, hk⟩ := this
    obtain ⟨q, hq, h1, h2⟩ := err_place hk
    exact ⟨(k, q), hl k q hq h2, hq, h1⟩
  choose f hf1 hf2 hf3 using hex
  have hinj : Function.Injective f := by
    intro i j hij
    have h1 := hf3 i
    rw [hij] at h1
    exact huniq (f j).1 (f j).2 (hf2 j) i j h1 (hf3 j)
  have hc : (Finset.univ.image f).card = d := by rw [Finset.card_image_of_injective _ hinj]; simp
  have hsub : Finset.univ.image f ⊆ locs.toFinset := by
    intro x hx
    obtain ⟨j, -, rfl⟩ := Finset.mem_image.1 hx
    exact List.mem_toFinset.2 (hf1 j)
  rw [← hc]
  exact le_trans (Finset.card_le_card hsub) (List.toFinset_card_le _)

/-- The distance against single-qubit faults in the vertical direction. -/
theorem distance_v (hv : lay.Valid) (hV : lay.obs = "V") (ht : lay.FaultyTrajectory N E F) (hq : lay.Quiet N F)
    {locs : List (Nat × Pt)} (hl : lay.Located E locs) (hobs : lay.loopValue F lay.obsLoop N ≠ 0) :
    lay.data_width ≤ locs.length := by
  have hw := Valid.dw hv
  have hwp := Valid.tw_pos hv
  have := count_faults (N := N) (d := lay.data_width.toNat) (G := fun j _ => colLoop (4 * ((j : Nat) : Int) + 2)) hl (by
    intro j
    have hm := ht.membrane hv (G := fun _ => colLoop (4 * ((j : Nat) : Int) + 2)) (fun _ => isLoop_col hv _) (fun _ _ _ _ => rfl) (t := N) le_rfl
    rw [← hm]
    have hc := col_value hv hq (j : Nat) (by have := j.2; omega)
    rw [obsLoop, if_pos hV, ← hc] at hobs
    exact hobs) (by
    intro k q _ i j hi hj
    have e : ∀ x : Int, colLoop x (lay.loopColour (k : Int)) q ≠ 0 → q.x = x := by
      intro x hx
      rw [colLoop] at hx
      split_ifs at hx with h
      · exact h.1
      · exact absurd rfl hx
    have h1 := e _ hi
    have h2 := e _ hj
    exact Fin.ext (by omega))
  omega

theorem zig_ne_zero {r k : Int} {q : Pt} (h : lay.zigLoop r k q ≠ 0) :
    ((q.y / 2 - k) % 3 ≠ 2 ∧ (q.y / 2 - r) % (6 * lay.tile_height) = 0) ∨
    ((q.y / 2 - k) % 3 ≠ 1 ∧ (q.y / 2 - (r + 1)) % (6 * lay.tile_height) = 0) := by
  rw [zigLoop, inRow, inRow] at h
  split_ifs at h with h1 h2 h3 h3 h2 h3 h4 h4
  all_goals first | (exact absurd (by decide) h) | tauto

/-- The distance against single-qubit faults in the horizontal direction. -/
theorem distance_h (hv : lay.Valid) (hV : lay.obs ≠ "V") (ht : lay.FaultyTrajectory N E F) (hq : lay.Quiet N F)
    {locs : List (Nat × Pt)} (hl : lay.Located E locs) (hobs : lay.loopValue F lay.obsLoop N ≠ 0) :
    lay.data_height / 3 * 2 ≤ locs.length := by
  have hh := Valid.dh hv
  have hhp := Valid.th_pos hv
  have := count_faults (N := N) (d := (4 * lay.tile_height).toNat) (G := fun j k => lay.zigLoop (driftRow (j : Nat) k : Nat)) hl (by
    intro j
    have hm := ht.membrane hv (G := fun k => lay.zigLoop (driftRow (j : Nat) k : Nat)) (fun _ => isLoop_zig hv _) (by
      intro k _ q _
      rcases drift_step hV (j : Nat) k with h | ⟨h, hc⟩
      · rw [h]
      · rw [zig_switch hv hc, h]; push_cast; rw [add_sub_cancel_right]) (t := N) le_rfl
    rw [← hm, drift_meas hv hV hq (j : Nat) le_rfl]
    have hc := zig_value hv hq (driftRow (j : Nat) N)
    rw [obsLoop, if_neg hV, ← hc] at hobs
    exact hobs) (by
    intro k q _ i j hi hj
    have hi2 := i.2
    have hj2 := j.2
    have same : (driftRow (i : Nat) k : Int) = driftRow (j : Nat) k → i = j := by
      intro e
      simp only [driftRow] at e
      exact Fin.ext (by omega)
    have small : ∀ a : Int, a = (driftRow (i : Nat) k : Int) - driftRow (j : Nat) k → a % (6 * lay.tile_height) = 0 → i = j := by
      intro a ha h0
      refine same ?_
      have := emod_zero_small h0 (by rw [ha]; simp only [driftRow]; push_cast; omega) (by rw [ha]; simp only [driftRow]; push_cast; omega)
      omega
    have sub : ∀ a b : Int, a % (6 * lay.tile_height) = 0 → b % (6 * lay.tile_height) = 0 → (a - b) % (6 * lay.tile_height) = 0 := by
      intro a b h1 h2
      exact Int.emod_eq_zero_of_dvd (Int.dvd_sub (Int.dvd_of_emod_eq_zero h1) (Int.dvd_of_emod_eq_zero h2))
    rcases zig_ne_zero hi with ⟨c1, d1⟩ | ⟨c1, d1⟩ <;> rcases zig_ne_zero hj with ⟨c2, d2⟩ | ⟨c2, d2⟩
    · exact small _ (by ring) (sub _ _ d2 d1)
    · exfalso
      obtain ⟨z1, e1⟩ := emod_helper d1
      obtain ⟨z2, e2⟩ := emod_helper d2
      simp only [loopColour, hV, if_false] at c1 c2
      simp only [driftRow] at e1 e2
      push_cast at e1 e2
      split_ifs at c1 c2 <;> omega
    · exfalso
      obtain ⟨z1, e1⟩ := emod_helper d1
      obtain ⟨z2, e2⟩ := emod_helper d2
      simp only [loopColour, hV, if_false] at c1 c2
      simp only [driftRow] at e1 e2
      push_cast at e1 e2
      split_ifs at c1 c2 <;> omega
    · exact small _ (by ring) (sub _ _ d2 d1))
  omega

end HoneycombLayout
end Honeycomb
