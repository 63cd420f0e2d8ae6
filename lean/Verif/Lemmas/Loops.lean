import Verif.Lemmas.Quiet

/-!
# The loops: columns for the vertical observable, zigzag rows for the horizontal one
-/

namespace Honeycomb
namespace HoneycombLayout
variable {lay : HoneycombLayout}

theorem emod_helper {th a : Int} (h : a % (6 * th) = 0) : ∃ z, a = 6 * z := by
  obtain ⟨w, hw⟩ := Int.dvd_of_emod_eq_zero h
  exact ⟨th * w, by rw [hw]; ring⟩

theorem emod_shift (M a z : Int) : (a + M * z) % M = a % M := Int.add_mul_emod_self_left a M z

theorem emod_zero_small {M d : Int} (h : d % M = 0) (h1 : -M < d) (h2 : d < M) : d = 0 := by
  obtain ⟨z, rfl⟩ := Int.dvd_of_emod_eq_zero h
  have hM : 0 < M := by omega
  have a1 : -1 < z := by by_contra hc; nlinarith
  have a2 : z < 1 := by by_contra hc; nlinarith
  have : z = 0 := by omega
  rw [this, mul_zero]

/-! ## Columns -/

/-- The vertical loop through the data qubits of column `x`. -/
def colLoop (x : Int) (k : Int) (q : Pt) : ZMod 2 := if q.x = x ∧ (q.y / 2 - k) % 3 ≠ 0 then 1 else 0

theorem twelve_rows {th y : Int} (hth : 0 < th) : ∃ z, y % (12 * th) = y - 12 * z := by
  refine ⟨th * (y / (12 * th)), ?_⟩
  rw [Int.emod_def]; ring

theorem isLoop_col (hv : lay.Valid) (x : Int) : lay.IsLoop (colLoop x) := by
  have hh := Valid.th_pos hv
  constructor
  · intro k e he
    obtain ⟨o, h1, h2⟩ := edge_other_end hv he (q := e.left) (Or.inl rfl)
    have hd := edge_ends_data hv (round_edges_subset_all he)
    have hne := edge_left_ne_right hv (round_edges_subset_all he)
    have ho : e.right = o := by
      rcases h1 with h1 | h1
      · exact h1.2
      · exact absurd h1.2.symm hne
    obtain ⟨⟨-, -, b1⟩, -, b2⟩ := (mem_data_qubit_coords hv).1 hd.1
    obtain ⟨z1, e1⟩ := twelve_rows (y := e.left.y + 2) hh
    obtain ⟨z2, e2⟩ := twelve_rows (y := e.left.y - 2) hh
    rw [ho]
    simp only [colLoop]
    rcases h2 with ⟨a, b, c⟩ | ⟨a, b, c⟩ | ⟨a, b, c⟩
    · rw [if_neg (by omega), if_neg (by omega)]
    · rw [b]
      by_cases hx : e.left.x = x
      · rw [if_pos (by omega), if_pos (by omega)]
      · rw [if_neg (by simp [hx]), if_neg (by simp [hx])]
    · rw [b]
      by_cases hx : e.left.x = x
      · rw [if_pos (by omega), if_pos (by omega)]
      · rw [if_neg (by simp [hx]), if_neg (by simp [hx])]
  · intro q _ k
    simp only [colLoop]
    have h3 : (q.y / 2 - k) % 3 = 0 ∨ (q.y / 2 - k) % 3 = 1 ∨ (q.y / 2 - k) % 3 = 2 := by omega
    by_cases hx : q.x = x
    · rcases h3 with h | h | h
      · rw [if_pos (by omega), if_neg (by omega), if_pos (by omega)]; decide
      · rw [if_neg (by omega), if_pos (by omega), if_pos (by omega)]; decide
      · rw [if_pos (by omega), if_pos (by omega), if_neg (by omega)]; decide
    · simp [hx]

theorem hexOffset_cases : ∀ d ∈ hexOffsets, (d.x = 2 ∨ d.x = -2) ∧ (d.y = 2 ∨ d.y = 0 ∨ d.y = -2) := by decide

/-- The faces between two columns. -/
theorem homologous_col (hv : lay.Valid) {x : Int} (h0 : 0 ≤ x) (h4 : x % 4 = 2) (hx : x + 4 < 8 * lay.tile_width) :
    lay.Homologous (colLoop x) (colLoop (x + 4)) fun h => if h.x = x + 2 then 1 else 0 := by
  have hw := Valid.tw_pos hv
  have hh := Valid.th_pos hv
  refine ⟨⟨fun c q => if q.x = x ∨ q.x = x + 4 then
    (if (q.y / 2 - (x + 2) / 4) % 2 = 0 then (if (q.y / 2 - c) % 3 = 0 then 1 else 0) else (if (q.y / 2 - c) % 3 = 0 then 0 else 1)) else 0, ?_, ?_⟩⟩
  · intro c c0 c3 h hm q hq
    obtain ⟨⟨⟨a1, a2, a3, a4⟩, b1, b2, b3⟩, hc⟩ := (mem_round_hex_centers hv).1 hm
    obtain ⟨d, hd, hqe⟩ := mem_qubits_around_hex.1 hq
    simp only [hexColour] at hc
    obtain ⟨hdx, hdy⟩ := hexOffset_cases d hd
    obtain ⟨-, j, -, hy⟩ := shp_spec lay.tile_width lay.tile_height h d
    have hxx : (shp lay.tile_width lay.tile_height h d).x = (h.x + d.x) % (8 * lay.tile_width) := rfl
    rw [hqe] at hy hxx
    have hqx : q.x = h.x + d.x ∨ (h.x = 0 ∧ q.x = 8 * lay.tile_width - 2) := by
      rw [hxx]
      by_cases hneg : h.x + d.x < 0
      · right
        refine ⟨by omega, ?_⟩
        rw [← Int.add_mul_emod_self_left _ _ 1, Int.emod_eq_of_lt (by omega) (by omega)]; omega
      · left
        exact Int.emod_eq_of_lt (by omega) (by omega)
    beta_reduce
    split_ifs <;> first | rfl | omega
  · intro q _ k
    simp only [colLoop]
    by_cases hq1 : q.x = x
    · rw [if_pos (Or.inl hq1), if_pos (Or.inl hq1), if_neg (show ¬(q.x = x + 4 ∧ _) by omega)]
      simp only [hq1, true_and, add_zero]
      split_ifs <;> first | rfl | decide | omega
    · by_cases hq2 : q.x = x + 4
      · rw [if_pos (Or.inr hq2), if_pos (Or.inr hq2), if_neg (show ¬(q.x = x ∧ _) by omega)]
        simp only [hq2, true_and, zero_add]
        split_ifs <;> first | rfl | decide | omega
      · simp [hq1, hq2]

/-! ## Zigzags -/

/-- The data qubit is in row `i` (rows are taken modulo the height). -/
def inRow (lay : HoneycombLayout) (i : Int) (q : Pt) : ZMod 2 := if (q.y / 2 - i) % (6 * lay.tile_height) = 0 then 1 else 0

/-- The horizontal zigzag through rows `r` and `r + 1`. -/
def zigLoop (lay : HoneycombLayout) (r : Int) (k : Int) (q : Pt) : ZMod 2 :=
  (if (q.y / 2 - k) % 3 = 2 then 0 else lay.inRow r q) + (if (q.y / 2 - k) % 3 = 1 then 0 else lay.inRow (r + 1) q)

theorem inRow_shift {i i' : Int} {q q' : Pt} {z : Int} (h : q.y / 2 - i = q'.y / 2 - i' + 6 * lay.tile_height * z) :
    lay.inRow i q = lay.inRow i' q' := by
  rw [inRow, inRow, h, emod_shift]

theorem inRow_mod {i : Int} {q : Pt} (h : lay.inRow i q ≠ 0) : (q.y / 2 - i) % 3 = 0 := by
  rw [inRow] at h
  split_ifs at h with h'
  · obtain ⟨z, hz⟩ := emod_helper h'
    omega
  · exact absurd rfl h

theorem inRow_zero {i : Int} {q : Pt} (h : (q.y / 2 - i) % 3 ≠ 0) : lay.inRow i q = 0 := by
  by_contra hc
  exact h (inRow_mod hc)

theorem isLoop_zig (hv : lay.Valid) (r : Int) : lay.IsLoop (lay.zigLoop r) := by
  have hh := Valid.th_pos hv
  constructor
  · intro k e he
    obtain ⟨o, h1, h2⟩ := edge_other_end hv he (q := e.left) (Or.inl rfl)
    have hd := edge_ends_data hv (round_edges_subset_all he)
    have hne := edge_left_ne_right hv (round_edges_subset_all he)
    have ho : e.right = o := by
      rcases h1 with h1 | h1
      · exact h1.2
      · exact absurd h1.2.symm hne
    obtain ⟨-, -, b2⟩ := (mem_data_qubit_coords hv).1 hd.1
    rw [ho]
    simp only [zigLoop]
    rcases h2 with ⟨a, b, c⟩ | ⟨a, b, c⟩ | ⟨a, b, c⟩
    · simp only [inRow, b]
    · have ho2 : o.y / 2 = e.left.y / 2 + 1 - 6 * lay.tile_height * ((e.left.y + 2) / (12 * lay.tile_height)) := by
        rw [c, Int.emod_def, show 12 * lay.tile_height * ((e.left.y + 2) / (12 * lay.tile_height)) = 2 * (6 * lay.tile_height * ((e.left.y + 2) / (12 * lay.tile_height))) by ring]
        omega
      have ha : (o.y / 2 - k) % 3 = 2 := by
        rw [ho2, mul_assoc]; omega
      rw [if_neg (by omega), if_pos a, if_pos ha, if_neg (by omega), add_zero, zero_add]
      exact inRow_shift (z := (e.left.y + 2) / (12 * lay.tile_height)) (by rw [ho2]; ring)
    · have ho2 : o.y / 2 = e.left.y / 2 - 1 - 6 * lay.tile_height * ((e.left.y - 2) / (12 * lay.tile_height)) := by
        rw [c, Int.emod_def, show 12 * lay.tile_height * ((e.left.y - 2) / (12 * lay.tile_height)) = 2 * (6 * lay.tile_height * ((e.left.y - 2) / (12 * lay.tile_height))) by ring]
        omega
      have ha : (o.y / 2 - k) % 3 = 1 := by
        rw [ho2, mul_assoc]; omega
      rw [if_pos a, if_neg (by omega), if_neg (by omega), if_pos ha, add_zero, zero_add]
      exact inRow_shift (z := (e.left.y - 2) / (12 * lay.tile_height)) (by rw [ho2]; ring)
  · intro q _ k
    simp only [zigLoop]
    have h3 : (q.y / 2 - k) % 3 = 0 ∨ (q.y / 2 - k) % 3 = 1 ∨ (q.y / 2 - k) % 3 = 2 := by omega
    generalize lay.inRow r q = a
    generalize lay.inRow (r + 1) q = b
    rcases h3 with h | h | h
    · rw [if_pos (by omega), if_neg (by omega), if_neg (by omega), if_neg (by omega), if_neg (by omega), if_pos (by omega)]
      revert a b; decide
    · rw [if_neg (by omega), if_neg (by omega), if_neg (by omega), if_pos (by omega), if_pos (by omega), if_neg (by omega)]
      revert a b; decide
    · rw [if_neg (by omega), if_pos (by omega), if_pos (by omega), if_neg (by omega), if_neg (by omega), if_neg (by omega)]
      revert a b; decide

/-- The row of faces between two zigzags. -/
def rowFaces (lay : HoneycombLayout) (r : Int) (h : Pt) : ZMod 2 := lay.inRow r h

theorem homologous_zig (hv : lay.Valid) (r : Int) : lay.Homologous (lay.zigLoop r) (lay.zigLoop (r - 1)) (lay.rowFaces r) := by
  have hw := Valid.tw_pos hv
  have hh := Valid.th_pos hv
  refine ⟨⟨fun c q => if (c - r) % 3 = 0 then lay.inRow r q + lay.inRow (r + 1) q + lay.inRow (r - 1) q else 0, ?_, ?_⟩⟩
  · intro c c0 c3 h hm q hq
    obtain ⟨⟨-, b1, b2, b3⟩, hc⟩ := (mem_round_hex_centers hv).1 hm
    obtain ⟨d, hd, rfl⟩ := mem_qubits_around_hex.1 hq
    simp only [hexColour] at hc
    have hdy := (hexOffset_cases d hd).2
    have hqy : (shp lay.tile_width lay.tile_height h d).y / 2 = h.y / 2 + d.y / 2 - 6 * lay.tile_height * ((h.y + d.y) / (12 * lay.tile_height)) := by
      have : (shp lay.tile_width lay.tile_height h d).y = (h.y + d.y) % (12 * lay.tile_height) := rfl
      rw [this, Int.emod_def, show 12 * lay.tile_height * ((h.y + d.y) / (12 * lay.tile_height)) = 2 * (6 * lay.tile_height * ((h.y + d.y) / (12 * lay.tile_height))) by ring]
      omega
    have hrow : ∀ i, lay.inRow i (shp lay.tile_width lay.tile_height h d) = lay.inRow (i - d.y / 2) h := fun i =>
      inRow_shift (z := -((h.y + d.y) / (12 * lay.tile_height))) (by rw [hqy]; ring)
    rw [rowFaces]
    beta_reduce
    rw [hrow, hrow, hrow]
    split_ifs with hcr
    · rcases hdy with e | e | e <;> rw [e]
      · rw [inRow_zero (i := r - 2 / 2) (by omega), inRow_zero (i := r - 1 - 2 / 2) (by omega)]; simp
      · rw [inRow_zero (i := r + 1 - 0 / 2) (by omega), inRow_zero (i := r - 1 - 0 / 2) (by omega)]; simp
      · rw [inRow_zero (i := r - -2 / 2) (by omega), inRow_zero (i := r + 1 - -2 / 2) (by omega)]; simp
    · rw [inRow_zero (by omega)]
  · intro q _ k
    simp only [zigLoop, sub_add_cancel]
    have zA : (q.y / 2 - r) % 3 ≠ 0 → lay.inRow r q = 0 := inRow_zero
    have zB : (q.y / 2 - (r + 1)) % 3 ≠ 0 → lay.inRow (r + 1) q = 0 := inRow_zero
    have zC : (q.y / 2 - (r - 1)) % 3 ≠ 0 → lay.inRow (r - 1) q = 0 := inRow_zero
    generalize lay.inRow r q = a at *
    generalize lay.inRow (r + 1) q = b at *
    generalize lay.inRow (r - 1) q = c at *
    have haa := zmod2_add_self a
    have hs : (q.y / 2 - r) % 3 = 0 ∨ (q.y / 2 - r) % 3 = 1 ∨ (q.y / 2 - r) % 3 = 2 := by omega
    rcases hs with h | h | h
    · rw [zB (by omega), zC (by omega)]
      split_ifs <;> first | (exfalso; omega) | (simp; done) | simpa using haa
    · rw [zA (by omega), zC (by omega)]
      split_ifs <;> first | (exfalso; omega) | simp
    · rw [zA (by omega), zB (by omega)]
      split_ifs <;> first | (exfalso; omega) | simp

end HoneycombLayout
end Honeycomb
