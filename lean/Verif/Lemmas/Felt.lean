import Verif.Lemmas.Elementary

/-! # Every detector is changed by some single fault -/

namespace Honeycomb
open HoneycombLayout

variable {lay : HoneycombLayout} {N : Nat}

namespace HoneycombLayout

/-- A Pauli that anticommutes with that of `b`. -/
def against (b : Basis) : Pauli := if b = .X then Basis.Z.pauli else Basis.X.pauli

theorem anti_against (b : Basis) : anti (against b) b.pauli = 1 := by cases b <;> decide

theorem exists_around (lay : HoneycombLayout) (h : Pt) : ∃ q, q ∈ lay.qubits_around_hex h :=
  ⟨_, mem_qubits_around_hex.2 ⟨hexOffsets.head (by decide), List.head_mem _, rfl⟩⟩

theorem felt_hex (hv : lay.Valid) {k : Nat} (h1 : 1 ≤ k) {h : Pt} (hc : (k : Int) % 3 = (hexColour h + 2) % 3) :
    ∃ j q P, lay.compZ (oneFault j q P) h k + lay.compZ (oneFault j q P) h ((k : Int) - 3) ≠ 0 := by
  obtain ⟨q, hq⟩ := exists_around lay h
  refine ⟨k - 1, q, against (Basis.ofIdx (hexColour h)), ?_⟩
  rw [compZ_after hv (by omega) hq hc, compZ_before hv (by omega), anti_against]
  decide

theorem felt_last (hv : lay.Valid) {h : Pt} {i : Int} (hi : i < N) :
    ∃ j q P, lay.hexSum h (oneFault j q P N) (Basis.ofIdx (hexColour h)).pauli + lay.compZ (oneFault j q P) h i ≠ 0 := by
  obtain ⟨q, hq⟩ := exists_around lay h
  refine ⟨N, q, against (Basis.ofIdx (hexColour h)), ?_⟩
  rw [compZ_before hv hi, hexSum_oneFault hv, if_pos ⟨le_refl _, hq⟩, anti_against]
  decide

theorem felt_half (hv : lay.Valid) (h : Pt) :
    ∃ j q P, lay.hexSum h (oneFault j q P N) (Basis.ofIdx (N : Int)).pauli + lay.ringZ (oneFault j q P) h ((N : Int) - 1) +
      lay.compZ (oneFault j q P) h ((N : Int) - 3) ≠ 0 := by
  obtain ⟨q, hq⟩ := exists_around lay h
  refine ⟨N, q, against (Basis.ofIdx (N : Int)), ?_⟩
  rw [compZ_before hv (by omega), ringZ_oneFault hv, if_neg (by omega), hexSum_oneFault hv, if_pos ⟨le_refl _, hq⟩, anti_against]
  decide

theorem felt_edge (h1 : 1 ≤ N) {e : Edge} (hne : e.left ≠ e.right) :
    ∃ j q P, par (oneFault j q P N) ((N : Int) - 1) e + par (oneFault j q P (N - 1)) ((N : Int) - 1) e ≠ 0 := by
  refine ⟨N, e.left, against (Basis.ofIdx ((N : Int) - 1)), ?_⟩
  simp only [par, oneFault, le_refl, true_and, if_true, hne.symm, if_false, show ¬ N ≤ N - 1 by omega, false_and, anti_zero_left, add_zero, anti_against]
  decide

theorem felt_first {e : Edge} (hne : e.left ≠ e.right) : ∃ j q P, par (oneFault j q P 0) 0 e ≠ 0 := by
  refine ⟨0, e.left, against (Basis.ofIdx 0), ?_⟩
  simp only [par, oneFault, le_refl, true_and, if_true, hne.symm, if_false, anti_zero_left, add_zero, anti_against]
  decide

end HoneycombLayout

/-- Every detector of the closed circuit reads the frames, and some single fault changes what it reads. -/
theorem allDets_felt (hv : lay.Valid) (ho : lay.ObsOk) (h1 : 1 ≤ N) {x : Nat × Pt × Finset Nat} (hx : x ∈ allDets lay N) :
    ∃ φ, lay.Reads N (x.1, x.2.1) x.2.2 φ ∧ ∃ j q P, φ (oneFault j q P) ≠ 0 := by
  rw [allDets, List.mem_append] at hx
  rcases hx with hx | hx
  · obtain ⟨k, hk, hx⟩ := List.mem_flatMap.1 hx
    obtain ⟨y, hy, rfl⟩ := List.mem_map.1 hx
    have hk := List.mem_range.1 hk
    rw [annDets, List.mem_append] at hy
    rcases hy with hy | hy
    · split_ifs at hy with h0
      · obtain ⟨e, he, rfl⟩ := List.mem_map.1 hy
        obtain ⟨rfl, hH⟩ := h0
        exact ⟨_, reads_first hv ho h1 hH he, felt_first (edge_left_ne_right hv (round_edges_subset_all he))⟩
      · simp at hy
    · split_ifs at hy with h0
      · obtain ⟨h, hh, rfl⟩ := List.mem_map.1 hy
        obtain ⟨hx, hc⟩ := (mem_round_hex_centers hv).1 hh
        refine ⟨_, reads_hex hv ho hk hh h0, felt_hex hv ?_ (by show (k : Int) % 3 = (hexColour h + 2) % 3; omega)⟩
        rcases Nat.eq_zero_or_pos k with rfl | h
        · rw [faceKnown] at h0
          split_ifs at h0 <;> simp at h0
        · exact h
      · simp at hy
  · obtain ⟨y, hy, rfl⟩ := List.mem_map.1 hx
    have hB := Honeycomb.obsAt_basis ho N
    rw [finDets] at hy
    split_ifs at hy with hs h2 h2 h3
    all_goals first | rw [if_pos hs] at hB | rw [if_neg hs] at hB
    all_goals simp only [List.append_nil, List.nil_append, List.mem_append, List.not_mem_nil, List.mem_map] at hy
    · rcases hy with ⟨e, he, rfl⟩ | ⟨h, hh, rfl⟩
      · exact ⟨_, reads_edge hv h1 hB he, felt_edge h1 (edge_left_ne_right hv (round_edges_subset_all he))⟩
      · obtain ⟨hx, hc⟩ := (mem_round_hex_centers hv).1 hh
        exact ⟨_, reads_last hv ho h1 hx (by rw [hB]; exact ofIdx_congr (by omega)) (by omega) (by omega) (by omega) (by rw [hc]; exact h2), felt_last hv (by omega)⟩
    · obtain ⟨e, he, rfl⟩ := hy
      exact ⟨_, reads_edge hv h1 hB he, felt_edge h1 (edge_left_ne_right hv (round_edges_subset_all he))⟩
    · rcases hy with ⟨h, hh, rfl⟩ | ⟨h, hh, rfl⟩
      · exact ⟨_, reads_half hv ho h1 hB hh h2, felt_half hv h⟩
      · obtain ⟨hx, hc⟩ := (mem_round_hex_centers hv).1 hh
        exact ⟨_, reads_last hv ho h1 hx (by rw [hB]; exact ofIdx_congr (by omega)) (by omega) (by omega) (by omega) (by rw [hc]; exact h3), felt_last hv (by omega)⟩
    · obtain ⟨h, hh, rfl⟩ := hy
      exact ⟨_, reads_half hv ho h1 hB hh h2, felt_half hv h⟩
    · obtain ⟨h, hh, rfl⟩ := hy
      obtain ⟨hx, hc⟩ := (mem_round_hex_centers hv).1 hh
      exact ⟨_, reads_last hv ho h1 hx (by rw [hB]; exact ofIdx_congr (by omega)) (by omega) (by omega) (by omega) (by rw [hc]; assumption), felt_last hv (by omega)⟩

/-- Every detector of the closed circuit is changed by some elementary fault. -/
theorem allDets_elem (hv : lay.Valid) (ho : lay.ObsOk) (h1 : 1 ≤ N) {x : Nat × Pt × Finset Nat} (hx : x ∈ allDets lay N) :
    ∃ φ, lay.Reads N (x.1, x.2.1) x.2.2 φ ∧ ∃ y, lay.Elem N y ∧ φ (oneFault y.1 y.2.1 y.2.2) ≠ 0 := by
  obtain ⟨φ, hφ, j, q, P, hne⟩ := allDets_felt hv ho h1 hx
  obtain ⟨hq, hj, -⟩ := hφ.hits _ _ _ hne
  refine ⟨φ, hφ, ?_⟩
  rw [(hφ.meter hv).parts hv hj] at hne
  by_contra hno
  push Not at hno
  refine hne (List.sum_eq_zero fun z hz => ?_)
  obtain ⟨y, hy, rfl⟩ := List.mem_map.1 hz
  exact hno y (parts_elem hj hq hy)

end Honeycomb
