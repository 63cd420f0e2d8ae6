import Verif.Lemmas.Obs
import Mathlib.Tactic.LinearCombination

/-! Commutation and evolution of the logical observables. -/

namespace Honeycomb
open HoneycombLayout

/-- Row `0`, `1`, ... Pauli of the vertical observable before sub-round `k`, at a data qubit. -/
def vOp (k : Int) (q : Pt) : Pauli :=
  if q.x = 2 then rowPauli (obsVPattern k) ((q.y / 2) % 3).toNat else 0

/-- Pauli of the horizontal observable before sub-round `k`, at a data qubit. -/
def hOp (k : Int) (q : Pt) : Pauli :=
  if q.y = 2 then rowPauli (obsHPattern k) 0 else if q.y = 0 then rowPauli (obsHPattern k) 1 else 0

theorem obsVPattern_emod (k : Int) : obsVPattern (k % 6) = obsVPattern k := by
  simp only [obsVPattern, Int.emod_emod]

theorem obsHPattern_emod (k : Int) : obsHPattern (k % 6) = obsHPattern k := by
  simp only [obsHPattern, Int.emod_emod]

theorem obsVPattern_congr {k k' : Int} (h : k % 6 = k' % 6) : obsVPattern k = obsVPattern k' := by
  rw [← obsVPattern_emod k, h, obsVPattern_emod]

theorem obsHPattern_congr {k k' : Int} (h : k % 6 = k' % 6) : obsHPattern k = obsHPattern k' := by
  rw [← obsHPattern_emod k, h, obsHPattern_emod]

theorem six_cases (k : Int) : k % 6 = 0 ∨ k % 6 = 1 ∨ k % 6 = 2 ∨ k % 6 = 3 ∨ k % 6 = 4 ∨ k % 6 = 5 := by omega

/-- Everything the tables of patterns have to satisfy, checked for the six cases. -/
theorem v_row_facts : ∀ c ∈ ([0, 1, 2, 3, 4, 5] : List Int),
    (∀ r ∈ ([0, 1, 2] : List Int), (r - c) % 3 = 0 →
      anti (Basis.ofIdx c).pauli (rowPauli (obsVPattern c) r.toNat) = 0) ∧
    (∀ r ∈ ([0, 1, 2] : List Int), (r - c) % 3 = 1 →
      anti (Basis.ofIdx c).pauli (rowPauli (obsVPattern c) r.toNat) +
        anti (Basis.ofIdx c).pauli (rowPauli (obsVPattern c) ((r + 1) % 3).toNat) = 0) ∧
    (∀ r ∈ ([0, 1, 2] : List Int),
      rowPauli (obsVPattern c) r.toNat + (if (r - c) % 3 ≠ 0 then (Basis.ofIdx c).pauli else 0) =
        rowPauli (obsVPattern (c + 1)) r.toNat) := by
  decide

theorem h_row_facts : ∀ c ∈ ([0, 1, 2, 3, 4, 5] : List Int),
    (∀ y ∈ ([0, 2] : List Int),
      (((y = 0 ∧ c % 3 ≠ 1) ∨ (y = 2 ∧ c % 3 ≠ 0)) ∨
        anti (Basis.ofIdx c).pauli (hOp c ⟨2, y⟩) = 0)) ∧
    (c % 3 = 2 → anti (Basis.ofIdx c).pauli (hOp c ⟨2, 0⟩) + anti (Basis.ofIdx c).pauli (hOp c ⟨2, 2⟩) = 0) ∧
    (∀ y ∈ ([0, 2] : List Int),
      hOp c ⟨2, y⟩ + (if (y = 0 ∧ c % 3 ≠ 1) ∨ (y = 2 ∧ c % 3 ≠ 0) then (Basis.ofIdx c).pauli else 0) =
        hOp (c + 1) ⟨2, y⟩) := by
  decide

theorem three_mem (r : Int) : r % 3 ∈ ([0, 1, 2] : List Int) := by
  have : r % 3 = 0 ∨ r % 3 = 1 ∨ r % 3 = 2 := by omega
  rcases this with h | h | h <;> simp [h]

theorem six_mem (r : Int) : r % 6 ∈ ([0, 1, 2, 3, 4, 5] : List Int) := by
  rcases six_cases r with h | h | h | h | h | h <;> simp [h]

theorem vOp_congr {k k' : Int} (h : k % 6 = k' % 6) (q : Pt) : vOp k q = vOp k' q := by
  simp only [vOp, obsVPattern_congr h]

theorem hOp_congr {k k' : Int} (h : k % 6 = k' % 6) (q : Pt) : hOp k q = hOp k' q := by
  simp only [hOp, obsHPattern_congr h]

theorem vOp_row {k : Int} {q q' : Pt} (hx : q.x = q'.x) (hy : (q.y / 2) % 3 = (q'.y / 2) % 3) : vOp k q = vOp k q' := by
  simp only [vOp, hx, hy]

theorem hOp_row {k : Int} {q q' : Pt} (hy : q.y = q'.y) : hOp k q = hOp k q' := by
  simp only [hOp, hy]

/-! ### Commutation with the next measurements -/

theorem vOp_edge {lay : HoneycombLayout} (hv : lay.Valid) {k : Int} {e : Edge} (he : e ∈ lay.round_edges k) :
    anti (Basis.ofIdx k).pauli (vOp k e.left) + anti (Basis.ofIdx k).pauli (vOp k e.right) = 0 := by
  obtain ⟨f1, f2, _⟩ := v_row_facts (k % 6) (six_mem k)
  have hb : (Basis.ofIdx (k % 6)) = Basis.ofIdx k := ofIdx_congr (by omega)
  rw [hb, obsVPattern_emod] at f1 f2
  have hd := edge_ends_data hv (round_edges_subset_all he)
  rw [mem_data_qubit_coords hv, mem_data_qubit_coords hv] at hd
  have hh := Valid.th_pos hv
  -- horizontal end
  have hor : ∀ q : Pt, (q.y / 2 - k) % 3 = 0 → anti (Basis.ofIdx k).pauli (vOp k q) = 0 := by
    intro q hq
    simp only [vOp]
    split_ifs with hx
    · exact f1 _ (three_mem _) (by omega)
    · simp
  have ver : ∀ q q' : Pt, (q.y / 2 - k) % 3 = 1 → q'.x = q.x → (q'.y / 2) % 3 = (q.y / 2 + 1) % 3 →
      anti (Basis.ofIdx k).pauli (vOp k q) + anti (Basis.ofIdx k).pauli (vOp k q') = 0 := by
    intro q q' hq hx hy
    simp only [vOp, hx, hy]
    split_ifs with hx
    · have := f2 _ (three_mem (q.y / 2)) (by omega)
      rwa [show (q.y / 2 % 3 + 1) % 3 = (q.y / 2 + 1) % 3 by omega] at this
    · simp
  obtain ⟨o, h1, h2⟩ := edge_other_end hv he (Or.inl rfl)
  have ho : o = e.right := by
    rcases h1 with h1 | h1
    · exact h1.2.symm
    · exact absurd h1.2.symm (edge_left_ne_right hv (round_edges_subset_all he))
  subst ho
  obtain ⟨⟨⟨a1, a2, a3, a4⟩, a5, a6⟩, ⟨⟨b1, b2, b3, b4⟩, b5, b6⟩⟩ := hd
  rcases h2 with ⟨c, d, _⟩ | ⟨c, d, f⟩ | ⟨c, d, f⟩
  · rw [hor _ c, hor _ (by rw [d]; exact c), add_zero]
  · have e1 := emod_cases (a := e.left.y + 2) (m := 12 * lay.tile_height) (by omega) (by omega)
    exact ver _ _ c d (by rw [f]; omega)
  · have e1 := emod_cases (a := e.left.y - 2) (m := 12 * lay.tile_height) (by omega) (by omega)
    rw [add_comm]
    exact ver _ _ (by rw [f]; omega) d.symm (by rw [f]; omega)

theorem hOp_zero {k : Int} {q : Pt} (h : q.y ≠ 0 ∧ q.y ≠ 2) : hOp k q = 0 := by
  simp [hOp, h.1, h.2]

theorem hOp_edge {lay : HoneycombLayout} (hv : lay.Valid) {k : Int} {e : Edge} (he : e ∈ lay.round_edges k) :
    anti (Basis.ofIdx k).pauli (hOp k e.left) + anti (Basis.ofIdx k).pauli (hOp k e.right) = 0 := by
  obtain ⟨f1, f2, _⟩ := h_row_facts (k % 6) (six_mem k)
  have hb : (Basis.ofIdx (k % 6)) = Basis.ofIdx k := ofIdx_congr (by omega)
  have hc : ∀ q, hOp (k % 6) q = hOp k q := hOp_congr (by omega)
  rw [hb] at f1 f2
  simp only [hc] at f1 f2
  have hd := edge_ends_data hv (round_edges_subset_all he)
  rw [mem_data_qubit_coords hv, mem_data_qubit_coords hv] at hd
  have hh := Valid.th_pos hv
  obtain ⟨o, h1, h2⟩ := edge_other_end hv he (Or.inl rfl)
  have ho : o = e.right := by
    rcases h1 with h1 | h1
    · exact h1.2.symm
    · exact absurd h1.2.symm (edge_left_ne_right hv (round_edges_subset_all he))
  subst ho
  obtain ⟨⟨⟨a1, a2, a3, a4⟩, a5, a6⟩, ⟨⟨b1, b2, b3, b4⟩, b5, b6⟩⟩ := hd
  -- the end of an edge leaving the two rows commutes
  have one : ∀ q : Pt, ¬ ((q.y = 0 ∧ k % 3 ≠ 1) ∨ (q.y = 2 ∧ k % 3 ≠ 0)) →
      anti (Basis.ofIdx k).pauli (hOp k q) = 0 := by
    intro q hq
    by_cases h0 : q.y = 0
    · rw [hOp_row (q' := ⟨2, 0⟩) h0]
      rcases f1 0 (by simp) with h | h
      · exfalso; omega
      · exact h
    · by_cases h2 : q.y = 2
      · rw [hOp_row (q' := ⟨2, 2⟩) h2]
        rcases f1 2 (by simp) with h | h
        · exfalso; omega
        · exact h
      · rw [hOp_zero ⟨h0, h2⟩, anti_zero_right]
  have two : ∀ q q' : Pt, k % 3 = 2 → q.y = 0 → q'.y = 2 →
      anti (Basis.ofIdx k).pauli (hOp k q) + anti (Basis.ofIdx k).pauli (hOp k q') = 0 := by
    intro q q' hk h0 h2
    rw [hOp_row (q' := ⟨2, 0⟩) h0, hOp_row (q := q') (q' := ⟨2, 2⟩) h2]
    exact f2 (by omega)
  have e1 := emod_cases (a := e.left.y + 2) (m := 12 * lay.tile_height) (by omega) (by omega)
  have e2 := emod_cases (a := e.left.y - 2) (m := 12 * lay.tile_height) (by omega) (by omega)
  rcases h2 with ⟨c, d, _⟩ | ⟨c, d, f⟩ | ⟨c, d, f⟩
  · rw [hOp_row d, zmod2_add_self]
  · by_cases hl : e.left.y = 0 ∧ k % 3 = 2
    · exact two _ _ hl.2 hl.1 (by rw [f]; omega)
    · rw [one _ (by omega), one _ (by rw [f]; omega), add_zero]
  · by_cases hl : e.left.y = 2 ∧ k % 3 = 2
    · rw [add_comm]
      exact two _ _ hl.2 (by rw [f]; omega) hl.1
    · rw [one _ (by omega), one _ (by rw [f]; omega), add_zero]

theorem obs_commutes_edge {lay : HoneycombLayout} (hv : lay.Valid) {k : Int} {A : PauliOp} {e : Edge}
    (he : e ∈ lay.round_edges k)
    (h : anti (Basis.ofIdx k).pauli (A e.left) + anti (Basis.ofIdx k).pauli (A e.right) = 0) :
    Commute' lay A (edgeOp k e) := by
  have ha := round_edges_subset_all he
  obtain ⟨h1, h2⟩ := edge_ends_data hv ha
  unfold Commute'
  rw [antiOp_comm, edgeOp, anti_opOn (nodup_data_qubit_coords lay)]
  · simpa using h
  · simp [edge_left_ne_right hv ha]
  · intro q hq
    simp only [List.mem_cons, List.not_mem_nil, or_false] at hq
    rcases hq with rfl | rfl <;> assumption

/-! ### Evolution -/

/-- The product of selected edges of one round, at a qubit. -/
theorem edge_sum_at {lay : HoneycombLayout} (hv : lay.Valid) {k : Int} {l : List Edge} (hl : l.Nodup)
    (hs : ∀ e ∈ l, e ∈ lay.round_edges k) {q : Pt} {e : Edge} (he : e ∈ lay.round_edges k) (ht : e.Touches q) :
    (l.map fun e => edgeOp k e q).sum = if e ∈ l then (Basis.ofIdx k).pauli else 0 := by
  have hval : ∀ e' ∈ l, edgeOp k e' q = if e' = e then (Basis.ofIdx k).pauli else 0 := by
    intro e' he'
    by_cases h : e' = e
    · subst h
      rw [if_pos rfl]
      simp only [edgeOp, opOn]
      rw [if_pos]
      rcases ht with rfl | rfl <;> simp
    · rw [if_neg h]
      simp only [edgeOp, opOn]
      rw [if_neg]
      intro hq
      refine h (unique_edge hv (hs e' he') he ?_ ht)
      simp only [List.mem_cons, List.not_mem_nil, or_false] at hq
      rcases hq with rfl | rfl
      · exact Or.inl rfl
      · exact Or.inr rfl
  rw [List.map_congr_left hval]
  clear hval hs
  induction l with
  | nil => simp
  | cons a l ih =>
    rw [List.nodup_cons] at hl
    rw [List.map_cons, List.sum_cons, ih hl.2]
    by_cases h : a = e
    · subst h; simp [hl.1]
    · have : (e ∈ a :: l) ↔ e ∈ l := by simp [Ne.symm h]
      simp [h, this]

theorem edge_sum_off {lay : HoneycombLayout} (hv : lay.Valid) {k : Int} {l : List Edge}
    (hs : ∀ e ∈ l, e ∈ lay.round_edges k) {q : Pt} (hq : q ∉ lay.data_qubit_coords) :
    (l.map fun e => edgeOp k e q).sum = 0 := by
  have : ∀ e ∈ l, edgeOp k e q = 0 := by
    intro e he
    obtain ⟨h1, h2⟩ := edge_ends_data hv (round_edges_subset_all (hs e he))
    simp only [edgeOp, opOn]
    rw [if_neg]
    intro h
    simp only [List.mem_cons, List.not_mem_nil, or_false] at h
    rcases h with rfl | rfl <;> contradiction
  rw [List.map_congr_left this]
  simp

theorem v_evolve {lay : HoneycombLayout} (hv : lay.Valid) (k : Int) (q : Pt) :
    obsOp (lay.obs_v_before_sub_round k) q +
      ((lay.obs_v_edges.filter fun e => e ∈ lay.round_edges k).map fun e => edgeOp k e q).sum =
    obsOp (lay.obs_v_before_sub_round (k + 1)) q := by
  have hs : ∀ e ∈ lay.obs_v_edges.filter fun e => e ∈ lay.round_edges k, e ∈ lay.round_edges k := by
    intro e he
    simpa using (List.mem_filter.1 he).2
  by_cases hq : q ∈ lay.data_qubit_coords
  · obtain ⟨e, he, ht⟩ := exists_edge hv hq k
    have hn : (lay.obs_v_edges.filter fun e => e ∈ lay.round_edges k).Nodup := by
      refine List.Nodup.filter _ ?_
      simp only [obs_v_edges, nodup_sorted]
      exact (nodup_all_edges hv).filter _
    rw [edge_sum_at hv hn hs he ht, obsV_closed hv k hq, obsV_closed hv (k + 1) hq]
    have hm : (e ∈ lay.obs_v_edges.filter fun e => e ∈ lay.round_edges k) ↔ q.x = 2 ∧ (q.y / 2 - k) % 3 ≠ 0 := by
      rw [List.mem_filter, obs_v_edge_at hv he ht]
      simp [he]
    rw [if_congr hm rfl rfl]
    obtain ⟨_, _, f3⟩ := v_row_facts (k % 6) (six_mem k)
    have := f3 _ (three_mem (q.y / 2))
    rw [ofIdx_congr (show k % 6 % 3 = k % 3 by omega), obsVPattern_emod,
      obsVPattern_congr (show (k % 6 + 1) % 6 = (k + 1) % 6 by omega),
      show (q.y / 2 % 3 - k % 6) % 3 = (q.y / 2 - k) % 3 by omega] at this
    by_cases hx : q.x = 2
    · simpa [hx] using this
    · simp [hx]
  · rw [edge_sum_off hv hs hq]
    have h1 : ∀ k, obsOp (lay.obs_v_before_sub_round k) q = 0 := by
      intro k
      simp only [obsOp, opOn]
      exact if_neg fun h => hq (obs_v_data h)
    rw [h1, h1, add_zero]

theorem h_evolve {lay : HoneycombLayout} (hv : lay.Valid) (k : Int) (q : Pt) :
    obsOp (lay.obs_h_before_sub_round k) q +
      ((lay.obs_h_edges.filter fun e => e ∈ lay.round_edges k).map fun e => edgeOp k e q).sum =
    obsOp (lay.obs_h_before_sub_round (k + 1)) q := by
  have hs : ∀ e ∈ lay.obs_h_edges.filter fun e => e ∈ lay.round_edges k, e ∈ lay.round_edges k := by
    intro e he
    simpa using (List.mem_filter.1 he).2
  by_cases hq : q ∈ lay.data_qubit_coords
  · obtain ⟨e, he, ht⟩ := exists_edge hv hq k
    have hn : (lay.obs_h_edges.filter fun e => e ∈ lay.round_edges k).Nodup := by
      refine List.Nodup.filter _ ?_
      simp only [obs_h_edges, nodup_sorted]
      exact (nodup_all_edges hv).filter _
    rw [edge_sum_at hv hn hs he ht, obsH_closed hv k hq, obsH_closed hv (k + 1) hq]
    have hm : (e ∈ lay.obs_h_edges.filter fun e => e ∈ lay.round_edges k) ↔
        (q.y = 0 ∧ k % 3 ≠ 1) ∨ (q.y = 2 ∧ k % 3 ≠ 0) := by
      rw [List.mem_filter, obs_h_edge_at hv he ht]
      simp [he]
    rw [if_congr hm rfl rfl]
    obtain ⟨_, _, f3⟩ := h_row_facts (k % 6) (six_mem k)
    have key : ∀ y ∈ ([0, 2] : List Int), q.y = y → hOp k q +
        (if (q.y = 0 ∧ k % 3 ≠ 1) ∨ (q.y = 2 ∧ k % 3 ≠ 0) then (Basis.ofIdx k).pauli else 0) = hOp (k + 1) q := by
      intro y hy hqy
      have := f3 y hy
      rw [ofIdx_congr (show k % 6 % 3 = k % 3 by omega), hOp_congr (show k % 6 % 6 = k % 6 by omega),
        hOp_congr (show (k % 6 + 1) % 6 = (k + 1) % 6 by omega),
        show k % 6 % 3 = k % 3 by omega] at this
      rw [hOp_row (q := q) (q' := ⟨2, y⟩) hqy, hOp_row (q := q) (q' := ⟨2, y⟩) hqy, hqy]
      exact this
    by_cases h0 : q.y = 0
    · exact key 0 (by simp) h0
    · by_cases h2 : q.y = 2
      · exact key 2 (by simp) h2
      · simp [h0, h2]
  · rw [edge_sum_off hv hs hq]
    have h1 : ∀ k, obsOp (lay.obs_h_before_sub_round k) q = 0 := by
      intro k
      simp only [obsOp, opOn]
      exact if_neg fun h => hq (obs_h_data h)
    rw [h1, h1, add_zero]

/-! ### Commutation among observables and with the faces -/

theorem antiOp_congr {lay : HoneycombLayout} {A A' B B' : PauliOp}
    (hA : ∀ q ∈ lay.data_qubit_coords, A q = A' q) (hB : ∀ q ∈ lay.data_qubit_coords, B q = B' q) :
    antiOp lay A B = antiOp lay A' B' := by
  unfold antiOp
  refine sum_map_congr fun q hq => ?_
  rw [hA q hq, hB q hq]

theorem anti_h_v {lay : HoneycombLayout} (hv : lay.Valid) (k k' : Int) :
    antiOp lay (obsOp (lay.obs_h_before_sub_round k)) (obsOp (lay.obs_v_before_sub_round k')) =
      anti (rowPauli (obsHPattern k) 1) (rowPauli (obsVPattern k') 0) +
      anti (rowPauli (obsHPattern k) 0) (rowPauli (obsVPattern k') 1) := by
  have hw := Valid.tw_pos hv
  have hh := Valid.th_pos hv
  have hd : ∀ q ∈ ([⟨2, 0⟩, ⟨2, 2⟩] : List Pt), q ∈ lay.data_qubit_coords := by
    intro q hq
    rw [mem_data_qubit_coords hv]
    simp only [List.mem_cons, List.not_mem_nil, or_false] at hq
    rcases hq with rfl | rfl <;> simp [DataT, OnT] <;> omega
  have := sum_ite_mem (nodup_data_qubit_coords lay) (qs := ([⟨2, 0⟩, ⟨2, 2⟩] : List Pt)) (by decide) hd
    (fun q => anti (hOp k q) (vOp k' q))
  have e : antiOp lay (obsOp (lay.obs_h_before_sub_round k)) (obsOp (lay.obs_v_before_sub_round k')) =
      (lay.data_qubit_coords.map fun q => if q ∈ ([⟨2, 0⟩, ⟨2, 2⟩] : List Pt) then
        anti (hOp k q) (vOp k' q) else 0).sum := by
    unfold antiOp
    refine sum_map_congr fun q hq => ?_
    rw [obsH_closed hv k hq, obsV_closed hv k' hq]
    change anti (hOp k q) (vOp k' q) = _
    split_ifs with h
    · rfl
    · simp only [List.mem_cons, List.not_mem_nil, or_false, Pt.ext_iff, not_or] at h
      by_cases hx : q.x = 2
      · rw [hOp_zero (by omega), anti_zero_left]
      · simp [vOp, hx]
  rw [e, this]
  simp [hOp, vOp]

/-- A sum over the grid of data qubits of something that does not depend on the column vanishes. -/
theorem sum_data_rows {lay : HoneycombLayout} (hv : lay.Valid) {f : Pt → ZMod 2}
    (hf : ∀ q q' : Pt, q.y = q'.y → f q = f q') : (lay.data_qubit_coords.map f).sum = 0 := by
  rw [data_qubit_coords_eq hv]
  have hw := Valid.tw_pos hv
  obtain ⟨n, hn⟩ : ∃ n, (2 * lay.tile_width).toNat = 2 * n := ⟨lay.tile_width.toNat, by omega⟩
  rw [hn]
  generalize (6 * lay.tile_height).toNat = m
  have : ∀ N : Nat, ((grid N m (fun i j => (⟨4 * i + 2, 2 * j⟩ : Pt))).map f).sum =
      (N : ZMod 2) * ((List.range m).map fun j : Nat => f ⟨2, 2 * j⟩).sum := by
    intro N
    induction N with
    | zero => simp [grid]
    | succ N ih =>
      have e : (grid (N + 1) m (fun i j => (⟨4 * i + 2, 2 * j⟩ : Pt))) =
          grid N m (fun i j => (⟨4 * i + 2, 2 * j⟩ : Pt)) ++ (List.range m).map fun j : Nat => (⟨4 * (N : Int) + 2, 2 * j⟩ : Pt) := by
        simp [grid, List.range_succ, List.flatMap_append]
      rw [e, List.map_append, List.sum_append, ih, List.map_map]
      have : ((List.range m).map (f ∘ fun j : Nat => (⟨4 * (N : Int) + 2, 2 * j⟩ : Pt))).sum =
          ((List.range m).map fun j : Nat => f ⟨2, 2 * j⟩).sum :=
        sum_map_congr fun j _ => hf _ _ rfl
      rw [this]
      push_cast
      ring
  rw [this]
  have h2 : ((2 * n : Nat) : ZMod 2) = 0 := by
    push_cast
    rw [show (2 : ZMod 2) = 0 from rfl, zero_mul]
  rw [h2, zero_mul]

theorem anti_h_h {lay : HoneycombLayout} (hv : lay.Valid) (k k' : Int) :
    antiOp lay (obsOp (lay.obs_h_before_sub_round k)) (obsOp (lay.obs_h_before_sub_round k')) = 0 := by
  rw [antiOp_congr (A' := hOp k) (B' := hOp k') (fun q hq => obsH_closed hv k hq) (fun q hq => obsH_closed hv k' hq)]
  exact sum_data_rows hv fun q q' h => by rw [hOp_row h, hOp_row h]

theorem sum_range_six {f : Nat → ZMod 2} (hf : ∀ j, f (j + 3) = f j) (n : Nat) :
    ((List.range (6 * n)).map f).sum = 0 := by
  induction n with
  | zero => simp
  | succ n ih =>
    have h6 : ∀ j, f (6 * n + j + 3) = f (6 * n + j) := fun j => hf _
    rw [show 6 * (n + 1) = 6 * n + 1 + 1 + 1 + 1 + 1 + 1 by ring]
    simp only [List.range_succ, List.map_append, List.sum_append, ih, List.map_cons, List.map_nil, List.sum_cons,
      List.sum_nil]
    have a := hf (6 * n)
    have b := hf (6 * n + 1)
    have c := hf (6 * n + 1 + 1)
    rw [show 6 * n + 1 + 1 + 1 = 6 * n + 3 from rfl, show 6 * n + 3 + 1 = 6 * n + 1 + 3 by ring,
      show 6 * n + 1 + 3 + 1 = 6 * n + 1 + 1 + 3 by ring, a, b, c]
    generalize f (6 * n) = a
    generalize f (6 * n + 1) = b
    rw [show 6 * n + 1 + 1 = 6 * n + 2 from rfl]
    generalize f (6 * n + 2) = c
    revert a b c
    decide

theorem anti_v_v {lay : HoneycombLayout} (hv : lay.Valid) (k k' : Int) :
    antiOp lay (obsOp (lay.obs_v_before_sub_round k)) (obsOp (lay.obs_v_before_sub_round k')) = 0 := by
  have hw := Valid.tw_pos hv
  have hh := Valid.th_pos hv
  rw [antiOp_congr (A' := vOp k) (B' := vOp k') (fun q hq => obsV_closed hv k hq) (fun q hq => obsV_closed hv k' hq)]
  have e : antiOp lay (vOp k) (vOp k') =
      (lay.data_qubit_coords.map fun q => if q ∈ lay.obs_v_qubits then anti (vOp k q) (vOp k' q) else 0).sum := by
    unfold antiOp
    refine sum_map_congr fun q hq => ?_
    split_ifs with h
    · rfl
    · have : ¬ q.x = 2 := by
        intro hx
        apply h
        simp only [obs_v_qubits, sortedComplex, mem_sorted, List.mem_filter]
        exact ⟨hq, by simpa using hx⟩
      simp [vOp, this]
  have hd : ∀ q ∈ lay.obs_v_qubits, q ∈ lay.data_qubit_coords := by
    intro q hq
    simp only [obs_v_qubits, sortedComplex, mem_sorted, List.mem_filter] at hq
    exact hq.1
  have hn : lay.obs_v_qubits.Nodup := by
    simp only [obs_v_qubits, sortedComplex, nodup_sorted]
    exact (nodup_data_qubit_coords lay).filter _
  rw [e, sum_ite_mem (nodup_data_qubit_coords lay) hn hd, obs_v_qubits_eq hv, List.map_map,
    show (6 * lay.tile_height).toNat = 6 * lay.tile_height.toNat by omega]
  apply sum_range_six
  intro j
  simp only [Function.comp]
  rw [vOp_row (k := k) (q := ⟨2, 2 * ((j + 3 : Nat) : Int)⟩) (q' := ⟨2, 2 * (j : Int)⟩) rfl (by push_cast; omega),
    vOp_row (k := k') (q := ⟨2, 2 * ((j + 3 : Nat) : Int)⟩) (q' := ⟨2, 2 * (j : Int)⟩) rfl (by push_cast; omega)]

theorem hexOp_anti {lay : HoneycombLayout} (hv : lay.Valid) {h : Pt} (hx : HexT lay.tile_width lay.tile_height h)
    (B : PauliOp) : antiOp lay (hexOp lay h) B =
      (hexOffsets.map fun d => anti (Basis.ofIdx (hexColour h)).pauli
        (B (shp lay.tile_width lay.tile_height h d))).sum := by
  unfold hexOp
  rw [anti_opOn (nodup_data_qubit_coords lay) (nodup_qubits_around_hex hv h) fun q hq => qubits_around_hex_data hv hx hq]
  have := (qubits_around_hex_perm lay h).map fun q => anti (Basis.ofIdx (hexColour h)).pauli (B q)
  rw [this.sum_eq, List.map_map]
  rfl

theorem hex_obs_h {lay : HoneycombLayout} (hv : lay.Valid) {h : Pt} (hx : HexT lay.tile_width lay.tile_height h)
    (k : Int) : antiOp lay (hexOp lay h) (obsOp (lay.obs_h_before_sub_round k)) = 0 := by
  rw [antiOp_congr (A' := hexOp lay h) (B' := hOp k) (fun q _ => rfl) (fun q hq => obsH_closed hv k hq), hexOp_anti hv hx]
  have e : ∀ d d' : Pt, d.y = d'.y → hOp k (shp lay.tile_width lay.tile_height h d) =
      hOp k (shp lay.tile_width lay.tile_height h d') := by
    intro d d' hd
    refine hOp_row ?_
    simp [shp, hd]
  have e1 := e ⟨2, -2⟩ ⟨-2, -2⟩ rfl
  have e2 := e ⟨2, 2⟩ ⟨-2, 2⟩ rfl
  have e3 := e ⟨2, 0⟩ ⟨-2, 0⟩ rfl
  simp only [hexOffsets, List.map_cons, List.map_nil, List.sum_cons, List.sum_nil]
  rw [e1, e2, e3]
  generalize anti _ _ = a
  generalize anti _ _ = b
  generalize anti _ _ = c
  revert a b c
  decide

theorem v_row_sum : ∀ c ∈ ([0, 1, 2, 3, 4, 5] : List Int), ∀ p ∈ ([.X, .Y, .Z] : List Basis),
    anti p.pauli (rowPauli (obsVPattern c) 0) + anti p.pauli (rowPauli (obsVPattern c) 1) +
      anti p.pauli (rowPauli (obsVPattern c) 2) = 0 := by decide

theorem hex_obs_v {lay : HoneycombLayout} (hv : lay.Valid) {h : Pt} (hx : HexT lay.tile_width lay.tile_height h)
    (k : Int) : antiOp lay (hexOp lay h) (obsOp (lay.obs_v_before_sub_round k)) = 0 := by
  rw [antiOp_congr (A' := hexOp lay h) (B' := vOp k) (fun q _ => rfl) (fun q hq => obsV_closed hv k hq), hexOp_anti hv hx]
  set P := (Basis.ofIdx (hexColour h)).pauli with hP
  have hsum : anti P (rowPauli (obsVPattern k) 0) + anti P (rowPauli (obsVPattern k) 1) +
      anti P (rowPauli (obsVPattern k) 2) = 0 := by
    have := v_row_sum (k % 6) (six_mem k) (Basis.ofIdx (hexColour h)) (by cases Basis.ofIdx (hexColour h) <;> simp)
    rwa [obsVPattern_emod] at this
  have side : ∀ s : Int, anti P (vOp k (shp lay.tile_width lay.tile_height h ⟨s, -2⟩)) +
      anti P (vOp k (shp lay.tile_width lay.tile_height h ⟨s, 0⟩)) +
      anti P (vOp k (shp lay.tile_width lay.tile_height h ⟨s, 2⟩)) = 0 := by
    intro s
    have hxs : ∀ d : Int, (shp lay.tile_width lay.tile_height h ⟨s, d⟩).x = (h.x + s) % (8 * lay.tile_width) := by
      intro d; simp [shp]
    have hy : ∀ d : Int, d % 2 = 0 → (shp lay.tile_width lay.tile_height h ⟨s, d⟩).y / 2 % 3 = (h.y / 2 + d / 2) % 3 :=
      fun d hd => hexColour_shp _ _ (d := ⟨s, d⟩) hd hx.2.2.1
    simp only [vOp, hxs]
    split_ifs
    · rw [hy _ (by decide), hy _ (by decide), hy _ (by decide)]
      have : (h.y / 2) % 3 = 0 ∨ (h.y / 2) % 3 = 1 ∨ (h.y / 2) % 3 = 2 := by omega
      rcases this with h3 | h3 | h3
      · rw [show (h.y / 2 + -2 / 2) % 3 = 2 by omega, show (h.y / 2 + 0 / 2) % 3 = 0 by omega,
          show (h.y / 2 + 2 / 2) % 3 = 1 by omega]
        show anti P (rowPauli (obsVPattern k) 2) + anti P (rowPauli (obsVPattern k) 0) + anti P (rowPauli (obsVPattern k) 1) = 0
        linear_combination hsum
      · rw [show (h.y / 2 + -2 / 2) % 3 = 0 by omega, show (h.y / 2 + 0 / 2) % 3 = 1 by omega,
          show (h.y / 2 + 2 / 2) % 3 = 2 by omega]
        exact hsum
      · rw [show (h.y / 2 + -2 / 2) % 3 = 1 by omega, show (h.y / 2 + 0 / 2) % 3 = 2 by omega,
          show (h.y / 2 + 2 / 2) % 3 = 0 by omega]
        show anti P (rowPauli (obsVPattern k) 1) + anti P (rowPauli (obsVPattern k) 2) + anti P (rowPauli (obsVPattern k) 0) = 0
        linear_combination hsum
    · simp
  have s1 := side 2
  have s2 := side (-2)
  simp only [hexOffsets, List.map_cons, List.map_nil, List.sum_cons, List.sum_nil]
  linear_combination s1 + s2

end Honeycomb
