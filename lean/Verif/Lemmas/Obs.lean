import Verif.Lemmas.Hex

/-! Logical observables. -/

namespace Honeycomb
open HoneycombLayout

/-! ### Pattern selection -/

theorem getElem?_pyRepeat {α : Type} (p : List α) (n : Int) {i : Nat} (hi : i < p.length * n.toNat) :
    (pyRepeat p n)[i]? = p[i % p.length]? := by
  unfold pyRepeat
  generalize n.toNat = m at *
  induction m generalizing i with
  | zero => simp at hi
  | succ m ih =>
    rw [List.replicate_succ, List.flatten_cons]
    by_cases h : i < p.length
    · rw [List.getElem?_append_left h, Nat.mod_eq_of_lt h]
    · have h' : p.length ≤ i := by omega
      rw [List.getElem?_append_right h', ih (by rw [Nat.mul_succ] at hi; omega)]
      congr 1
      conv_rhs => rw [← Nat.sub_add_cancel h', Nat.add_mod_right]

theorem length_pyRepeat {α : Type} (p : List α) (n : Int) : (pyRepeat p n).length = p.length * n.toNat := by
  simp [pyRepeat, List.length_flatten, mul_comm]

theorem mem_selectPattern {p : List (Option Basis)} {qs : List Pt} {q : Pt} :
    q ∈ selectPattern p qs ↔ ∃ (i : Nat) (b : Basis), p[i]? = some (some b) ∧ qs[i]? = some q := by
  simp only [selectPattern, List.mem_filterMap, Option.map_eq_some_iff, Prod.exists]
  constructor
  · rintro ⟨a, q', hm, b, rfl, rfl⟩
    obtain ⟨i, hi⟩ := List.mem_iff_getElem?.1 hm
    rw [List.getElem?_zip_eq_some] at hi
    exact ⟨i, b, hi.1, hi.2⟩
  · rintro ⟨i, b, h1, h2⟩
    refine ⟨some b, q, ?_, b, rfl, rfl⟩
    exact List.mem_iff_getElem?.2 ⟨i, List.getElem?_zip_eq_some.2 ⟨h1, h2⟩⟩

theorem selectPattern_sublist (p : List (Option Basis)) (qs : List Pt) : (selectPattern p qs).Sublist qs := by
  induction p generalizing qs with
  | nil => simp [selectPattern]
  | cons a p ih =>
    cases qs with
    | nil => simp [selectPattern]
    | cons q qs =>
      simp only [selectPattern, List.zip_cons_cons, List.filterMap_cons] at ih ⊢
      cases a with
      | none => exact List.Sublist.cons _ (ih qs)
      | some b => exact List.Sublist.cons_cons _ (ih qs)

/-! ### The qubits of the observables -/

theorem obs_v_qubits_eq {lay : HoneycombLayout} (hv : lay.Valid) :
    lay.obs_v_qubits = (List.range (6 * lay.tile_height).toNat).map fun j : Nat => (⟨2, 2 * (j : Int)⟩ : Pt) := by
  have hw := Valid.tw_pos hv
  have hh := Valid.th_pos hv
  apply sortedComplex_unique
  · refine (List.perm_ext_iff_of_nodup ((nodup_data_qubit_coords lay).filter _) ?_).2 ?_
    · refine List.Nodup.map ?_ List.nodup_range
      intro a b h
      simp only [Pt.mk.injEq] at h
      omega
    · intro q
      simp only [List.mem_filter, mem_data_qubit_coords hv, decide_eq_true_eq, List.mem_map, List.mem_range,
        DataT, OnT]
      constructor
      · rintro ⟨⟨⟨h1, h2, h3, h4⟩, h5, h6⟩, h7⟩
        exact ⟨(q.y / 2).toNat, by omega, by ext <;> simp only <;> omega⟩
      · rintro ⟨j, hj, rfl⟩
        simp only [and_true]
        omega
  · rw [List.pairwise_map]
    refine List.Pairwise.imp ?_ List.pairwise_lt_range
    intro a b hab
    simp [Pt.lexLe]
    omega

/-- The order in which the horizontal observable's qubits are listed. -/
def hOrder (i : Nat) : Pt := ⟨4 * ((i : Int) / 2) + 2, if i % 4 = 0 ∨ i % 4 = 3 then 2 else 0⟩

theorem obs_h_qubits_eq {lay : HoneycombLayout} (hv : lay.Valid) :
    lay.obs_h_qubits = (List.range (4 * lay.tile_width).toNat).map hOrder := by
  have hw := Valid.tw_pos hv
  have hh := Valid.th_pos hv
  have hperm : (lay.data_qubit_coords.filter fun q => decide (q.y = 0 ∨ q.y = 2)).Perm
      ((List.range (4 * lay.tile_width).toNat).map hOrder) := by
    refine (List.perm_ext_iff_of_nodup ((nodup_data_qubit_coords lay).filter _) ?_).2 ?_
    · refine List.Nodup.map ?_ List.nodup_range
      intro a b h
      simp only [hOrder, Pt.mk.injEq] at h
      obtain ⟨h1, h2⟩ := h
      split_ifs at h2 <;> omega
    · intro q
      simp only [List.mem_filter, mem_data_qubit_coords hv, decide_eq_true_eq, List.mem_map, List.mem_range,
        DataT, OnT, hOrder]
      constructor
      · rintro ⟨⟨⟨h1, h2, h3, h4⟩, h5, h6⟩, h7⟩
        by_cases hc : (q.x / 4) % 2 = 0
        · rcases h7 with h7 | h7
          · refine ⟨(2 * (q.x / 4) + 1).toNat, by omega, ?_⟩
            ext
            · simp only; omega
            · simp only; rw [if_neg (by omega)]; omega
          · refine ⟨(2 * (q.x / 4)).toNat, by omega, ?_⟩
            ext
            · simp only; omega
            · simp only; rw [if_pos (by omega)]; omega
        · rcases h7 with h7 | h7
          · refine ⟨(2 * (q.x / 4)).toNat, by omega, ?_⟩
            ext
            · simp only; omega
            · simp only; rw [if_neg (by omega)]; omega
          · refine ⟨(2 * (q.x / 4) + 1).toNat, by omega, ?_⟩
            ext
            · simp only; omega
            · simp only; rw [if_pos (by omega)]; omega
      · rintro ⟨j, hj, rfl⟩
        simp only
        split_ifs <;> omega
  have htot : ∀ a b : Pt, (obsHKeyLe a b || obsHKeyLe b a) = true := by
    intro a b
    simp only [obsHKeyLe, Bool.or_eq_true, decide_eq_true_eq, Bool.and_eq_true]
    omega
  have htrans : ∀ a b c : Pt, obsHKeyLe a b = true → obsHKeyLe b c = true → obsHKeyLe a c = true := by
    intro a b c
    simp only [obsHKeyLe, Bool.or_eq_true, decide_eq_true_eq, Bool.and_eq_true]
    omega
  refine List.Perm.eq_of_pairwise ?_ (List.pairwise_mergeSort htrans htot _) ?_
    ((List.mergeSort_perm _ _).trans hperm)
  · intro a b ha hb h1 h2
    have ha' := (List.mem_filter.1 (mem_sorted.1 ha)).2
    have hb' := (List.mem_filter.1 (hperm.mem_iff.2 hb)).2
    simp only [obsHKeyLe, Bool.or_eq_true, decide_eq_true_eq, Bool.and_eq_true] at h1 h2 ha' hb'
    ext <;> omega
  · rw [List.pairwise_map]
    refine List.Pairwise.imp ?_ List.pairwise_lt_range
    intro a b hab
    have : a % 4 = 0 ∨ a % 4 = 1 ∨ a % 4 = 2 ∨ a % 4 = 3 := by omega
    have : b % 4 = 0 ∨ b % 4 = 1 ∨ b % 4 = 2 ∨ b % 4 = 3 := by omega
    rcases ‹a % 4 = 0 ∨ _› with h | h | h | h <;> rcases ‹b % 4 = 0 ∨ _› with h' | h' | h' | h' <;>
      simp [obsHKeyLe, hOrder, h, h'] <;> omega

/-- The Pauli in position `i` of a pattern. -/
def rowPauli (p : List (Option Basis)) (i : Nat) : Pauli :=
  match p[i]? with
  | some (some b) => b.pauli
  | _ => 0

theorem obsV_closed {lay : HoneycombLayout} (hv : lay.Valid) (k : Int) {q : Pt} (hq : q ∈ lay.data_qubit_coords) :
    obsOp (lay.obs_v_before_sub_round k) q =
      if q.x = 2 then rowPauli (obsVPattern k) ((q.y / 2) % 3).toNat else 0 := by
  have hw := Valid.tw_pos hv
  have hh := Valid.th_pos hv
  have hlen : (obsVPattern k).length = 3 := by
    simp only [obsVPattern]; split_ifs <;> rfl
  obtain ⟨⟨h1, h2, h3, h4⟩, h5, h6⟩ := (mem_data_qubit_coords hv).1 hq
  have hmem : q ∈ (lay.obs_v_before_sub_round k).2 ↔
      q.x = 2 ∧ ∃ b, (obsVPattern k)[((q.y / 2) % 3).toNat]? = some (some b) := by
    simp only [obs_v_before_sub_round, mem_selectPattern, obs_v_qubits_eq hv]
    constructor
    · rintro ⟨i, b, ha, hb⟩
      rw [List.getElem?_map, Option.map_eq_some_iff] at hb
      obtain ⟨j, hj, hq'⟩ := hb
      have hj' := List.getElem?_eq_some_iff.1 hj
      obtain ⟨hlt, hij⟩ := hj'
      rw [List.getElem_range] at hij
      subst hij
      rw [List.length_range] at hlt
      rw [getElem?_pyRepeat _ _ (by rw [hlen]; omega), hlen] at ha
      refine ⟨by rw [← hq'], b, ?_⟩
      rw [← ha, ← hq']
      congr 1
      simp only
      omega
    · rintro ⟨hx, b, hb⟩
      refine ⟨(q.y / 2).toNat, b, ?_, ?_⟩
      · rw [getElem?_pyRepeat _ _ (by rw [hlen]; omega), hlen, ← hb]
        congr 1
        omega
      · rw [List.getElem?_map, Option.map_eq_some_iff]
        refine ⟨(q.y / 2).toNat, ?_, ?_⟩
        · rw [List.getElem?_range (by omega)]
        · ext <;> simp only <;> omega
  have hop : obsOp (lay.obs_v_before_sub_round k) q =
      if q ∈ (lay.obs_v_before_sub_round k).2 then (patternBasis (obsVPattern k)).pauli else 0 := rfl
  classical
  rw [hop, if_congr hmem rfl rfl]
  clear hop hmem
  by_cases hx : q.x = 2
  · simp only [hx, true_and, if_true]
    have h3 : (q.y / 2) % 3 = 0 ∨ (q.y / 2) % 3 = 1 ∨ (q.y / 2) % 3 = 2 := by omega
    clear hlen
    simp only [obsVPattern]
    split_ifs <;> rcases h3 with h3 | h3 | h3 <;> simp_all [rowPauli, patternBasis]
  · simp [hx]

theorem obsH_closed {lay : HoneycombLayout} (hv : lay.Valid) (k : Int) {q : Pt} (hq : q ∈ lay.data_qubit_coords) :
    obsOp (lay.obs_h_before_sub_round k) q =
      if q.y = 2 then rowPauli (obsHPattern k) 0 else if q.y = 0 then rowPauli (obsHPattern k) 1 else 0 := by
  have hw := Valid.tw_pos hv
  have hh := Valid.th_pos hv
  have hlen : (obsHPattern k).length = 4 := by
    simp only [obsHPattern]; split_ifs <;> rfl
  have hsym : (obsHPattern k)[3]? = (obsHPattern k)[0]? ∧ (obsHPattern k)[2]? = (obsHPattern k)[1]? := by
    simp only [obsHPattern]; split_ifs <;> exact ⟨rfl, rfl⟩
  obtain ⟨⟨h1, h2, h3, h4⟩, h5, h6⟩ := (mem_data_qubit_coords hv).1 hq
  have hmem : q ∈ (lay.obs_h_before_sub_round k).2 ↔
      (q.y = 2 ∧ ∃ b, (obsHPattern k)[0]? = some (some b)) ∨ (q.y = 0 ∧ ∃ b, (obsHPattern k)[1]? = some (some b)) := by
    simp only [obs_h_before_sub_round, mem_selectPattern, obs_h_qubits_eq hv]
    constructor
    · rintro ⟨i, b, ha, hb⟩
      rw [List.getElem?_map, Option.map_eq_some_iff] at hb
      obtain ⟨j, hj, hq'⟩ := hb
      have hj' := List.getElem?_eq_some_iff.1 hj
      obtain ⟨hlt, hij⟩ := hj'
      rw [List.getElem_range] at hij
      subst hij
      rw [List.length_range] at hlt
      rw [getElem?_pyRepeat _ _ (by rw [hlen]; omega), hlen] at ha
      rw [← hq']
      simp only [hOrder]
      have hi : i % 4 = 0 ∨ i % 4 = 1 ∨ i % 4 = 2 ∨ i % 4 = 3 := by omega
      rcases hi with hi | hi | hi | hi <;> rw [hi] at ha ⊢
      · left; exact ⟨by simp, b, ha⟩
      · right; exact ⟨by simp, b, ha⟩
      · right; exact ⟨by simp, b, by rw [← hsym.2]; exact ha⟩
      · left; exact ⟨by simp, b, by rw [← hsym.1]; exact ha⟩
    · have mk : ∀ i : Nat, i < (4 * lay.tile_width).toNat → hOrder i = q →
          ∀ b, (obsHPattern k)[i % 4]? = some (some b) →
          ∃ (i : Nat) (b : Basis), (pyRepeat (obsHPattern k) lay.tile_width)[i]? = some (some b) ∧
            (List.map hOrder (List.range (4 * lay.tile_width).toNat))[i]? = some q := by
        intro i hi hq' b hb
        refine ⟨i, b, ?_, ?_⟩
        · rw [getElem?_pyRepeat _ _ (by rw [hlen]; omega), hlen, hb]
        · rw [List.getElem?_map, List.getElem?_range hi, Option.map_some, hq']
      by_cases hc : (q.x / 4) % 2 = 0
      · rintro (⟨hy, b, hb⟩ | ⟨hy, b, hb⟩)
        · refine mk (2 * (q.x / 4)).toNat (by omega) ?_ b ?_
          · ext
            · simp only [hOrder]; omega
            · simp only [hOrder]; rw [if_pos (by omega)]; omega
          · rw [show (2 * (q.x / 4)).toNat % 4 = 0 by omega]; exact hb
        · refine mk (2 * (q.x / 4) + 1).toNat (by omega) ?_ b ?_
          · ext
            · simp only [hOrder]; omega
            · simp only [hOrder]; rw [if_neg (by omega)]; omega
          · rw [show (2 * (q.x / 4) + 1).toNat % 4 = 1 by omega]; exact hb
      · rintro (⟨hy, b, hb⟩ | ⟨hy, b, hb⟩)
        · refine mk (2 * (q.x / 4) + 1).toNat (by omega) ?_ b ?_
          · ext
            · simp only [hOrder]; omega
            · simp only [hOrder]; rw [if_pos (by omega)]; omega
          · rw [show (2 * (q.x / 4) + 1).toNat % 4 = 3 by omega, hsym.1]; exact hb
        · refine mk (2 * (q.x / 4)).toNat (by omega) ?_ b ?_
          · ext
            · simp only [hOrder]; omega
            · simp only [hOrder]; rw [if_neg (by omega)]; omega
          · rw [show (2 * (q.x / 4)).toNat % 4 = 2 by omega, hsym.2]; exact hb
  have hop : obsOp (lay.obs_h_before_sub_round k) q =
      if q ∈ (lay.obs_h_before_sub_round k).2 then (patternBasis (obsHPattern k)).pauli else 0 := rfl
  classical
  rw [hop, if_congr hmem rfl rfl]
  clear hop hmem hsym hlen
  by_cases hy2 : q.y = 2
  · simp only [hy2, true_and, if_true]
    simp only [obsHPattern]
    split_ifs <;> simp_all [rowPauli, patternBasis]
  · by_cases hy0 : q.y = 0
    · simp only [hy0, true_and, if_true]
      simp only [obsHPattern]
      split_ifs <;> simp_all [rowPauli, patternBasis]
    · simp [hy2, hy0]

theorem nodup_obs_v (lay : HoneycombLayout) (k : Int) : (lay.obs_v_before_sub_round k).2.Nodup := by
  refine (selectPattern_sublist _ _).nodup ?_
  simp only [obs_v_qubits, sortedComplex, nodup_sorted]
  exact (nodup_data_qubit_coords lay).filter _

theorem nodup_obs_h (lay : HoneycombLayout) (k : Int) : (lay.obs_h_before_sub_round k).2.Nodup := by
  refine (selectPattern_sublist _ _).nodup ?_
  simp only [obs_h_qubits, nodup_sorted]
  exact (nodup_data_qubit_coords lay).filter _

theorem obs_v_data {lay : HoneycombLayout} {k : Int} {q : Pt} (h : q ∈ (lay.obs_v_before_sub_round k).2) :
    q ∈ lay.data_qubit_coords := by
  have := (selectPattern_sublist _ _).subset h
  simp only [obs_v_qubits, sortedComplex, mem_sorted] at this
  exact (List.mem_filter.1 this).1

theorem obs_h_data {lay : HoneycombLayout} {k : Int} {q : Pt} (h : q ∈ (lay.obs_h_before_sub_round k).2) :
    q ∈ lay.data_qubit_coords := by
  have := (selectPattern_sublist _ _).subset h
  simp only [obs_h_qubits, mem_sorted] at this
  exact (List.mem_filter.1 this).1

/-! ### The other end of an edge -/

theorem edge_other_end {lay : HoneycombLayout} (hv : lay.Valid) {r : Int} {e : Edge} {q : Pt}
    (he : e ∈ lay.round_edges r) (ht : e.Touches q) :
    ∃ o, ((e.left = q ∧ e.right = o) ∨ (e.left = o ∧ e.right = q)) ∧
      (((q.y / 2 - r) % 3 = 0 ∧ o.y = q.y ∧ o.x ≠ q.x) ∨
       ((q.y / 2 - r) % 3 = 1 ∧ o.x = q.x ∧ o.y = (q.y + 2) % (12 * lay.tile_height)) ∨
       ((q.y / 2 - r) % 3 = 2 ∧ o.x = q.x ∧ o.y = (q.y - 2) % (12 * lay.tile_height))) := by
  obtain ⟨h, t, hx, hc, rfl⟩ := (mem_round_edges hv).1 he
  have hw := Valid.tw_pos hv
  have hh := Valid.th_pos hv
  generalize lay.tile_width = tw at *
  generalize lay.tile_height = th at *
  have main : ∀ d d' : Pt, d.y % 2 = 0 → shp tw th h d = q →
      (d' - d = ⟨4, 0⟩ ∧ (d.y / 2) % 3 = 0 ∨ d' - d = ⟨-4, 0⟩ ∧ (d.y / 2) % 3 = 0 ∨
       d' - d = ⟨0, 2⟩ ∧ (d.y / 2) % 3 = 1 ∨ d' - d = ⟨0, -2⟩ ∧ (d.y / 2) % 3 = 2) →
      (((q.y / 2 - r) % 3 = 0 ∧ (shp tw th h d').y = q.y ∧ (shp tw th h d').x ≠ q.x) ∨
       ((q.y / 2 - r) % 3 = 1 ∧ (shp tw th h d').x = q.x ∧ (shp tw th h d').y = (q.y + 2) % (12 * th)) ∨
       ((q.y / 2 - r) % 3 = 2 ∧ (shp tw th h d').x = q.x ∧ (shp tw th h d').y = (q.y - 2) % (12 * th))) := by
    intro d d' hd hq hcase
    have ho : OnT tw th q := by rw [← hq]; exact onT_shp hw hh _ _
    have e : shp tw th h d' = shp tw th q (d' - d) := by
      rw [← hq, shp_shp]
      congr 1
      ext <;> simp
    have hcol := hexColour_shp tw th hd hx.2.2.1
    rw [hq] at hcol
    simp only [hexColour] at hcol hc
    rw [e]
    obtain ⟨o1, o2, o3, o4⟩ := ho
    rcases hcase with ⟨hd', hm⟩ | ⟨hd', hm⟩ | ⟨hd', hm⟩ | ⟨hd', hm⟩ <;> rw [hd'] <;>
      simp only [shp, wrapT_x, wrapT_y, Pt.add_x, Pt.add_y, add_zero]
    · left
      refine ⟨by omega, Int.emod_eq_of_lt o3 o4, ?_⟩
      rcases emod_cases (a := q.x + 4) (m := 8 * tw) (by omega) (by omega) with ⟨_, _, h⟩ | ⟨_, h⟩ | ⟨_, h⟩ <;> omega
    · left
      refine ⟨by omega, Int.emod_eq_of_lt o3 o4, ?_⟩
      rcases emod_cases (a := q.x + -4) (m := 8 * tw) (by omega) (by omega) with ⟨_, _, h⟩ | ⟨_, h⟩ | ⟨_, h⟩ <;> omega
    · right; left
      exact ⟨by omega, Int.emod_eq_of_lt o1 o2, trivial⟩
    · right; right
      exact ⟨by omega, Int.emod_eq_of_lt o1 o2, rfl⟩
  rcases ht with ht | ht
  · exact ⟨_, Or.inl ⟨ht, rfl⟩, main _ _ (by cases t <;> decide) ht (by cases t <;> decide)⟩
  · exact ⟨_, Or.inr ⟨rfl, ht⟩, main _ _ (by cases t <;> decide) ht (by cases t <;> decide)⟩

theorem mem_obs_v_edges {lay : HoneycombLayout} {e : Edge} :
    e ∈ lay.obs_v_edges ↔ e ∈ lay.all_edges ∧ e.left.x = e.right.x ∧ e.right.x = 2 := by
  simp only [obs_v_edges, mem_sorted, List.mem_filter, decide_eq_true_eq]

theorem mem_obs_h_edges {lay : HoneycombLayout} {e : Edge} :
    e ∈ lay.obs_h_edges ↔ e ∈ lay.all_edges ∧ (e.left.y = 0 ∨ e.left.y = 2) ∧ (e.right.y = 0 ∨ e.right.y = 2) := by
  simp only [obs_h_edges, mem_sorted, List.mem_filter, decide_eq_true_eq]

/-- Whether the colour-`r` edge at a data qubit is on the vertical observable's path. -/
theorem obs_v_edge_at {lay : HoneycombLayout} (hv : lay.Valid) {r : Int} {e : Edge} {q : Pt}
    (he : e ∈ lay.round_edges r) (ht : e.Touches q) :
    e ∈ lay.obs_v_edges ↔ q.x = 2 ∧ (q.y / 2 - r) % 3 ≠ 0 := by
  rw [mem_obs_v_edges]
  obtain ⟨o, h1, h2⟩ := edge_other_end hv he ht
  have ha := round_edges_subset_all he
  simp only [ha, true_and]
  rcases h1 with ⟨a, b⟩ | ⟨a, b⟩ <;> rw [a, b] <;> rcases h2 with ⟨c, d, f⟩ | ⟨c, d, f⟩ | ⟨c, d, f⟩ <;> omega

theorem obs_h_edge_at {lay : HoneycombLayout} (hv : lay.Valid) {r : Int} {e : Edge} {q : Pt}
    (he : e ∈ lay.round_edges r) (ht : e.Touches q) :
    e ∈ lay.obs_h_edges ↔ (q.y = 0 ∧ r % 3 ≠ 1) ∨ (q.y = 2 ∧ r % 3 ≠ 0) := by
  rw [mem_obs_h_edges]
  obtain ⟨o, h1, h2⟩ := edge_other_end hv he ht
  have ha := round_edges_subset_all he
  have hh := Valid.th_pos hv
  have hq : DataT lay.tile_width lay.tile_height q := by
    have := edge_ends_data hv ha
    rw [mem_data_qubit_coords hv, mem_data_qubit_coords hv] at this
    rcases ht with rfl | rfl
    exacts [this.1, this.2]
  obtain ⟨⟨o1, o2, o3, o4⟩, _, q2⟩ := hq
  simp only [ha, true_and]
  have e1 := emod_cases (a := q.y + 2) (m := 12 * lay.tile_height) (by omega) (by omega)
  have e2 := emod_cases (a := q.y - 2) (m := 12 * lay.tile_height) (by omega) (by omega)
  rcases h1 with ⟨a, b⟩ | ⟨a, b⟩ <;> rw [a, b] <;> rcases h2 with ⟨c, d, f⟩ | ⟨c, d, f⟩ | ⟨c, d, f⟩
  · omega
  · rw [f]; omega
  · rw [f]; omega
  · omega
  · rw [f]; omega
  · rw [f]; omega

end Honeycomb
