import Verif.Lemmas.Edges
import Mathlib.Data.List.NodupEquivFin

/-! Data and measurement qubits, indices, counts: helper lemmas. -/

namespace Honeycomb
open HoneycombLayout

variable {tw th : Int}

theorem edgeT_inj {h h' : Pt} {t t' : ETy} (hx : HexT tw th h) (hx' : HexT tw th h')
    (e : edgeT tw th h t = edgeT tw th h' t') : h = h' ∧ t = t' := by
  have hc : hexColour h = hexColour h' ∧ t = t' := by
    have e2 : shp tw th h t.c = shp tw th h' t'.c := congrArg Edge.center e
    have e3 : shp tw th h t.l = shp tw th h' t'.l := congrArg Edge.left e
    obtain ⟨i, j, a1, a2⟩ := shp_spec tw th h t.c
    obtain ⟨i', j', b1, b2⟩ := shp_spec tw th h' t'.c
    obtain ⟨k, l, c1, c2⟩ := shp_spec tw th h t.l
    obtain ⟨k', l', d1, d2⟩ := shp_spec tw th h' t'.l
    rw [e2] at a1 a2
    rw [e3] at c1 c2
    rw [a1] at b1
    rw [a2] at b2
    rw [c1] at d1
    rw [c2] at d2
    obtain ⟨_, g1, g2, g3⟩ := hx
    obtain ⟨_, g1', g2', g3'⟩ := hx'
    simp only [hexColour]
    cases t <;> cases t' <;> simp only [ETy.c, ETy.l] at b1 b2 d1 d2 <;>
      first
      | (exfalso; omega)
      | (refine ⟨?_, rfl⟩; omega)
  exact edgeT_unique hx hx' hc.1 (Or.inl rfl) (by rw [← e]; exact Or.inl rfl)

theorem nodup_round_edges {lay : HoneycombLayout} (hv : lay.Valid) (r : Int) : (lay.round_edges r).Nodup := by
  simp only [round_edges, nodup_sorted]
  rw [List.nodup_flatMap]
  constructor
  · intro h hh
    have hx := ((mem_round_hex_centers hv).1 hh).1
    rw [hexToEdge_map hx]
    refine List.nodup_cons.2 ⟨?_, List.nodup_cons.2 ⟨?_, List.nodup_singleton _⟩⟩
    · simp only [List.mem_cons, List.not_mem_nil, or_false, not_or]
      exact ⟨fun e => by simpa using (edgeT_inj hx hx e).2, fun e => by simpa using (edgeT_inj hx hx e).2⟩
    · simp only [List.mem_cons, List.not_mem_nil, or_false]
      exact fun e => by simpa using (edgeT_inj hx hx e).2
  · refine List.Nodup.pairwise_of_forall_ne (nodup_round_hex_centers hv _) ?_
    intro h hh h' hh' hne
    have hx := ((mem_round_hex_centers hv).1 hh).1
    have hx' := ((mem_round_hex_centers hv).1 hh').1
    simp only [Function.onFun]
    rw [hexToEdge_map hx, hexToEdge_map hx']
    intro e he he'
    simp only [List.mem_cons, List.not_mem_nil, or_false] at he he'
    have : ∃ t t', edgeT lay.tile_width lay.tile_height h t = edgeT lay.tile_width lay.tile_height h' t' := by
      rcases he with rfl | rfl | rfl <;> rcases he' with h | h | h <;> exact ⟨_, _, h⟩
    obtain ⟨t, t', e⟩ := this
    exact hne (edgeT_inj hx hx' e).1

theorem mem_all_edges {lay : HoneycombLayout} (hv : lay.Valid) {e : Edge} :
    e ∈ lay.all_edges ↔ ∃ h t, HexT lay.tile_width lay.tile_height h ∧
      e = edgeT lay.tile_width lay.tile_height h t := by
  simp only [all_edges, List.mem_append, mem_round_edges hv]
  constructor
  · rintro ((⟨h, t, a, _, b⟩ | ⟨h, t, a, _, b⟩) | ⟨h, t, a, _, b⟩) <;> exact ⟨h, t, a, b⟩
  · rintro ⟨h, t, a, b⟩
    have : hexColour h = 0 ∨ hexColour h = 1 ∨ hexColour h = 2 := by simp only [hexColour]; omega
    rcases this with hc | hc | hc
    · exact Or.inl (Or.inl ⟨h, t, a, hc, b⟩)
    · exact Or.inl (Or.inr ⟨h, t, a, hc, b⟩)
    · exact Or.inr ⟨h, t, a, hc, b⟩

theorem mem_all_edges_iff_round {lay : HoneycombLayout} {e : Edge} :
    e ∈ lay.all_edges ↔ e ∈ lay.round_edges 0 ∨ e ∈ lay.round_edges 1 ∨ e ∈ lay.round_edges 2 := by
  simp only [all_edges, List.mem_append, or_assoc]

theorem round_edges_emod (lay : HoneycombLayout) (r : Int) : lay.round_edges (r % 3) = lay.round_edges r := by
  simp only [round_edges, Int.emod_emod]

theorem round_edges_congr (lay : HoneycombLayout) {r r' : Int} (h : r % 3 = r' % 3) :
    lay.round_edges r = lay.round_edges r' := by rw [← round_edges_emod, h, round_edges_emod]

theorem round_edges_subset_all {lay : HoneycombLayout} {r : Int} {e : Edge} (he : e ∈ lay.round_edges r) :
    e ∈ lay.all_edges := by
  rw [mem_all_edges_iff_round]
  have : r % 3 = 0 ∨ r % 3 = 1 ∨ r % 3 = 2 := by omega
  rw [← round_edges_emod] at he
  rcases this with h | h | h <;> rw [h] at he <;> simp [he]

/-- Edges of different colours are different. -/
theorem round_edges_disjoint {lay : HoneycombLayout} (hv : lay.Valid) {r r' : Int} {e : Edge}
    (he : e ∈ lay.round_edges r) (he' : e ∈ lay.round_edges r') : r % 3 = r' % 3 := by
  obtain ⟨h, t, hx, hc, rfl⟩ := (mem_round_edges hv).1 he
  obtain ⟨h', t', hx', hc', e⟩ := (mem_round_edges hv).1 he'
  rw [← hc, ← hc', (edgeT_inj hx hx' e).1]

theorem nodup_all_edges {lay : HoneycombLayout} (hv : lay.Valid) : lay.all_edges.Nodup := by
  rw [all_edges]
  refine List.Nodup.append (List.Nodup.append (nodup_round_edges hv 0) (nodup_round_edges hv 1) ?_)
    (nodup_round_edges hv 2) ?_
  · intro e h h'
    exact absurd (round_edges_disjoint hv h h') (by decide)
  · intro e h h'
    rcases List.mem_append.1 h with h | h
    · exact absurd (round_edges_disjoint hv h h') (by decide)
    · exact absurd (round_edges_disjoint hv h h') (by decide)

theorem edge_center_inj {lay : HoneycombLayout} (hv : lay.Valid) {e e' : Edge} (he : e ∈ lay.all_edges)
    (he' : e' ∈ lay.all_edges) (h : e.center = e'.center) : e = e' := by
  obtain ⟨h1, s1, hx1, rfl⟩ := (mem_all_edges hv).1 he
  obtain ⟨h2, s2, hx2, rfl⟩ := (mem_all_edges hv).1 he'
  exact edgeT_center_inj hx1 hx2 h

theorem mem_data_qubit_coords {lay : HoneycombLayout} (hv : lay.Valid) {q : Pt} :
    q ∈ lay.data_qubit_coords ↔ DataT lay.tile_width lay.tile_height q := by
  have hw := Valid.tw_pos hv
  have hh := Valid.th_pos hv
  simp only [data_qubit_coords, sortedComplex, mem_sorted, mem_pySet, List.mem_flatMap, List.mem_cons,
    List.not_mem_nil, or_false]
  constructor
  · rintro ⟨e, he, h⟩
    obtain ⟨h1, s1, hx1, rfl⟩ := (mem_all_edges hv).1 he
    rcases h with rfl | rfl
    · exact data_l hw hh hx1 s1
    · exact data_r hw hh hx1 s1
  · intro hq
    obtain ⟨h, t, hx, hc, ht⟩ := edgeT_exists hw hh hq 0
    refine ⟨_, (mem_all_edges hv).2 ⟨h, t, hx, rfl⟩, ?_⟩
    rcases ht with e | e
    · exact Or.inl e.symm
    · exact Or.inr e.symm

theorem nodup_data_qubit_coords (lay : HoneycombLayout) : lay.data_qubit_coords.Nodup := by
  simp only [data_qubit_coords, sortedComplex, nodup_sorted]
  exact nodup_pySet _

theorem mem_measure_qubit_coords {lay : HoneycombLayout} {q : Pt} :
    q ∈ lay.measure_qubit_coords ↔ ∃ e ∈ lay.all_edges, e.center = q := by
  simp only [measure_qubit_coords, sortedComplex, mem_sorted, mem_pySet, List.mem_map]

theorem nodup_measure_qubit_coords (lay : HoneycombLayout) : lay.measure_qubit_coords.Nodup := by
  simp only [measure_qubit_coords, sortedComplex, nodup_sorted]
  exact nodup_pySet _

theorem nodup_edge_centers {lay : HoneycombLayout} (hv : lay.Valid) : (lay.all_edges.map Edge.center).Nodup :=
  List.Nodup.map_on (fun _ ha _ hb h => edge_center_inj hv ha hb h) (nodup_all_edges hv)

/-- A data qubit is not a measurement qubit. -/
theorem center_not_data {lay : HoneycombLayout} (hv : lay.Valid) {e : Edge} (he : e ∈ lay.all_edges) :
    ¬ DataT lay.tile_width lay.tile_height e.center := by
  obtain ⟨h, t, hx, rfl⟩ := (mem_all_edges hv).1 he
  rintro ⟨_, d1, d2⟩
  obtain ⟨i, j, a1, a2⟩ := shp_spec lay.tile_width lay.tile_height h t.c
  simp only [edgeT] at d1 d2
  rw [a1] at d1
  rw [a2] at d2
  obtain ⟨_, g1, g2, g3⟩ := hx
  cases t <;> simp only [ETy.c] at d1 d2 <;> omega

/-! ### Sorted lists are their own sort -/

theorem lexLe_total (a b : Pt) : (a.lexLe b || b.lexLe a) = true := by
  simp only [Pt.lexLe, Bool.or_eq_true, decide_eq_true_eq, Bool.and_eq_true]
  omega

theorem lexLe_trans (a b c : Pt) (h1 : a.lexLe b = true) (h2 : b.lexLe c = true) : a.lexLe c = true := by
  simp only [Pt.lexLe, Bool.or_eq_true, decide_eq_true_eq, Bool.and_eq_true] at *
  omega

theorem lexLe_antisymm {a b : Pt} (h1 : a.lexLe b = true) (h2 : b.lexLe a = true) : a = b := by
  simp only [Pt.lexLe, Bool.or_eq_true, decide_eq_true_eq, Bool.and_eq_true] at *
  ext <;> omega

theorem sortedComplex_pairwise (l : List Pt) : (sortedComplex l).Pairwise (fun a b => a.lexLe b = true) :=
  List.pairwise_mergeSort lexLe_trans lexLe_total l

theorem sortedComplex_idem (l : List Pt) : sortedComplex (sortedComplex l) = sortedComplex l :=
  List.mergeSort_of_pairwise (sortedComplex_pairwise l)

theorem sortedComplex_perm (l : List Pt) : (sortedComplex l).Perm l := List.mergeSort_perm _ _

/-- A sorted list is determined by its members. -/
theorem sortedComplex_unique {l l' : List Pt} (hp : l.Perm l')
    (hs : l'.Pairwise (fun a b => a.lexLe b = true)) : sortedComplex l = l' :=
  List.Perm.eq_of_pairwise (fun _ _ _ _ h1 h2 => lexLe_antisymm h1 h2) (sortedComplex_pairwise l) hs
    ((sortedComplex_perm l).trans hp)

/-! ### Indices -/

/-- The order of `q2i`: data qubits, then measurement qubits. -/
def qubitOrder (lay : HoneycombLayout) : List Pt := lay.data_qubit_coords ++ lay.measure_qubit_coords

theorem nodup_qubitOrder {lay : HoneycombLayout} (hv : lay.Valid) : (qubitOrder lay).Nodup := by
  refine List.Nodup.append (nodup_data_qubit_coords lay) (nodup_measure_qubit_coords lay) ?_
  intro q h h'
  obtain ⟨e, he, rfl⟩ := mem_measure_qubit_coords.1 h'
  exact center_not_data hv he ((mem_data_qubit_coords hv).1 h)

theorem q2i_eq {lay : HoneycombLayout} (hv : lay.Valid) : lay.q2i = (qubitOrder lay).zipIdx := by
  have : lay.q2i = PyDict.ofItems (qubitOrder lay).zipIdx := by
    simp only [q2i, qubitOrder, data_qubit_coords, measure_qubit_coords, sortedComplex_idem]
  rw [this, PyDict.ofItems_of_nodup]
  rw [List.zipIdx_map_fst]
  exact nodup_qubitOrder hv

theorem q2i_get {lay : HoneycombLayout} (hv : lay.Valid) {q : Pt} {i : Nat} :
    lay.q2i.get? q = some i ↔ (qubitOrder lay)[i]? = some q := by
  rw [q2i_eq hv, PyDict.get?_eq_some_of_nodup]
  · rw [List.mk_mem_zipIdx_iff_getElem?]
  · rw [List.zipIdx_map_fst]; exact nodup_qubitOrder hv

theorem idx_spec {lay : HoneycombLayout} (hv : lay.Valid) {q : Pt} (hq : q ∈ qubitOrder lay) :
    (qubitOrder lay)[lay.idx q]? = some q := by
  obtain ⟨i, hi, e⟩ := List.mem_iff_getElem.1 hq
  have h : (qubitOrder lay)[i]? = some q := by rw [← e]; exact List.getElem?_eq_getElem hi
  have := (q2i_get hv).2 h
  rw [idx, this]
  exact h

theorem idx_getElem {lay : HoneycombLayout} (hv : lay.Valid) {i : Nat} {q : Pt}
    (h : (qubitOrder lay)[i]? = some q) : lay.idx q = i := by
  rw [idx, (q2i_get hv).2 h]; rfl

theorem idx_inj {lay : HoneycombLayout} (hv : lay.Valid) {p q : Pt} (hp : p ∈ qubitOrder lay)
    (hq : q ∈ qubitOrder lay) (h : lay.idx p = lay.idx q) : p = q := by
  have a := idx_spec hv hp
  have b := idx_spec hv hq
  rw [h, b] at a
  exact (Option.some.inj a).symm

theorem map_idx_qubitOrder {lay : HoneycombLayout} (hv : lay.Valid) :
    (qubitOrder lay).map lay.idx = List.range (qubitOrder lay).length := by
  apply List.ext_getElem
  · simp
  · intro i h1 h2
    simp only [List.getElem_map, List.getElem_range]
    apply idx_getElem hv
    simp only [List.length_map] at h1
    exact List.getElem?_eq_getElem h1

theorem data_qubit_indices_eq {lay : HoneycombLayout} (hv : lay.Valid) :
    lay.data_qubit_indices = List.range lay.data_qubit_coords.length := by
  have := congrArg (List.take lay.data_qubit_coords.length) (map_idx_qubitOrder hv)
  rw [← List.map_take, qubitOrder, List.take_left] at this
  rw [data_qubit_indices, this, List.take_range]
  simp

/-! ### Counts -/

theorem length_eq_of_mem_iff {α : Type} {l l' : List α} (h1 : l.Nodup) (h2 : l'.Nodup)
    (h : ∀ a, a ∈ l ↔ a ∈ l') : l.length = l'.length :=
  ((List.perm_ext_iff_of_nodup h1 h2).2 h).length_eq

/-- A grid of points. -/
def grid (nx ny : Nat) (f : Nat → Nat → Pt) : List Pt :=
  (List.range nx).flatMap fun i => (List.range ny).map fun j => f i j

theorem length_grid (nx ny : Nat) (f : Nat → Nat → Pt) : (grid nx ny f).length = nx * ny := by
  simp [grid, List.length_flatMap]

theorem mem_grid {nx ny : Nat} {f : Nat → Nat → Pt} {p : Pt} :
    p ∈ grid nx ny f ↔ ∃ i < nx, ∃ j < ny, f i j = p := by
  simp only [grid, List.mem_flatMap, List.mem_range, List.mem_map]

theorem nodup_grid {nx ny : Nat} {f : Nat → Nat → Pt}
    (hf : ∀ i < nx, ∀ j < ny, ∀ i' < nx, ∀ j' < ny, f i j = f i' j' → i = i' ∧ j = j') : (grid nx ny f).Nodup := by
  rw [grid, List.nodup_flatMap]
  constructor
  · intro i hi
    rw [List.mem_range] at hi
    refine List.Nodup.map_on ?_ List.nodup_range
    intro a ha b hb h
    rw [List.mem_range] at ha hb
    exact (hf i hi a ha i hi b hb h).2
  · refine List.Nodup.pairwise_of_forall_ne List.nodup_range ?_
    intro a ha b hb hne
    rw [List.mem_range] at ha hb
    intro p h1 h2
    simp only [List.mem_map, List.mem_range] at h1 h2
    obtain ⟨j, hj, rfl⟩ := h1
    obtain ⟨j', hj', e⟩ := h2
    exact hne (hf b hb j' hj' a ha j hj e).1.symm

theorem data_qubit_coords_eq {lay : HoneycombLayout} (hv : lay.Valid) :
    lay.data_qubit_coords = grid (2 * lay.tile_width).toNat (6 * lay.tile_height).toNat
      (fun i j => ⟨4 * i + 2, 2 * j⟩) := by
  have hw := Valid.tw_pos hv
  have hh := Valid.th_pos hv
  have hnd : (grid (2 * lay.tile_width).toNat (6 * lay.tile_height).toNat
      (fun i j => (⟨4 * i + 2, 2 * j⟩ : Pt))).Nodup := by
    apply nodup_grid
    intro i _ j _ i' _ j' _ h
    simp only [Pt.mk.injEq] at h
    omega
  have hmem : ∀ q, q ∈ lay.data_qubit_coords ↔ q ∈ grid (2 * lay.tile_width).toNat (6 * lay.tile_height).toNat
      (fun i j => (⟨4 * i + 2, 2 * j⟩ : Pt)) := by
    intro q
    rw [mem_data_qubit_coords hv, mem_grid]
    constructor
    · rintro ⟨⟨h1, h2, h3, h4⟩, h5, h6⟩
      refine ⟨(q.x / 4).toNat, by omega, (q.y / 2).toNat, by omega, ?_⟩
      ext <;> simp only <;> omega
    · rintro ⟨i, hi, j, hj, rfl⟩
      simp only [DataT, OnT]
      omega
  have hp := (List.perm_ext_iff_of_nodup (nodup_data_qubit_coords lay) hnd).2 hmem
  have : lay.data_qubit_coords = sortedComplex lay.data_qubit_coords := by
    rw [data_qubit_coords, sortedComplex_idem]
  rw [this]
  apply sortedComplex_unique hp
  rw [grid, List.pairwise_flatMap]
  constructor
  · intro i _
    rw [List.pairwise_map]
    refine List.Pairwise.imp ?_ List.pairwise_lt_range
    intro a b hab
    simp [Pt.lexLe]
    omega
  · refine List.Pairwise.imp ?_ List.pairwise_lt_range
    intro a b hab p hp q hq
    simp only [List.mem_map, List.mem_range] at hp hq
    obtain ⟨j, _, rfl⟩ := hp
    obtain ⟨j', _, rfl⟩ := hq
    simp only [Pt.lexLe, Bool.or_eq_true, decide_eq_true_eq, Bool.and_eq_true]
    omega

theorem length_data_qubit_coords {lay : HoneycombLayout} (hv : lay.Valid) :
    (lay.data_qubit_coords.length : Int) = lay.data_width * lay.data_height := by
  have hw := Valid.tw_pos hv
  have hh := Valid.th_pos hv
  rw [data_qubit_coords_eq hv, length_grid, Nat.cast_mul, Int.toNat_of_nonneg (by omega),
    Int.toNat_of_nonneg (by omega), Valid.dw hv, Valid.dh hv]

/-- The first row of colour `r` in a column of parity `c`. -/
def firstRow (r : Nat) (c : Nat) : Nat := (3 * (c % 2) + 4 * r) % 6

theorem length_round_hex_centers {lay : HoneycombLayout} (hv : lay.Valid) {r : Int} (h0 : 0 ≤ r) (h3 : r < 3) :
    ((lay.round_hex_centers r).length : Int) = 2 * lay.tile_width * lay.tile_height := by
  have hw := Valid.tw_pos hv
  have hh := Valid.th_pos hv
  have hnd : (grid (2 * lay.tile_width).toNat (lay.tile_height).toNat
      (fun i j => (⟨4 * i, 2 * (6 * j + firstRow r.toNat i)⟩ : Pt))).Nodup := by
    apply nodup_grid
    intro i _ j _ i' _ j' _ h
    simp only [Pt.mk.injEq, firstRow] at h
    obtain ⟨ha, hb⟩ := h
    have : i = i' := by omega
    subst this
    refine ⟨rfl, ?_⟩
    omega
  have hmem : ∀ q, q ∈ lay.round_hex_centers r ↔ q ∈ grid (2 * lay.tile_width).toNat (lay.tile_height).toNat
      (fun i j => (⟨4 * i, 2 * (6 * j + firstRow r.toNat i)⟩ : Pt)) := by
    intro q
    rw [mem_round_hex_centers hv, mem_grid]
    simp only [HexT, OnT, hexColour, firstRow]
    constructor
    · rintro ⟨⟨⟨h1, h2, h3, h4⟩, h5, h6, h7⟩, h8⟩
      refine ⟨(q.x / 4).toNat, by omega, (q.y / 12).toNat, by omega, ?_⟩
      ext
      · simp only; omega
      · simp only; push_cast; omega
    · rintro ⟨i, hi, j, hj, rfl⟩
      simp only
      push_cast
      refine ⟨⟨⟨?_, ?_, ?_, ?_⟩, ?_, ?_, ?_⟩, ?_⟩ <;> omega
  have hp := (List.perm_ext_iff_of_nodup (nodup_round_hex_centers hv r) hnd).2 hmem
  rw [hp.length_eq, length_grid, Nat.cast_mul, Int.toNat_of_nonneg (by omega), Int.toNat_of_nonneg (by omega)]

theorem length_round_edges {lay : HoneycombLayout} (hv : lay.Valid) (r : Int) :
    ((lay.round_edges r).length : Int) = 6 * lay.tile_width * lay.tile_height := by
  have h := length_round_hex_centers hv (r := r % 3) (by omega) (by omega)
  rw [round_edges, (List.mergeSort_perm _ _).length_eq, List.length_flatMap]
  simp only [EDGE_TYPES, List.map_cons, List.map_nil, List.length_cons, List.length_nil, List.map_const',
    List.sum_replicate_nat]
  push_cast
  rw [h]
  ring

theorem length_all_edges {lay : HoneycombLayout} (hv : lay.Valid) :
    (lay.all_edges.length : Int) = 18 * lay.tile_width * lay.tile_height := by
  simp only [all_edges, List.length_append]
  push_cast
  rw [length_round_edges hv, length_round_edges hv, length_round_edges hv]
  ring

theorem length_measure_qubit_coords {lay : HoneycombLayout} (hv : lay.Valid) :
    (lay.measure_qubit_coords.length : Int) = 18 * lay.tile_width * lay.tile_height := by
  rw [measure_qubit_coords, (sortedComplex_perm _).length_eq, pySet_of_nodup (nodup_edge_centers hv),
    List.length_map, length_all_edges hv]

end Honeycomb
