import Verif.Lemmas.Faces
import Verif.Lemmas.ObsAlg

/-!
# Layout properties: C01 - C11 and C62

Statements use only the layout API (`Verif/Model/Layout.lean`) and the specifications in
`Verif/Spec/Layout.lean` and `Verif/Spec/Pauli.lean`. `Pt` holds doubled coordinates.
-/

namespace Honeycomb
open HoneycombLayout

/-- A non-trivial layout: 3 tiles wide, 2 tiles high. -/
def exampleLayout : HoneycombLayout := ⟨6, 12, 7, "SD6", "V", 1 / 1000⟩

/-- The hypothesis `Valid` of this file is met by a concrete layout. -/
theorem exampleLayout_valid : exampleLayout.Valid := ⟨by decide, by decide, by decide, by decide⟩

/-! ## C01 -/

/-- C01: the constructor raises NotImplementedError exactly for odd widths and heights that are not a
multiple of 6, and otherwise returns the layout with the given fields. -/
theorem c01_constructor (w h n : Int) (style obs : String) (noise : Rat) :
    (HoneycombLayout.make w h n style obs noise = .error .notImplemented ↔ w % 2 ≠ 0 ∨ h % 6 ≠ 0) ∧
    (∀ lay, HoneycombLayout.make w h n style obs noise = .ok lay ↔
      (w % 2 = 0 ∧ h % 6 = 0 ∧ lay = ⟨w, h, n, style, obs, noise⟩)) ∧
    (∀ e, HoneycombLayout.make w h n style obs noise = .error e → e = .notImplemented) := by
  unfold HoneycombLayout.make
  by_cases h1 : w % 2 = 0 <;> by_cases h2 : h % 6 = 0 <;> simp [h1, h2, eq_comm]

/-- C01: an accepted layout is made of whole tiles, and the coordinate period is `2 * data_width` by
`data_height`. -/
theorem c01_tiles (w h n : Int) (style obs : String) (noise : Rat) (lay : HoneycombLayout)
    (hok : HoneycombLayout.make w h n style obs noise = .ok lay) :
    2 * lay.tile_width = w ∧ 6 * lay.tile_height = h ∧ lay.coord_width = 2 * w ∧ lay.coord_height = h := by
  obtain ⟨h1, h2, rfl⟩ := ((c01_constructor w h n style obs noise).2.1 lay).1 hok
  simp only [tile_width, tile_height, coord_width, coord_height]
  omega

example : HoneycombLayout.make 6 12 7 "SD6" "V" (1 / 1000) = .ok exampleLayout := rfl
example : HoneycombLayout.make 6 8 7 "SD6" "V" (1 / 1000) = .error .notImplemented := rfl

/-! ## C02 -/

/-- C02: `wrap` picks the one representative of a point in the fundamental domain of the torus. -/
theorem c02_wrap (lay : HoneycombLayout) (hv : lay.Valid) (p : Pt) :
    OnTorus lay (lay.wrap p) ∧ SamePoint lay (lay.wrap p) p ∧ lay.wrap (lay.wrap p) = lay.wrap p ∧
    (∀ q, OnTorus lay q → SamePoint lay q p → q = lay.wrap p) := by
  have hw := Valid.tw_pos hv
  have hh := Valid.th_pos hv
  have h1 := onT_wrapT hw hh p
  refine ⟨?_, ?_, ?_, ?_⟩
  · rw [onTorus_iff hv, wrap_eq]; exact h1
  · rw [wrap_eq, SamePoint, Valid.dw hv, Valid.dh hv]
    simp only [wrapT_x, wrapT_y]
    constructor
    · rw [show 4 * (2 * lay.tile_width) = 8 * lay.tile_width by ring, Int.emod_sub_emod, sub_self, Int.zero_emod]
    · rw [show 2 * (6 * lay.tile_height) = 12 * lay.tile_height by ring, Int.emod_sub_emod, sub_self, Int.zero_emod]
  · rw [wrap_eq, wrap_eq, wrapT_of_onT h1]
  · intro q hq hs
    rw [onTorus_iff hv] at hq
    obtain ⟨a, b⟩ := hs
    rw [Valid.dw hv, show 4 * (2 * lay.tile_width) = 8 * lay.tile_width by ring,
      Int.emod_eq_emod_iff_emod_sub_eq_zero.symm] at a
    rw [Valid.dh hv, show 2 * (6 * lay.tile_height) = 12 * lay.tile_height by ring,
      Int.emod_eq_emod_iff_emod_sub_eq_zero.symm] at b
    rw [wrap_eq, ← wrapT_of_onT hq]
    ext
    · simpa using a
    · simpa using b

/-- C02: two points have the same wrapped value exactly when they are the same point of the torus. -/
theorem c02_wrap_eq_iff (lay : HoneycombLayout) (hv : lay.Valid) (p q : Pt) :
    lay.wrap p = lay.wrap q ↔ SamePoint lay p q := by
  rw [wrap_eq, wrap_eq, SamePoint, Pt.ext_iff, wrapT_x, wrapT_x, wrapT_y, wrapT_y, Valid.dw hv, Valid.dh hv,
    Int.emod_eq_emod_iff_emod_sub_eq_zero, Int.emod_eq_emod_iff_emod_sub_eq_zero,
    show 4 * (2 * lay.tile_width) = 8 * lay.tile_width by ring,
    show 2 * (6 * lay.tile_height) = 12 * lay.tile_height by ring]

example : exampleLayout.wrap ⟨-2, 25⟩ = ⟨22, 1⟩ := by decide

/-! ## C03 -/

/-- C03: category `r` lists exactly the hexagon centers of colour `r`, each once; the three lists are
disjoint and each has `data_width * data_height / 6` entries. -/
theorem c03_hexes (lay : HoneycombLayout) (hv : lay.Valid) :
    (∀ r p, p ∈ lay.round_hex_centers r ↔ IsHexCenter lay p ∧ hexColour p = r) ∧
    (∀ r, (lay.round_hex_centers r).Nodup) ∧
    (∀ r s, r ≠ s → List.Disjoint (lay.round_hex_centers r) (lay.round_hex_centers s)) ∧
    (∀ r, 0 ≤ r → r < 3 → 6 * ((lay.round_hex_centers r).length : Int) = lay.data_width * lay.data_height) ∧
    (∀ r, (lay.roundHexCentersChecked r = .ok (lay.round_hex_centers r) ↔ 0 ≤ r ∧ r < 3)) := by
  refine ⟨fun r p => ?_, nodup_round_hex_centers hv, fun r s hrs p hp hq => ?_, fun r h0 h3 => ?_, fun r => ?_⟩
  · rw [mem_round_hex_centers hv, isHex_iff hv]
  · rw [mem_round_hex_centers hv] at hp hq
    exact hrs (hp.2.symm.trans hq.2)
  · rw [length_round_hex_centers hv h0 h3, Valid.dw hv, Valid.dh hv]
    ring
  · unfold roundHexCentersChecked
    split_ifs with h <;> simp [h]

example : IsHexCenter exampleLayout ⟨4, 2⟩ ∧ hexColour ⟨4, 2⟩ = 1 := by decide

/-! ## C04 -/

/-- C04: in every sub-round every data qubit is an end of exactly one measured edge, and every measured edge
joins two different data qubits. -/
theorem c04_matching (lay : HoneycombLayout) (hv : lay.Valid) (sub_round : Int) :
    (∀ q, IsDataQubit lay q → ∃! e, e ∈ lay.round_edges sub_round ∧ e.Touches q) ∧
    (∀ e ∈ lay.round_edges sub_round, IsDataQubit lay e.left ∧ IsDataQubit lay e.right ∧ e.left ≠ e.right) ∧
    (lay.round_edges sub_round).Nodup := by
  refine ⟨fun q hq => ?_, fun e he => ?_, nodup_round_edges hv _⟩
  · rw [isData_iff hv, ← mem_data_qubit_coords hv] at hq
    obtain ⟨e, he, ht⟩ := exists_edge hv hq sub_round
    exact ⟨e, ⟨he, ht⟩, fun e' he' => unique_edge hv he'.1 he he'.2 ht⟩
  · have ha := round_edges_subset_all he
    have := edge_ends_data hv ha
    rw [isData_iff hv, isData_iff hv, ← mem_data_qubit_coords hv, ← mem_data_qubit_coords hv]
    exact ⟨this.1, this.2, edge_left_ne_right hv ha⟩

example : IsDataQubit exampleLayout ⟨22, 18⟩ := by decide

/-! ## C05 -/

/-- C05: the three rounds' edges form a simple, 3-regular, bipartite edge set with distinct measurement
positions. -/
theorem c05_edges (lay : HoneycombLayout) (hv : lay.Valid) :
    lay.all_edges.Nodup ∧
    (lay.all_edges.map Edge.center).Nodup ∧
    (∀ r, 2 * ((lay.round_edges r).length : Int) = lay.data_width * lay.data_height) ∧
    (∀ e, e ∈ lay.all_edges ↔ ∃ r, e ∈ lay.round_edges r) ∧
    (∀ e r s, e ∈ lay.round_edges r → e ∈ lay.round_edges s → r % 3 = s % 3) ∧
    (∀ q, IsDataQubit lay q → (lay.all_edges.filter fun e => e.Touches q).length = 3) ∧
    (∀ e ∈ lay.all_edges, (e.left.x / 4 + e.left.y / 2) % 2 = 0 ∧ (e.right.x / 4 + e.right.y / 2) % 2 = 1) := by
  refine ⟨nodup_all_edges hv, nodup_edge_centers hv, fun r => ?_, fun e => ⟨fun he => ?_, fun ⟨r, he⟩ => ?_⟩,
    fun e r s he he' => round_edges_disjoint hv he he', fun q hq => ?_, fun e he => ?_⟩
  · rw [length_round_edges hv, Valid.dw hv, Valid.dh hv]
    ring
  · rcases mem_all_edges_iff_round.1 he with h | h | h
    exacts [⟨_, h⟩, ⟨_, h⟩, ⟨_, h⟩]
  · exact round_edges_subset_all he
  · rw [isData_iff hv, ← mem_data_qubit_coords hv] at hq
    have one : ∀ r, ((lay.round_edges r).filter fun e => e.Touches q).length = 1 := by
      intro r
      obtain ⟨e, he, ht⟩ := exists_edge hv hq r
      refine filter_length_one (nodup_round_edges hv r) he (by simpa using ht) ?_
      intro b hb hp
      exact unique_edge hv hb he (by simpa using hp) ht
    simp only [all_edges, List.filter_append, List.length_append, one]
  · obtain ⟨h1, h2⟩ := edge_parity hv he
    obtain ⟨d1, d2⟩ := edge_ends_data hv he
    rw [mem_data_qubit_coords hv] at d1 d2
    simp only [dataQubitParity, decide_eq_false_iff_not, decide_eq_true_eq, not_not] at h1 h2
    obtain ⟨_, a1, a2⟩ := d1
    obtain ⟨_, b1, b2⟩ := d2
    omega

/-! ## C06 -/

/-- C06: qubit counts. -/
theorem c06_counts (lay : HoneycombLayout) (hv : lay.Valid) :
    (∀ q, q ∈ lay.data_qubit_coords ↔ IsDataQubit lay q) ∧
    (lay.data_qubit_coords.Nodup ∧ (lay.data_qubit_coords.length : Int) = lay.data_width * lay.data_height) ∧
    (lay.measure_qubit_coords.Nodup ∧
      2 * (lay.measure_qubit_coords.length : Int) = 3 * (lay.data_width * lay.data_height)) ∧
    List.Disjoint lay.data_qubit_coords lay.measure_qubit_coords ∧
    lay.used_qubit_indices.Nodup ∧
    (lay.used_qubit_indices.length : Int) = lay.num_qubits := by
  refine ⟨fun q => ?_, ⟨nodup_data_qubit_coords lay, length_data_qubit_coords hv⟩,
    ⟨nodup_measure_qubit_coords lay, ?_⟩, ?_, ?_, ?_⟩
  · rw [isData_iff hv, mem_data_qubit_coords hv]
  · rw [length_measure_qubit_coords hv, Valid.dw hv, Valid.dh hv]
    ring
  · intro q h1 h2
    rw [mem_data_qubit_coords hv] at h1
    obtain ⟨e, he, rfl⟩ := mem_measure_qubit_coords.1 h2
    exact center_not_data hv he h1
  · have hsub : ∀ q ∈ lay.used_qubit_coords, q ∈ qubitOrder lay := by
      intro q hq
      unfold used_qubit_coords at hq
      split_ifs at hq with h
      · simp [qubitOrder, hq]
      · rw [q2i_eq hv, PyDict.keys] at hq
        simpa [List.zipIdx_map_fst] using hq
    have hn : lay.used_qubit_coords.Nodup := by
      unfold used_qubit_coords
      split_ifs with h
      · exact nodup_data_qubit_coords lay
      · rw [q2i_eq hv, PyDict.keys]
        simpa [List.zipIdx_map_fst] using nodup_qubitOrder hv
    refine List.Nodup.map_on ?_ hn
    intro a ha b hb hab
    exact idx_inj hv (hsub a ha) (hsub b hb) hab
  · simp only [used_qubit_indices, List.length_map, used_qubit_coords, num_qubits]
    split_ifs with h
    · exact length_data_qubit_coords hv
    · rw [q2i_eq hv, PyDict.keys]
      have h1 := length_data_qubit_coords hv
      have h2 := length_measure_qubit_coords hv
      rw [Valid.dw hv, Valid.dh hv] at h1 ⊢
      simp only [qubitOrder, List.length_map, List.length_zipIdx, List.length_append]
      push_cast
      rw [h1, h2]
      rw [show 2 * lay.tile_width * (6 * lay.tile_height) * 5 = 2 * (30 * (lay.tile_width * lay.tile_height)) by ring,
        Int.mul_tdiv_cancel_left _ (by decide)]
      ring

/-! ## C07 -/

/-- Every position the package looks up has an index: data qubits and edge centres. -/
theorem q2i_total (lay : HoneycombLayout) (hv : lay.Valid) :
    (∀ q, IsDataQubit lay q → lay.q2i.get? q = some (lay.idx q)) ∧
    (∀ e ∈ lay.all_edges, lay.q2i.get? e.center = some (lay.idx e.center)) := by
  constructor
  · intro q hq
    rw [isData_iff hv, ← mem_data_qubit_coords hv] at hq
    rw [q2i_get hv]
    exact idx_spec hv (by simp [qubitOrder, hq])
  · intro e he
    rw [q2i_get hv]
    exact idx_spec hv (by simp [qubitOrder, mem_measure_qubit_coords]; exact Or.inr ⟨e, he, rfl⟩)

/-- C07: `q2i` is a bijection between the qubit positions and `0 .. N-1`, data qubits first. -/
theorem c07_bijection (lay : HoneycombLayout) (hv : lay.Valid) :
    (∀ q, (∃ i, lay.q2i.get? q = some i) ↔ IsDataQubit lay q ∨ ∃ e ∈ lay.all_edges, e.center = q) ∧
    (∀ p q i, lay.q2i.get? p = some i → lay.q2i.get? q = some i → p = q) ∧
    (∀ i : Nat, (∃ q, lay.q2i.get? q = some i) ↔ 2 * (i : Int) < 5 * (lay.data_width * lay.data_height)) ∧
    (∀ q i, lay.q2i.get? q = some i → (IsDataQubit lay q ↔ (i : Int) < lay.data_width * lay.data_height)) := by
  have hlen := length_data_qubit_coords hv
  have hlm := length_measure_qubit_coords hv
  refine ⟨fun q => ?_, fun p q i h1 h2 => ?_, fun i => ?_, fun q i h => ?_⟩
  · simp only [q2i_get hv]
    rw [← List.mem_iff_getElem?, qubitOrder, List.mem_append, mem_data_qubit_coords hv, ← isData_iff hv,
      mem_measure_qubit_coords]
  · rw [q2i_get hv] at h1 h2
    rw [h1] at h2
    exact Option.some.inj h2
  · simp only [q2i_get hv]
    have h1 : (∃ q, (qubitOrder lay)[i]? = some q) ↔ i < (qubitOrder lay).length := by
      constructor
      · rintro ⟨q, hq⟩
        exact (List.getElem?_eq_some_iff.1 hq).1
      · intro h
        exact ⟨_, List.getElem?_eq_getElem h⟩
    rw [h1]
    simp only [qubitOrder, List.length_append]
    rw [Valid.dw hv, Valid.dh hv] at hlen ⊢
    have : 5 * (2 * lay.tile_width * (6 * lay.tile_height)) =
        2 * (2 * lay.tile_width * (6 * lay.tile_height) + 18 * lay.tile_width * lay.tile_height) := by ring
    rw [this, ← hlen, ← hlm]
    omega
  · rw [q2i_get hv] at h
    have hd : IsDataQubit lay q ↔ q ∈ lay.data_qubit_coords := by rw [isData_iff hv, mem_data_qubit_coords hv]
    rw [hd, ← hlen]
    unfold qubitOrder at h
    constructor
    · intro hq
      obtain ⟨j, hj⟩ := List.mem_iff_getElem?.1 hq
      have hjl := (List.getElem?_eq_some_iff.1 hj).1
      have hj' : (qubitOrder lay)[j]? = some q := by
        unfold qubitOrder
        rw [List.getElem?_append_left hjl, hj]
      have := idx_getElem hv hj'
      have := idx_getElem hv (show (qubitOrder lay)[i]? = some q from h)
      omega
    · intro hi
      rw [List.getElem?_append_left (by omega)] at h
      exact List.mem_iff_getElem?.2 ⟨i, h⟩

/-- C07: the first/second half index lists partition the data indices, which are `0 .. W*H-1`; and the first
half holds the even checkerboard class. -/
theorem c07_halves (lay : HoneycombLayout) (hv : lay.Valid) :
    lay.data_qubit_indices = List.range (lay.data_width * lay.data_height).toNat ∧
    (lay.data_qubit_indices_1st ++ lay.data_qubit_indices_2nd).Perm lay.data_qubit_indices ∧
    (∀ q, IsDataQubit lay q → (lay.idx q ∈ lay.data_qubit_indices_1st ↔ (q.x / 4 + q.y / 2) % 2 = 0)) := by
  refine ⟨?_, ?_, fun q hq => ?_⟩
  · rw [data_qubit_indices_eq hv]
    have := length_data_qubit_coords hv
    congr 1
    omega
  · unfold data_qubit_indices_1st data_qubit_indices_2nd data_qubit_indices
    rw [← List.map_append]
    refine List.Perm.map _ ?_
    have := List.filter_append_perm (fun q => !dataQubitParity q) lay.data_qubit_coords
    simpa using this
  · rw [isData_iff hv] at hq
    have hm := (mem_data_qubit_coords hv).2 hq
    have e : dataQubitParity q = false ↔ (q.x / 4 + q.y / 2) % 2 = 0 := by
      obtain ⟨_, a, b⟩ := hq
      simp only [dataQubitParity, decide_eq_false_iff_not, not_not]
      omega
    rw [← e]
    simp only [data_qubit_indices_1st, List.mem_map, List.mem_filter, Bool.not_eq_eq_eq_not, Bool.not_true]
    constructor
    · rintro ⟨a, ⟨ha, hp⟩, hi⟩
      have := idx_inj hv (by simp [qubitOrder, ha]) (by simp [qubitOrder, hm]) hi
      rwa [← this]
    · intro hp
      exact ⟨q, ⟨hm, hp⟩, rfl⟩

/-- C07: `qubit_indices_except(S)` is the increasing list of all qubit indices not in `S`. -/
theorem c07_except (lay : HoneycombLayout) (hv : lay.Valid) (S : List Nat) :
    (∀ i : Nat, i ∈ lay.qubit_indices_except S ↔ 2 * (i : Int) < 5 * (lay.data_width * lay.data_height) ∧ i ∉ S) ∧
    (lay.qubit_indices_except S).Pairwise (· < ·) := by
  have hvals : PyDict.values lay.q2i = List.range (qubitOrder lay).length := by
    rw [q2i_eq hv, PyDict.values, List.zipIdx_map_snd, List.range_eq_range']
  constructor
  · intro i
    rw [← (c07_bijection lay hv).2.2.1 i]
    simp only [qubit_indices_except, mem_sorted, mem_pySet, List.mem_filter, hvals, List.mem_range,
      decide_eq_true_eq, q2i_get hv]
    refine and_congr ⟨fun h => ⟨_, List.getElem?_eq_getElem h⟩, fun ⟨q, hq⟩ => (List.getElem?_eq_some_iff.1 hq).1⟩ Iff.rfl
  · have hn : (lay.qubit_indices_except S).Nodup := by
      simp only [qubit_indices_except, nodup_sorted]
      exact nodup_pySet _
    have hs : (lay.qubit_indices_except S).Pairwise fun a b => decide (a ≤ b) = true := by
      refine List.pairwise_mergeSort ?_ ?_ _
      · intro a b c; simp only [decide_eq_true_eq]; omega
      · intro a b; simp only [Bool.or_eq_true, decide_eq_true_eq]; omega
    refine (hs.and hn).imp ?_
    rintro a b ⟨h1, h2⟩
    have h1 := of_decide_eq_true h1
    omega

/-! ## C08 -/

/-- C08: the boundary of a face of category `c` is three edges of round `c+1` and three of round `c+2`, all
different; the face has six different data qubits, each on exactly one first and one second edge. -/
theorem c08_face_boundary (lay : HoneycombLayout) (hv : lay.Valid) (h : Pt) (hx : IsHexCenter lay h) :
    (∀ e ∈ lay.first_edges_around_hex h, e ∈ lay.round_edges (hexColour h + 1)) ∧
    (∀ e ∈ lay.second_edges_around_hex h, e ∈ lay.round_edges (hexColour h + 2)) ∧
    (lay.all_edges_around_hex h).length = 6 ∧ (lay.all_edges_around_hex h).Nodup ∧
    (lay.qubits_around_hex h).length = 6 ∧ (lay.qubits_around_hex h).Nodup ∧
    (∀ q ∈ lay.qubits_around_hex h, IsDataQubit lay q ∧
      (∃! e, e ∈ lay.first_edges_around_hex h ∧ e.Touches q) ∧
      (∃! e, e ∈ lay.second_edges_around_hex h ∧ e.Touches q)) ∧
    (∀ e ∈ lay.all_edges_around_hex h, ∀ q, e.Touches q → q ∈ lay.qubits_around_hex h) := by
  rw [isHex_iff hv] at hx
  have p1 := first_edges_ends (lay := lay) hx
  have p2 := second_edges_ends (lay := lay) hx
  have m1 : ∀ e ∈ lay.first_edges_around_hex h, e ∈ lay.round_edges (hexColour h + 1) :=
    fun e he => first_edges_mem hv hx he
  have m2 : ∀ e ∈ lay.second_edges_around_hex h, e ∈ lay.round_edges (hexColour h + 2) :=
    fun e he => second_edges_mem hv hx he
  have hn := nodup_qubits_around_hex hv h
  have ends : ∀ (l : List Edge) (q : Pt), q ∈ edgeEnds l ↔ ∃ e ∈ l, e.Touches q := by
    intro l q
    simp [edgeEnds, Edge.Touches, eq_comm]
  have nd : ∀ l : List Edge, (edgeEnds l).Nodup → l.Nodup := by
    intro l
    induction l with
    | nil => simp
    | cons e l ih =>
      have hc : edgeEnds (e :: l) = e.left :: e.right :: edgeEnds l := by simp [edgeEnds]
      rw [hc]
      simp only [List.nodup_cons, List.mem_cons, not_or]
      rintro ⟨⟨_, a⟩, _, b⟩
      refine ⟨fun he => a ?_, ih b⟩
      rw [ends]
      exact ⟨e, he, Or.inl rfl⟩
  refine ⟨m1, m2, rfl, ?_, ?_, hn, fun q hq => ⟨?_, ?_, ?_⟩, fun e he q ht => ?_⟩
  · refine List.nodup_append.2 ⟨nd _ (p1.nodup_iff.2 hn), nd _ (p2.nodup_iff.2 hn), ?_⟩
    rintro a ha b hb rfl
    have := round_edges_disjoint hv (m1 a ha) (m2 a hb)
    omega
  · rw [(qubits_around_hex_perm lay h).length_eq]
    rfl
  · rw [isData_iff hv, ← mem_data_qubit_coords hv]
    exact qubits_around_hex_data hv hx hq
  · obtain ⟨e, he, ht⟩ := (ends _ q).1 (p1.mem_iff.2 hq)
    exact ⟨e, ⟨he, ht⟩, fun e' he' => unique_edge hv (m1 _ he'.1) (m1 _ he) he'.2 ht⟩
  · obtain ⟨e, he, ht⟩ := (ends _ q).1 (p2.mem_iff.2 hq)
    exact ⟨e, ⟨he, ht⟩, fun e' he' => unique_edge hv (m2 _ he'.1) (m2 _ he) he'.2 ht⟩
  · rcases List.mem_append.1 he with he | he
    · exact p1.mem_iff.1 ((ends _ q).2 ⟨e, he, ht⟩)
    · exact p2.mem_iff.1 ((ends _ q).2 ⟨e, he, ht⟩)

example : IsHexCenter exampleLayout ⟨8, 20⟩ := by decide

/-! ## C09 -/

/-- C09: the product of the six edge operators around a face is the face stabilizer. -/
theorem c09_face_product (lay : HoneycombLayout) (hv : lay.Valid) (h : Pt) (hx : IsHexCenter lay h) :
    opProd ((lay.first_edges_around_hex h).map (edgeOp (hexColour h + 1)) ++
      (lay.second_edges_around_hex h).map (edgeOp (hexColour h + 2))) = hexOp lay h := by
  rw [isHex_iff hv] at hx
  have p1 := first_edges_ends (lay := lay) hx
  have p2 := second_edges_ends (lay := lay) hx
  have hn := nodup_qubits_around_hex hv h
  funext q
  simp only [opProd, List.map_append, List.sum_append, List.map_map, Function.comp_def]
  rw [edgeOps_sum (p1.nodup_iff.2 hn), edgeOps_sum (p2.nodup_iff.2 hn), hexOp, opOn]
  by_cases hq : q ∈ lay.qubits_around_hex h
  · rw [if_pos (p1.mem_iff.2 hq), if_pos (p2.mem_iff.2 hq), if_pos hq, pauli_mul_next]
  · rw [if_neg (fun h => hq (p1.mem_iff.1 h)), if_neg (fun h => hq (p2.mem_iff.1 h)), if_neg hq, add_zero]

/-- C09: the face stabilizer commutes with every operator measured in any sub-round. -/
theorem c09_face_commutes (lay : HoneycombLayout) (hv : lay.Valid) (h : Pt) (hx : IsHexCenter lay h)
    (sub_round : Int) (e : Edge) (he : e ∈ lay.round_edges sub_round) :
    Commute' lay (hexOp lay h) (edgeOp sub_round e) :=
  face_edge_commute hv ((isHex_iff hv h).1 hx) he

/-- C09, consequence: face stabilizers commute with each other. -/
theorem c09_faces_commute (lay : HoneycombLayout) (hv : lay.Valid) (h h' : Pt) (hx : IsHexCenter lay h)
    (hx' : IsHexCenter lay h') : Commute' lay (hexOp lay h) (hexOp lay h') := by
  unfold Commute'
  have hb := c08_face_boundary lay hv h' hx'
  rw [← c09_face_product lay hv h' hx']
  have gen : ∀ l : List PauliOp, (∀ B ∈ l, antiOp lay (hexOp lay h) B = 0) →
      antiOp lay (hexOp lay h) (opProd l) = 0 := by
    intro l
    induction l with
    | nil =>
      intro _
      simp [opProd, antiOp]
    | cons B l ih =>
      intro hl
      have : antiOp lay (hexOp lay h) (opProd (B :: l)) =
          antiOp lay (hexOp lay h) B + antiOp lay (hexOp lay h) (opProd l) := by
        unfold antiOp
        rw [← sum_map_add]
        refine sum_map_congr fun q _ => ?_
        rw [← anti_add_right]
        rfl
      rw [this, hl B (by simp), ih fun B hB => hl B (by simp [hB]), add_zero]
  refine gen _ fun B hB => ?_
  rw [List.mem_append, List.mem_map, List.mem_map] at hB
  rcases hB with ⟨e, he, rfl⟩ | ⟨e, he, rfl⟩
  · exact c09_face_commutes lay hv h hx _ e (hb.1 e he)
  · exact c09_face_commutes lay hv h hx _ e (hb.2.1 e he)

/-! ## C10 -/

/-- C10: the observable before sub-round `k` commutes with everything measured in sub-round `k`, and multiplying
it by the declared edges measured in that sub-round gives the observable before sub-round `k+1`. Stated for
`obs_before_sub_round` and `obs_edges`, for both observables. -/
theorem c10_observable_evolution (lay : HoneycombLayout) (hv : lay.Valid) (hobs : lay.obs = "H" ∨ lay.obs = "V")
    (k : Int) :
    ∃ o o' es, lay.obs_before_sub_round k = .ok o ∧ lay.obs_before_sub_round (k + 1) = .ok o' ∧
      lay.obs_edges = .ok es ∧
      (∀ e ∈ lay.round_edges k, Commute' lay (obsOp o) (edgeOp k e)) ∧
      opProd (obsOp o :: (es.filter fun e => e ∈ lay.round_edges k).map (edgeOp k)) = obsOp o' := by
  rcases hobs with hobs | hobs
  · refine ⟨lay.obs_h_before_sub_round k, lay.obs_h_before_sub_round (k + 1), lay.obs_h_edges, ?_, ?_, ?_, ?_, ?_⟩
    · simp [obs_before_sub_round, hobs]
    · simp [obs_before_sub_round, hobs]
    · simp [obs_edges, hobs]
    · intro e he
      refine obs_commutes_edge hv he ?_
      have hd := edge_ends_data hv (round_edges_subset_all he)
      rw [obsH_closed hv k hd.1, obsH_closed hv k hd.2]
      exact hOp_edge hv he
    · funext q
      rw [← h_evolve hv k q]
      simp [opProd, Function.comp_def]
  · refine ⟨lay.obs_v_before_sub_round k, lay.obs_v_before_sub_round (k + 1), lay.obs_v_edges, ?_, ?_, ?_, ?_, ?_⟩
    · simp [obs_before_sub_round, hobs]
    · simp [obs_before_sub_round, hobs]
    · simp [obs_edges, hobs]
    · intro e he
      refine obs_commutes_edge hv he ?_
      have hd := edge_ends_data hv (round_edges_subset_all he)
      rw [obsV_closed hv k hd.1, obsV_closed hv k hd.2]
      exact vOp_edge hv he
    · funext q
      rw [← v_evolve hv k q]
      simp [opProd, Function.comp_def]

example : exampleLayout.obs = "H" ∨ exampleLayout.obs = "V" := by decide

/-! ## C11 -/

/-- C11: at every sub-round the two observables and their partners three sub-rounds later span two logical
qubits, and all commute with the face stabilizers. -/
theorem c11_logical_qubits (lay : HoneycombLayout) (hv : lay.Valid) (k : Int) :
    Anticommute' lay (obsOp (lay.obs_h_before_sub_round k)) (obsOp (lay.obs_v_before_sub_round k)) ∧
    Anticommute' lay (obsOp (lay.obs_h_before_sub_round (k + 3))) (obsOp (lay.obs_v_before_sub_round (k + 3))) ∧
    Commute' lay (obsOp (lay.obs_h_before_sub_round k)) (obsOp (lay.obs_v_before_sub_round (k + 3))) ∧
    Commute' lay (obsOp (lay.obs_h_before_sub_round (k + 3))) (obsOp (lay.obs_v_before_sub_round k)) ∧
    Commute' lay (obsOp (lay.obs_h_before_sub_round k)) (obsOp (lay.obs_h_before_sub_round (k + 3))) ∧
    Commute' lay (obsOp (lay.obs_v_before_sub_round k)) (obsOp (lay.obs_v_before_sub_round (k + 3))) ∧
    (∀ h, IsHexCenter lay h → Commute' lay (hexOp lay h) (obsOp (lay.obs_h_before_sub_round k)) ∧
      Commute' lay (hexOp lay h) (obsOp (lay.obs_v_before_sub_round k))) := by
  have table : ∀ c ∈ ([0, 1, 2, 3, 4, 5] : List Int),
      anti (rowPauli (obsHPattern c) 1) (rowPauli (obsVPattern c) 0) +
        anti (rowPauli (obsHPattern c) 0) (rowPauli (obsVPattern c) 1) = 1 ∧
      anti (rowPauli (obsHPattern c) 1) (rowPauli (obsVPattern (c + 3)) 0) +
        anti (rowPauli (obsHPattern c) 0) (rowPauli (obsVPattern (c + 3)) 1) = 0 := by decide
  have t0 : ∀ k, anti (rowPauli (obsHPattern k) 1) (rowPauli (obsVPattern k) 0) +
        anti (rowPauli (obsHPattern k) 0) (rowPauli (obsVPattern k) 1) = 1 := by
    intro k
    have := (table _ (six_mem k)).1
    rwa [obsHPattern_emod, obsVPattern_emod] at this
  have t1 : ∀ k, anti (rowPauli (obsHPattern k) 1) (rowPauli (obsVPattern (k + 3)) 0) +
        anti (rowPauli (obsHPattern k) 0) (rowPauli (obsVPattern (k + 3)) 1) = 0 := by
    intro k
    have := (table _ (six_mem k)).2
    rwa [obsHPattern_emod, obsVPattern_congr (show (k % 6 + 3) % 6 = (k + 3) % 6 by omega)] at this
  simp only [Anticommute', Commute']
  refine ⟨?_, ?_, ?_, ?_, anti_h_h hv _ _, anti_v_v hv _ _, fun h hx => ⟨?_, ?_⟩⟩
  · rw [anti_h_v hv]; exact t0 k
  · rw [anti_h_v hv]; exact t0 (k + 3)
  · rw [anti_h_v hv]; exact t1 k
  · rw [anti_h_v hv, obsVPattern_congr (show k % 6 = (k + 3 + 3) % 6 by omega)]; exact t1 (k + 3)
  · exact hex_obs_h hv ((isHex_iff hv h).1 hx) k
  · exact hex_obs_v hv ((isHex_iff hv h).1 hx) k

/-! ## C62 -/

/-- C62: exactly one face of each category touches a data qubit, and a single-qubit Pauli error on it
anticommutes with exactly those faces at the qubit whose category basis differs from the error. -/
theorem c62_data_error_symptoms (lay : HoneycombLayout) (hv : lay.Valid) (q : Pt) (hq : IsDataQubit lay q) :
    (∀ b : Basis, ∃! h, IsHexCenter lay h ∧ hexColour h = b.index ∧ q ∈ lay.qubits_around_hex h) ∧
    (∀ (b : Basis) (h : Pt), IsHexCenter lay h →
      (Anticommute' lay (hexOp lay h) (opOn b [q]) ↔ q ∈ lay.qubits_around_hex h ∧ hexColour h ≠ b.index)) := by
  rw [isData_iff hv] at hq
  constructor
  · intro b
    have hb : b.index = b.index % 3 := by cases b <;> rfl
    obtain ⟨h, hx, hc, hm⟩ := face_exists (Valid.tw_pos hv) (Valid.th_pos hv) hq b.index
    refine ⟨h, ⟨(isHex_iff hv h).2 hx, by rw [hc, ← hb], mem_qubits_around_hex.2 hm⟩, ?_⟩
    rintro h' ⟨hx', hc', hm'⟩
    exact face_unique ((isHex_iff hv h').1 hx') hx (by rw [hc', hc, ← hb]) (mem_qubits_around_hex.1 hm') hm
  · intro b h hx
    unfold Anticommute'
    rw [antiOp_comm, anti_opOn (nodup_data_qubit_coords lay) (by simp)
      (by simpa using (mem_data_qubit_coords hv).2 hq)]
    simp only [List.map_cons, List.map_nil, List.sum_cons, List.sum_nil, add_zero, hexOp, opOn]
    have hc3 : hexColour h = hexColour h % 3 := by simp only [hexColour]; omega
    by_cases hm : q ∈ lay.qubits_around_hex h
    · rw [if_pos hm, anti_basis]
      have : (b = Basis.ofIdx (hexColour h)) ↔ hexColour h = b.index := by
        constructor
        · intro e; rw [e, index_ofIdx]; exact hc3
        · intro e; rw [e, ofIdx_index]
      rw [if_congr this rfl rfl]
      by_cases he : hexColour h = b.index <;> simp [he, hm]
    · simp [hm]

/-- C62: every measured edge is a first edge of exactly one face and a second edge of exactly one face. -/
theorem c62_measurement_error_symptoms (lay : HoneycombLayout) (hv : lay.Valid) (e : Edge) (he : e ∈ lay.all_edges) :
    (∃! h, IsHexCenter lay h ∧ e ∈ lay.first_edges_around_hex h) ∧
    (∃! h, IsHexCenter lay h ∧ e ∈ lay.second_edges_around_hex h) := by
  simp only [isHex_iff hv]
  exact ⟨first_edge_face hv he, second_edge_face hv he⟩

/-- The edge hypotheses of this file are met: the example layout has such an edge. -/
example : ∃ e, e ∈ exampleLayout.round_edges 1 ∧ e ∈ exampleLayout.all_edges ∧ e.Touches ⟨22, 18⟩ := by
  obtain ⟨e, ⟨he, ht⟩, _⟩ := (c04_matching exampleLayout exampleLayout_valid 1).1 ⟨22, 18⟩ (by decide)
  exact ⟨e, he, ((c05_edges exampleLayout exampleLayout_valid).2.2.2.1 e).2 ⟨1, he⟩, ht⟩

end Honeycomb
