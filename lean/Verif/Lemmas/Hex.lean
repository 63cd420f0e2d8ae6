import Verif.Lemmas.Qubits
import Verif.Lemmas.Pauli

/-! Hexagon boundaries. -/

namespace Honeycomb
open HoneycombLayout

variable {tw th : Int}

theorem first_edges_eq {lay : HoneycombLayout} {h : Pt} (hx : HexT lay.tile_width lay.tile_height h) :
    lay.first_edges_around_hex h =
      [edgeT lay.tile_width lay.tile_height (shp lay.tile_width lay.tile_height h ⟨0, -4⟩) .t1,
       edgeT lay.tile_width lay.tile_height (shp lay.tile_width lay.tile_height h ⟨-4, 2⟩) .t2,
       edgeT lay.tile_width lay.tile_height (shp lay.tile_width lay.tile_height h ⟨-4, 2⟩) .t0] := by
  generalize hT : lay.tile_width = tw at *
  generalize hH : lay.tile_height = th at *
  have w : ∀ p, lay.wrap (h + p) = shp tw th h p := by intro p; rw [wrap_eq, hT, hH]; rfl
  simp only [first_edges_around_hex, List.map_cons, List.map_nil, edgeAt, w, edgeT, shp_shp]
  have p : ∀ d : Pt, d.x % 4 = 2 → d.y % 2 = 0 → dataQubitParity (shp tw th h d) =
    decide ((2 * (d.x / 4) + d.y) % 4 ≠ 0) := fun d h1 h2 => parity_shp hx h1 h2
  rw [mkEdge_odd_even (p _ (by decide) (by decide)) (p _ (by decide) (by decide)),
    mkEdge_odd_even (p _ (by decide) (by decide)) (p _ (by decide) (by decide)),
    mkEdge_odd_even (p _ (by decide) (by decide)) (p _ (by decide) (by decide))]
  rfl

theorem second_edges_eq {lay : HoneycombLayout} {h : Pt} (hx : HexT lay.tile_width lay.tile_height h) :
    lay.second_edges_around_hex h =
      [edgeT lay.tile_width lay.tile_height (shp lay.tile_width lay.tile_height h ⟨-4, -2⟩) .t2,
       edgeT lay.tile_width lay.tile_height (shp lay.tile_width lay.tile_height h ⟨0, 4⟩) .t0,
       edgeT lay.tile_width lay.tile_height (shp lay.tile_width lay.tile_height h ⟨-4, -2⟩) .t1] := by
  generalize hT : lay.tile_width = tw at *
  generalize hH : lay.tile_height = th at *
  have w : ∀ p, lay.wrap (h + p) = shp tw th h p := by intro p; rw [wrap_eq, hT, hH]; rfl
  simp only [second_edges_around_hex, List.map_cons, List.map_nil, edgeAt, w, edgeT, shp_shp]
  have p : ∀ d : Pt, d.x % 4 = 2 → d.y % 2 = 0 → dataQubitParity (shp tw th h d) =
    decide ((2 * (d.x / 4) + d.y) % 4 ≠ 0) := fun d h1 h2 => parity_shp hx h1 h2
  rw [mkEdge_even_odd (p _ (by decide) (by decide)) (p _ (by decide) (by decide)),
    mkEdge_even_odd (p _ (by decide) (by decide)) (p _ (by decide) (by decide)),
    mkEdge_even_odd (p _ (by decide) (by decide)) (p _ (by decide) (by decide))]
  rfl

/-- Offsets of the six qubits around a hex. -/
def hexOffsets : List Pt := [⟨-2, 2⟩, ⟨2, -2⟩, ⟨-2, -2⟩, ⟨2, 2⟩, ⟨-2, 0⟩, ⟨2, 0⟩]

theorem qubits_around_hex_perm (lay : HoneycombLayout) (h : Pt) :
    (lay.qubits_around_hex h).Perm (hexOffsets.map (shp lay.tile_width lay.tile_height h)) := by
  refine (sortedComplex_perm _).trans (List.Perm.of_eq ?_)
  simp only [EDGE_TYPES, List.flatMap_cons, List.flatMap_nil, hexOffsets, List.map_cons, List.map_nil,
    wrap_eq, shp]
  simp only [List.cons_append, List.nil_append, List.append_nil, List.cons.injEq, and_true]
  refine ⟨?_, ?_, ?_, ?_, ?_, ?_⟩ <;> congr 1

theorem mem_qubits_around_hex {lay : HoneycombLayout} {h q : Pt} :
    q ∈ lay.qubits_around_hex h ↔ ∃ d ∈ hexOffsets, shp lay.tile_width lay.tile_height h d = q := by
  rw [(qubits_around_hex_perm lay h).mem_iff, List.mem_map]

theorem shp_offset_inj (hw : 0 < tw) (hh : 0 < th) {h d d' : Pt} (hx : |d.x - d'.x| < 8) (hy : |d.y - d'.y| < 12)
    (e : shp tw th h d = shp tw th h d') : d = d' := by
  have e1 := congrArg Pt.x e
  have e2 := congrArg Pt.y e
  simp only [shp, wrapT_x, wrapT_y, Pt.add_x, Pt.add_y] at e1 e2
  have f1 := Int.emod_eq_emod_iff_emod_sub_eq_zero.1 e1
  have f2 := Int.emod_eq_emod_iff_emod_sub_eq_zero.1 e2
  have g1 := Int.eq_zero_of_abs_lt_dvd (Int.dvd_of_emod_eq_zero f1) (by
    have : h.x + d.x - (h.x + d'.x) = d.x - d'.x := by ring
    rw [this]; omega)
  have g2 := Int.eq_zero_of_abs_lt_dvd (Int.dvd_of_emod_eq_zero f2) (by
    have : h.y + d.y - (h.y + d'.y) = d.y - d'.y := by ring
    rw [this]; omega)
  ext <;> omega

theorem nodup_hexOffsets_map (hw : 0 < tw) (hh : 0 < th) (h : Pt) : (hexOffsets.map (shp tw th h)).Nodup := by
  refine List.Nodup.map_on ?_ (by decide)
  intro a ha b hb e
  have key : ∀ a ∈ hexOffsets, ∀ b ∈ hexOffsets, |a.x - b.x| < 8 ∧ |a.y - b.y| < 12 := by decide
  exact shp_offset_inj hw hh (key a ha b hb).1 (key a ha b hb).2 e

theorem nodup_qubits_around_hex {lay : HoneycombLayout} (hv : lay.Valid) (h : Pt) :
    (lay.qubits_around_hex h).Nodup :=
  (qubits_around_hex_perm lay h).nodup_iff.2 (nodup_hexOffsets_map (Valid.tw_pos hv) (Valid.th_pos hv) h)

theorem qubits_around_hex_data {lay : HoneycombLayout} (hv : lay.Valid) {h : Pt}
    (hx : HexT lay.tile_width lay.tile_height h) {q : Pt} (hq : q ∈ lay.qubits_around_hex h) :
    q ∈ lay.data_qubit_coords := by
  rw [mem_data_qubit_coords hv]
  obtain ⟨d, hd, rfl⟩ := mem_qubits_around_hex.1 hq
  have key : ∀ d ∈ hexOffsets, d.x % 4 = 2 ∧ d.y % 2 = 0 := by decide
  exact dataT_shp (Valid.tw_pos hv) (Valid.th_pos hv) hx (key d hd).1 (key d hd).2

/-- The ends of a list of edges. -/
def edgeEnds (l : List Edge) : List Pt := l.flatMap fun e => [e.left, e.right]

theorem first_edges_ends {lay : HoneycombLayout} {h : Pt} (hx : HexT lay.tile_width lay.tile_height h) :
    (edgeEnds (lay.first_edges_around_hex h)).Perm (lay.qubits_around_hex h) := by
  refine List.Perm.trans ?_ (qubits_around_hex_perm lay h).symm
  rw [first_edges_eq hx]
  simp only [edgeEnds, List.flatMap_cons, List.flatMap_nil, edgeT, shp_shp, List.append_nil, List.cons_append,
    List.nil_append]
  rw [show hexOffsets.map (shp lay.tile_width lay.tile_height h) = _ from rfl]
  have : [(⟨0, -4⟩ + ETy.l .t1 : Pt), ⟨0, -4⟩ + ETy.r .t1, ⟨-4, 2⟩ + ETy.l .t2, ⟨-4, 2⟩ + ETy.r .t2,
      ⟨-4, 2⟩ + ETy.l .t0, ⟨-4, 2⟩ + ETy.r .t0].Perm hexOffsets := by decide
  exact this.map (shp lay.tile_width lay.tile_height h)

theorem second_edges_ends {lay : HoneycombLayout} {h : Pt} (hx : HexT lay.tile_width lay.tile_height h) :
    (edgeEnds (lay.second_edges_around_hex h)).Perm (lay.qubits_around_hex h) := by
  refine List.Perm.trans ?_ (qubits_around_hex_perm lay h).symm
  rw [second_edges_eq hx]
  simp only [edgeEnds, List.flatMap_cons, List.flatMap_nil, edgeT, shp_shp, List.append_nil, List.cons_append,
    List.nil_append]
  have : [(⟨-4, -2⟩ + ETy.l .t2 : Pt), ⟨-4, -2⟩ + ETy.r .t2, ⟨0, 4⟩ + ETy.l .t0, ⟨0, 4⟩ + ETy.r .t0,
      ⟨-4, -2⟩ + ETy.l .t1, ⟨-4, -2⟩ + ETy.r .t1].Perm hexOffsets := by decide
  exact this.map (shp lay.tile_width lay.tile_height h)

theorem hex_shift (hv : 0 < tw ∧ 0 < th) {h : Pt} (hx : HexT tw th h) (d : Pt) (h1 : d.x % 4 = 0) (h2 : d.y % 2 = 0)
    (h3 : (d.y - d.x / 2) % 4 = 0) : HexT tw th (shp tw th h d) ∧
      hexColour (shp tw th h d) = (hexColour h + d.y / 2) % 3 := by
  refine ⟨hexT_shp hv.1 hv.2 hx h1 h2 h3, ?_⟩
  rw [hexColour_shp tw th h2 hx.2.2.1, hexColour]
  omega

theorem first_edges_mem {lay : HoneycombLayout} (hv : lay.Valid) {h : Pt}
    (hx : HexT lay.tile_width lay.tile_height h) {e : Edge} (he : e ∈ lay.first_edges_around_hex h) :
    e ∈ lay.round_edges (hexColour h + 1) := by
  have hp := And.intro (Valid.tw_pos hv) (Valid.th_pos hv)
  rw [first_edges_eq hx] at he
  rw [mem_round_edges hv]
  simp only [List.mem_cons, List.not_mem_nil, or_false] at he
  rcases he with rfl | rfl | rfl
  · obtain ⟨a, b⟩ := hex_shift hp hx ⟨0, -4⟩ (by decide) (by decide) (by decide)
    exact ⟨_, _, a, by rw [b]; simp only; omega, rfl⟩
  · obtain ⟨a, b⟩ := hex_shift hp hx ⟨-4, 2⟩ (by decide) (by decide) (by decide)
    exact ⟨_, _, a, by rw [b]; simp only; omega, rfl⟩
  · obtain ⟨a, b⟩ := hex_shift hp hx ⟨-4, 2⟩ (by decide) (by decide) (by decide)
    exact ⟨_, _, a, by rw [b]; simp only; omega, rfl⟩

theorem second_edges_mem {lay : HoneycombLayout} (hv : lay.Valid) {h : Pt}
    (hx : HexT lay.tile_width lay.tile_height h) {e : Edge} (he : e ∈ lay.second_edges_around_hex h) :
    e ∈ lay.round_edges (hexColour h + 2) := by
  have hp := And.intro (Valid.tw_pos hv) (Valid.th_pos hv)
  rw [second_edges_eq hx] at he
  rw [mem_round_edges hv]
  simp only [List.mem_cons, List.not_mem_nil, or_false] at he
  rcases he with rfl | rfl | rfl
  · obtain ⟨a, b⟩ := hex_shift hp hx ⟨-4, -2⟩ (by decide) (by decide) (by decide)
    exact ⟨_, _, a, by rw [b]; simp only; omega, rfl⟩
  · obtain ⟨a, b⟩ := hex_shift hp hx ⟨0, 4⟩ (by decide) (by decide) (by decide)
    exact ⟨_, _, a, by rw [b]; simp only; omega, rfl⟩
  · obtain ⟨a, b⟩ := hex_shift hp hx ⟨-4, -2⟩ (by decide) (by decide) (by decide)
    exact ⟨_, _, a, by rw [b]; simp only; omega, rfl⟩

/-! ### The edge of a given colour at a data qubit -/

theorem exists_edge {lay : HoneycombLayout} (hv : lay.Valid) {q : Pt} (hq : q ∈ lay.data_qubit_coords) (r : Int) :
    ∃ e ∈ lay.round_edges r, e.Touches q := by
  obtain ⟨h, t, hx, hc, ht⟩ := edgeT_exists (Valid.tw_pos hv) (Valid.th_pos hv) ((mem_data_qubit_coords hv).1 hq) r
  exact ⟨_, (mem_round_edges hv).2 ⟨h, t, hx, hc, rfl⟩, ht⟩

theorem unique_edge {lay : HoneycombLayout} (hv : lay.Valid) {q : Pt} {r : Int} {e e' : Edge}
    (he : e ∈ lay.round_edges r) (he' : e' ∈ lay.round_edges r) (ht : e.Touches q) (ht' : e'.Touches q) : e = e' := by
  obtain ⟨h, t, hx, hc, rfl⟩ := (mem_round_edges hv).1 he
  obtain ⟨h', t', hx', hc', rfl⟩ := (mem_round_edges hv).1 he'
  obtain ⟨rfl, rfl⟩ := edgeT_unique hx hx' (hc.trans hc'.symm) ht ht'
  rfl

theorem edge_ends_data {lay : HoneycombLayout} (hv : lay.Valid) {e : Edge} (he : e ∈ lay.all_edges) :
    e.left ∈ lay.data_qubit_coords ∧ e.right ∈ lay.data_qubit_coords := by
  obtain ⟨h, t, hx, rfl⟩ := (mem_all_edges hv).1 he
  rw [mem_data_qubit_coords hv, mem_data_qubit_coords hv]
  exact ⟨data_l (Valid.tw_pos hv) (Valid.th_pos hv) hx t, data_r (Valid.tw_pos hv) (Valid.th_pos hv) hx t⟩

theorem edge_parity {lay : HoneycombLayout} (hv : lay.Valid) {e : Edge} (he : e ∈ lay.all_edges) :
    dataQubitParity e.left = false ∧ dataQubitParity e.right = true := by
  obtain ⟨h, t, hx, rfl⟩ := (mem_all_edges hv).1 he
  exact ⟨parity_l hx t, parity_r hx t⟩

theorem edge_left_ne_right {lay : HoneycombLayout} (hv : lay.Valid) {e : Edge} (he : e ∈ lay.all_edges) :
    e.left ≠ e.right := by
  intro h
  have := edge_parity hv he
  rw [h, this.2] at this
  exact absurd this.1 (by decide)

/-- An edge whose colour differs from the hex's colour has both or no ends on the hex. -/
theorem edge_hex_both {lay : HoneycombLayout} (hv : lay.Valid) {h : Pt}
    (hx : HexT lay.tile_width lay.tile_height h) {r : Int} (hr : r % 3 ≠ hexColour h) {e : Edge}
    (he : e ∈ lay.round_edges r) : e.left ∈ lay.qubits_around_hex h ↔ e.right ∈ lay.qubits_around_hex h := by
  have hc : r % 3 = (hexColour h + 1) % 3 ∨ r % 3 = (hexColour h + 2) % 3 := by
    simp only [hexColour] at *; omega
  -- the boundary edges of colour r
  have key : ∃ l : List Edge, (∀ e ∈ l, e ∈ lay.round_edges r) ∧ (edgeEnds l).Perm (lay.qubits_around_hex h) := by
    rcases hc with hc | hc
    · refine ⟨_, fun e he => ?_, first_edges_ends hx⟩
      rw [round_edges_congr lay hc]; exact first_edges_mem hv hx he
    · refine ⟨_, fun e he => ?_, second_edges_ends hx⟩
      rw [round_edges_congr lay hc]; exact second_edges_mem hv hx he
  obtain ⟨l, hl, hp⟩ := key
  have step : ∀ q, q ∈ lay.qubits_around_hex h → e.Touches q → e ∈ l := by
    intro q hq ht
    rw [← hp.mem_iff] at hq
    obtain ⟨e', he', hq⟩ := List.mem_flatMap.1 hq
    simp only [List.mem_cons, List.not_mem_nil, or_false] at hq
    have : e'.Touches q := by rcases hq with rfl | rfl; exacts [Or.inl rfl, Or.inr rfl]
    rw [unique_edge hv he (hl e' he') ht this]
    exact he'
  have ends : e ∈ l → e.left ∈ lay.qubits_around_hex h ∧ e.right ∈ lay.qubits_around_hex h := by
    intro hm
    rw [← hp.mem_iff, ← hp.mem_iff]
    exact ⟨List.mem_flatMap.2 ⟨e, hm, by simp⟩, List.mem_flatMap.2 ⟨e, hm, by simp⟩⟩
  exact ⟨fun h1 => (ends (step _ h1 (Or.inl rfl))).2, fun h1 => (ends (step _ h1 (Or.inr rfl))).1⟩

theorem sum_edgeEnds (l : List Edge) (f : Pt → ZMod 2) :
    ((edgeEnds l).map f).sum = (l.map fun e => f e.left + f e.right).sum := by
  induction l with
  | nil => rfl
  | cons e l ih =>
    simp only [edgeEnds, List.flatMap_cons, List.map_append, List.sum_append, List.map_cons, List.map_nil,
      List.sum_cons, List.sum_nil, add_zero] at ih ⊢
    rw [ih]

end Honeycomb
