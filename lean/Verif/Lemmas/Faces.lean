import Verif.Lemmas.Hex

/-! The three faces at a data qubit, and the two faces that use an edge. -/

namespace Honeycomb
open HoneycombLayout

variable {tw th : Int}

theorem shp_neg {h d q : Pt} (ho : OnT tw th h) (e : shp tw th h d = q) : shp tw th q ⟨-d.x, -d.y⟩ = h := by
  rw [← e, shp_shp]
  have : d + ⟨-d.x, -d.y⟩ = ⟨0, 0⟩ := by ext <;> simp
  rw [this]
  exact shp_zero ho

/-- Exactly one face of each colour touches a data qubit. -/
theorem face_exists (hw : 0 < tw) (hh : 0 < th) {q : Pt} (hq : DataT tw th q) (r : Int) :
    ∃ h, HexT tw th h ∧ hexColour h = r % 3 ∧ ∃ d ∈ hexOffsets, shp tw th h d = q := by
  obtain ⟨ho, h1, h2⟩ := hq
  have key : ∀ d ∈ hexOffsets, (q.x - d.x) % 4 = 0 → (q.y - d.y - (q.x - d.x) / 2) % 4 = 0 →
      ((q.y - d.y) / 2) % 3 = r % 3 →
      ∃ h, HexT tw th h ∧ hexColour h = r % 3 ∧ ∃ d ∈ hexOffsets, shp tw th h d = q := by
    intro d hd c1 c2 c3
    have hdy : d.y % 2 = 0 := by
      clear c1 c2 c3
      revert d; decide
    refine ⟨shp tw th q ⟨-d.x, -d.y⟩, ?_, ?_, d, hd, ?_⟩
    · obtain ⟨i, j, hi, hj⟩ := shp_spec tw th q ⟨-d.x, -d.y⟩
      simp only at hi hj
      exact ⟨onT_shp hw hh _ _, by omega, by omega, by omega⟩
    · obtain ⟨i, j, hi, hj⟩ := shp_spec tw th q ⟨-d.x, -d.y⟩
      simp only at hi hj
      simp only [hexColour]
      omega
    · rw [shp_shp]
      have : (⟨-d.x, -d.y⟩ + d : Pt) = ⟨0, 0⟩ := by ext <;> simp
      rw [this]
      exact shp_zero ho
  have hp : (q.y - (q.x - 2) / 2) % 4 = 0 ∨ (q.y - (q.x - 2) / 2) % 4 = 2 := by omega
  have hr : (q.y / 2 - r) % 3 = 0 ∨ (q.y / 2 - r) % 3 = 1 ∨ (q.y / 2 - r) % 3 = 2 := by omega
  rcases hp with hp | hp <;> rcases hr with hr | hr | hr
  · exact key ⟨2, 0⟩ (by decide) (by simp only; omega) (by simp only; omega) (by simp only; omega)
  · exact key ⟨-2, 2⟩ (by decide) (by simp only; omega) (by simp only; omega) (by simp only; omega)
  · exact key ⟨-2, -2⟩ (by decide) (by simp only; omega) (by simp only; omega) (by simp only; omega)
  · exact key ⟨-2, 0⟩ (by decide) (by simp only; omega) (by simp only; omega) (by simp only; omega)
  · exact key ⟨2, 2⟩ (by decide) (by simp only; omega) (by simp only; omega) (by simp only; omega)
  · exact key ⟨2, -2⟩ (by decide) (by simp only; omega) (by simp only; omega) (by simp only; omega)

theorem face_unique {h h' q : Pt} (hx : HexT tw th h) (hx' : HexT tw th h') (hc : hexColour h = hexColour h')
    (hd : ∃ d ∈ hexOffsets, shp tw th h d = q) (hd' : ∃ d ∈ hexOffsets, shp tw th h' d = q) : h = h' := by
  obtain ⟨d, hm, e⟩ := hd
  obtain ⟨d', hm', e'⟩ := hd'
  have hdd : d = d' := by
    obtain ⟨i, j, hi, hj⟩ := shp_spec tw th h d
    obtain ⟨i', j', hi', hj'⟩ := shp_spec tw th h' d'
    rw [e] at hi hj
    rw [e'] at hi' hj'
    simp only [hexColour] at hc
    obtain ⟨_, a1, a2, a3⟩ := hx
    obtain ⟨_, b1, b2, b3⟩ := hx'
    simp only [hexOffsets, List.mem_cons, List.not_mem_nil, or_false] at hm hm'
    rcases hm with rfl | rfl | rfl | rfl | rfl | rfl <;> rcases hm' with rfl | rfl | rfl | rfl | rfl | rfl <;>
      first
      | rfl
      | (exfalso; simp only at hi hj hi' hj'; omega)
  subst hdd
  exact shp_cancel hx.1 hx'.1 (e.trans e'.symm)

/-- From the hexagon an edge is listed at to the face it is a first edge of. -/
def ETy.firstFace : ETy → Pt
  | .t0 => ⟨4, -2⟩
  | .t1 => ⟨0, 4⟩
  | .t2 => ⟨4, -2⟩

/-- From the hexagon an edge is listed at to the face it is a second edge of. -/
def ETy.secondFace : ETy → Pt
  | .t0 => ⟨0, -4⟩
  | .t1 => ⟨4, 2⟩
  | .t2 => ⟨4, 2⟩

theorem first_edge_face {lay : HoneycombLayout} (hv : lay.Valid) {e : Edge} (he : e ∈ lay.all_edges) :
    ∃! h, HexT lay.tile_width lay.tile_height h ∧ e ∈ lay.first_edges_around_hex h := by
  have hw := Valid.tw_pos hv
  have hh := Valid.th_pos hv
  obtain ⟨g, t, hg, rfl⟩ := (mem_all_edges hv).1 he
  -- the face, as an offset from `g`
  have sh : ∀ d : Pt, d.x % 4 = 0 → d.y % 2 = 0 → (d.y - d.x / 2) % 4 = 0 →
      HexT lay.tile_width lay.tile_height (shp lay.tile_width lay.tile_height g d) := fun d a b c =>
    (hex_shift ⟨hw, hh⟩ hg d a b c).1
  have back : ∀ d d' : Pt, d + d' = ⟨0, 0⟩ →
      shp lay.tile_width lay.tile_height (shp lay.tile_width lay.tile_height g d) d' = g := by
    intro d d' hd
    rw [shp_shp, hd, shp_zero hg.1]
  have fwd : ∀ (h d : Pt) (t' : ETy), HexT lay.tile_width lay.tile_height h → d.x % 4 = 0 → d.y % 2 = 0 →
      (d.y - d.x / 2) % 4 = 0 →
      edgeT lay.tile_width lay.tile_height g t =
        edgeT lay.tile_width lay.tile_height (shp lay.tile_width lay.tile_height h d) t' →
      t = t' ∧ h = shp lay.tile_width lay.tile_height g ⟨-d.x, -d.y⟩ := by
    intro h d t' hx a b c e
    obtain ⟨e1, e2⟩ := edgeT_inj hg (hex_shift ⟨hw, hh⟩ hx d a b c).1 e
    exact ⟨e2, (shp_neg hx.1 e1.symm).symm⟩
  have uniq : ∀ h, HexT lay.tile_width lay.tile_height h →
      edgeT lay.tile_width lay.tile_height g t ∈ lay.first_edges_around_hex h →
      h = shp lay.tile_width lay.tile_height g t.firstFace := by
    intro h hx hm
    rw [first_edges_eq hx] at hm
    simp only [List.mem_cons, List.not_mem_nil, or_false] at hm
    rcases hm with hm | hm | hm
    · obtain ⟨rfl, e⟩ := fwd h ⟨0, -4⟩ _ hx (by decide) (by decide) (by decide) hm
      simpa [ETy.firstFace, ETy.secondFace] using e
    · obtain ⟨rfl, e⟩ := fwd h ⟨-4, 2⟩ _ hx (by decide) (by decide) (by decide) hm
      simpa [ETy.firstFace, ETy.secondFace] using e
    · obtain ⟨rfl, e⟩ := fwd h ⟨-4, 2⟩ _ hx (by decide) (by decide) (by decide) hm
      simpa [ETy.firstFace, ETy.secondFace] using e
  refine ⟨_, ⟨?_, ?_⟩, fun h hh' => uniq h hh'.1 hh'.2⟩
  · cases t <;> exact sh _ (by decide) (by decide) (by decide)
  · rw [first_edges_eq (by cases t <;> exact sh _ (by decide) (by decide) (by decide))]
    cases t <;> simp only [List.mem_cons, List.not_mem_nil, or_false]
    · right; right; rw [back _ _ (by decide)]
    · left; rw [back _ _ (by decide)]
    · right; left; rw [back _ _ (by decide)]

theorem second_edge_face {lay : HoneycombLayout} (hv : lay.Valid) {e : Edge} (he : e ∈ lay.all_edges) :
    ∃! h, HexT lay.tile_width lay.tile_height h ∧ e ∈ lay.second_edges_around_hex h := by
  have hw := Valid.tw_pos hv
  have hh := Valid.th_pos hv
  obtain ⟨g, t, hg, rfl⟩ := (mem_all_edges hv).1 he
  have sh : ∀ d : Pt, d.x % 4 = 0 → d.y % 2 = 0 → (d.y - d.x / 2) % 4 = 0 →
      HexT lay.tile_width lay.tile_height (shp lay.tile_width lay.tile_height g d) := fun d a b c =>
    (hex_shift ⟨hw, hh⟩ hg d a b c).1
  have back : ∀ d d' : Pt, d + d' = ⟨0, 0⟩ →
      shp lay.tile_width lay.tile_height (shp lay.tile_width lay.tile_height g d) d' = g := by
    intro d d' hd
    rw [shp_shp, hd, shp_zero hg.1]
  have fwd : ∀ (h d : Pt) (t' : ETy), HexT lay.tile_width lay.tile_height h → d.x % 4 = 0 → d.y % 2 = 0 →
      (d.y - d.x / 2) % 4 = 0 →
      edgeT lay.tile_width lay.tile_height g t =
        edgeT lay.tile_width lay.tile_height (shp lay.tile_width lay.tile_height h d) t' →
      t = t' ∧ h = shp lay.tile_width lay.tile_height g ⟨-d.x, -d.y⟩ := by
    intro h d t' hx a b c e
    obtain ⟨e1, e2⟩ := edgeT_inj hg (hex_shift ⟨hw, hh⟩ hx d a b c).1 e
    exact ⟨e2, (shp_neg hx.1 e1.symm).symm⟩
  have uniq : ∀ h, HexT lay.tile_width lay.tile_height h →
      edgeT lay.tile_width lay.tile_height g t ∈ lay.second_edges_around_hex h →
      h = shp lay.tile_width lay.tile_height g t.secondFace := by
    intro h hx hm
    rw [second_edges_eq hx] at hm
    simp only [List.mem_cons, List.not_mem_nil, or_false] at hm
    rcases hm with hm | hm | hm
    · obtain ⟨rfl, e⟩ := fwd h ⟨-4, -2⟩ _ hx (by decide) (by decide) (by decide) hm
      simpa [ETy.firstFace, ETy.secondFace] using e
    · obtain ⟨rfl, e⟩ := fwd h ⟨0, 4⟩ _ hx (by decide) (by decide) (by decide) hm
      simpa [ETy.firstFace, ETy.secondFace] using e
    · obtain ⟨rfl, e⟩ := fwd h ⟨-4, -2⟩ _ hx (by decide) (by decide) (by decide) hm
      simpa [ETy.firstFace, ETy.secondFace] using e
  refine ⟨_, ⟨?_, ?_⟩, fun h hh' => uniq h hh'.1 hh'.2⟩
  · cases t <;> exact sh _ (by decide) (by decide) (by decide)
  · rw [second_edges_eq (by cases t <;> exact sh _ (by decide) (by decide) (by decide))]
    cases t <;> simp only [List.mem_cons, List.not_mem_nil, or_false]
    · right; left; rw [back _ _ (by decide)]
    · right; right; rw [back _ _ (by decide)]
    · left; rw [back _ _ (by decide)]

/-! ### Operators of faces and edges -/

theorem edgeOps_sum {l : List Edge} (hn : (edgeEnds l).Nodup) (k : Int) (q : Pt) :
    (l.map fun e => edgeOp k e q).sum = if q ∈ edgeEnds l then (Basis.ofIdx k).pauli else 0 := by
  induction l with
  | nil => simp [edgeEnds]
  | cons e l ih =>
    have hc : edgeEnds (e :: l) = e.left :: e.right :: edgeEnds l := by simp [edgeEnds]
    rw [hc] at hn ⊢
    simp only [List.nodup_cons, List.mem_cons, not_or] at hn
    obtain ⟨⟨n1, n2⟩, n3, n4⟩ := hn
    rw [List.map_cons, List.sum_cons, ih n4]
    simp only [edgeOp, opOn, List.mem_cons, List.not_mem_nil, or_false]
    by_cases h1 : q = e.left
    · subst h1; simp [n2]
    · by_cases h2 : q = e.right
      · subst h2; simp [n3]
      · simp [h1, h2]

theorem face_edge_commute {lay : HoneycombLayout} (hv : lay.Valid) {h : Pt}
    (hx : HexT lay.tile_width lay.tile_height h) {k : Int} {e : Edge} (he : e ∈ lay.round_edges k) :
    antiOp lay (hexOp lay h) (edgeOp k e) = 0 := by
  have ha := round_edges_subset_all he
  obtain ⟨h1, h2⟩ := edge_ends_data hv ha
  rw [antiOp_comm, edgeOp, anti_opOn (nodup_data_qubit_coords lay)]
  · simp only [List.map_cons, List.map_nil, List.sum_cons, List.sum_nil, add_zero, hexOp, opOn]
    by_cases hc : k % 3 = hexColour h
    · have : Basis.ofIdx (hexColour h) = Basis.ofIdx k := ofIdx_congr (by rw [← hc]; omega)
      rw [this]
      split_ifs <;> simp
    · have := edge_hex_both hv hx hc he
      by_cases hl : e.left ∈ lay.qubits_around_hex h
      · rw [if_pos hl, if_pos (this.1 hl), zmod2_add_self]
      · rw [if_neg hl, if_neg (fun hr => hl (this.2 hr))]; simp
  · simp [edge_left_ne_right hv ha]
  · intro q hq
    simp only [List.mem_cons, List.not_mem_nil, or_false] at hq
    rcases hq with rfl | rfl <;> assumption

theorem anti_basis (a b : Basis) : anti a.pauli b.pauli = if a = b then 0 else 1 := by
  cases a <;> cases b <;> decide

theorem filter_length_one {α : Type} {l : List α} (hn : l.Nodup) {p : α → Bool} {a : α} (ha : a ∈ l) (hp : p a = true)
    (hu : ∀ b ∈ l, p b = true → b = a) : (l.filter p).length = 1 := by
  have : l.filter p = [a] := by
    induction l with
    | nil => simp at ha
    | cons b l ih =>
      rw [List.nodup_cons] at hn
      by_cases hb : p b = true
      · have := hu b (by simp) hb
        subst this
        rw [List.filter_cons_of_pos hb]
        congr 1
        rw [List.filter_eq_nil_iff]
        intro c hc hpc
        have := hu c (by simp [hc]) hpc
        subst this
        exact hn.1 hc
      · rw [List.filter_cons_of_neg hb]
        have hne : a ≠ b := fun h => hb (h ▸ hp)
        refine ih hn.2 ?_ fun c hc => hu c (by simp [hc])
        simpa [hne] using ha
  simp [this]

end Honeycomb
