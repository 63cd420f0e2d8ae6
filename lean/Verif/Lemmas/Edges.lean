import Verif.Lemmas.Layout

/-! Edges of the honeycomb layout: helper lemmas. -/

namespace Honeycomb
open HoneycombLayout

variable {tw th : Int}

/-- The point of the torus at offset `d` from `h`. -/
def shp (tw th : Int) (h d : Pt) : Pt := wrapT tw th (h + d)

theorem shp_shp (h d d' : Pt) : shp tw th (shp tw th h d) d' = shp tw th h (d + d') := by
  ext
  · simp [shp, add_assoc]
  · simp [shp, add_assoc]

theorem wrapT_spec (tw th : Int) (p : Pt) : ∃ i j : Int, wrapT tw th p = ⟨p.x - 8 * i, p.y - 12 * j⟩ := by
  refine ⟨tw * (p.x / (8 * tw)), th * (p.y / (12 * th)), ?_⟩
  ext
  · simp only [wrapT_x, Int.emod_def, mul_assoc]
  · simp only [wrapT_y, Int.emod_def, mul_assoc]

theorem shp_spec (tw th : Int) (h d : Pt) :
    ∃ i j : Int, (shp tw th h d).x = h.x + d.x - 8 * i ∧ (shp tw th h d).y = h.y + d.y - 12 * j := by
  obtain ⟨i, j, e⟩ := wrapT_spec tw th (h + d)
  exact ⟨i, j, by rw [shp, e]; rfl, by rw [shp, e]; rfl⟩

theorem shp_zero {h : Pt} (ho : OnT tw th h) : shp tw th h ⟨0, 0⟩ = h := by
  have : h + ⟨0, 0⟩ = h := by ext <;> simp
  rw [shp, this, wrapT_of_onT ho]

theorem shp_cancel {h h' d : Pt} (ho : OnT tw th h) (ho' : OnT tw th h')
    (e : shp tw th h d = shp tw th h' d) : h = h' := by
  have := congrArg (fun p => shp tw th p (-d)) e
  simp only [shp_shp] at this
  have z : d + -d = ⟨0, 0⟩ := by ext <;> simp
  rwa [z, shp_zero ho, shp_zero ho'] at this

theorem onT_shp (hw : 0 < tw) (hh : 0 < th) (h d : Pt) : OnT tw th (shp tw th h d) := onT_wrapT hw hh _

theorem hexT_shp (hw : 0 < tw) (hh : 0 < th) {h : Pt} (hx : HexT tw th h) {d : Pt}
    (h1 : d.x % 4 = 0) (h2 : d.y % 2 = 0) (h3 : (d.y - d.x / 2) % 4 = 0) : HexT tw th (shp tw th h d) := by
  refine ⟨onT_shp hw hh h d, ?_⟩
  obtain ⟨_, g1, g2, g3⟩ := hx
  obtain ⟨i, j, e1, e2⟩ := shp_spec tw th h d
  rw [e1, e2]
  refine ⟨?_, ?_, ?_⟩ <;> omega

theorem dataT_shp (hw : 0 < tw) (hh : 0 < th) {h : Pt} (hx : HexT tw th h) {d : Pt}
    (h1 : d.x % 4 = 2) (h2 : d.y % 2 = 0) : DataT tw th (shp tw th h d) := by
  refine ⟨onT_shp hw hh h d, ?_⟩
  obtain ⟨_, g1, g2, g3⟩ := hx
  obtain ⟨i, j, e1, e2⟩ := shp_spec tw th h d
  rw [e1, e2]
  refine ⟨?_, ?_⟩ <;> omega

theorem parity_shp {h d : Pt} (hx : HexT tw th h) (h1 : d.x % 4 = 2) (h2 : d.y % 2 = 0) :
    dataQubitParity (shp tw th h d) = decide ((2 * (d.x / 4) + d.y) % 4 ≠ 0) := by
  obtain ⟨_, g1, g2, g3⟩ := hx
  obtain ⟨i, j, e1, e2⟩ := shp_spec tw th h d
  unfold dataQubitParity
  rw [e1, e2]
  apply decide_eq_decide.2
  apply not_congr
  constructor <;> omega

/-- The three kinds of edge next to a hex (in the order of `EDGE_TYPES`). -/
inductive ETy | t0 | t1 | t2
deriving DecidableEq

namespace ETy
/-- Offset of the even-parity end. -/
def l : ETy → Pt
  | t0 => ⟨2, -4⟩
  | t1 => ⟨2, 4⟩
  | t2 => ⟨2, 0⟩
/-- Offset of the odd-parity end. -/
def r : ETy → Pt
  | t0 => ⟨2, -2⟩
  | t1 => ⟨2, 2⟩
  | t2 => ⟨6, 0⟩
/-- Offset of the middle. -/
def c : ETy → Pt
  | t0 => ⟨2, -3⟩
  | t1 => ⟨2, 3⟩
  | t2 => ⟨4, 0⟩
end ETy

def edgeT (tw th : Int) (h : Pt) (t : ETy) : Edge := ⟨shp tw th h t.l, shp tw th h t.r, shp tw th h t.c⟩

theorem mkEdge_even_odd {a b c : Pt} (ha : dataQubitParity a = false) (hb : dataQubitParity b = true) :
    mkEdge a b c = ⟨a, b, c⟩ := by simp [mkEdge, edgeKeyGt, ha, hb]

theorem mkEdge_odd_even {a b c : Pt} (ha : dataQubitParity a = true) (hb : dataQubitParity b = false) :
    mkEdge a b c = ⟨b, a, c⟩ := by simp [mkEdge, edgeKeyGt, ha, hb]

theorem parity_l {h : Pt} (hx : HexT tw th h) (t : ETy) : dataQubitParity (shp tw th h t.l) = false := by
  rw [parity_shp hx (by cases t <;> decide) (by cases t <;> decide)]
  cases t <;> decide

theorem parity_r {h : Pt} (hx : HexT tw th h) (t : ETy) : dataQubitParity (shp tw th h t.r) = true := by
  rw [parity_shp hx (by cases t <;> decide) (by cases t <;> decide)]
  cases t <;> decide

theorem data_l (hw : 0 < tw) (hh : 0 < th) {h : Pt} (hx : HexT tw th h) (t : ETy) :
    DataT tw th (shp tw th h t.l) :=
  dataT_shp hw hh hx (by cases t <;> decide) (by cases t <;> decide)

theorem data_r (hw : 0 < tw) (hh : 0 < th) {h : Pt} (hx : HexT tw th h) (t : ETy) :
    DataT tw th (shp tw th h t.r) :=
  dataT_shp hw hh hx (by cases t <;> decide) (by cases t <;> decide)

/-- The code's edge constructor gives the canonical edges. -/
theorem hexToEdge_map {lay : HoneycombLayout} {h : Pt} (hx : HexT lay.tile_width lay.tile_height h) :
    (EDGE_TYPES.map fun t => lay.hexToEdge h t) =
      [edgeT lay.tile_width lay.tile_height h .t0, edgeT lay.tile_width lay.tile_height h .t1,
        edgeT lay.tile_width lay.tile_height h .t2] := by
  simp only [EDGE_TYPES, List.map_cons, List.map_nil, hexToEdge, wrap_eq]
  have a0 : h + Pt.ofInt 1 (-1) = h + ETy.t0.r := rfl
  have b0 : h + Pt.ofInt 2 (-3) - Pt.ofInt 1 (-1) = h + ETy.t0.l := by
    ext <;> simp [ETy.l] <;> omega
  have a1 : h + Pt.ofInt 1 1 = h + ETy.t1.r := rfl
  have b1 : h + Pt.ofInt 2 3 - Pt.ofInt 1 1 = h + ETy.t1.l := by
    ext <;> simp [ETy.l] <;> omega
  have a2 : h + Pt.ofInt 1 0 = h + ETy.t2.l := rfl
  have b2 : h + Pt.ofInt 4 0 - Pt.ofInt 1 0 = h + ETy.t2.r := by
    ext <;> simp [ETy.r]; omega
  obtain ⟨_, g1, g2, g3⟩ := id hx
  have c0 : Pt.half (h + ETy.t0.r + (h + ETy.t0.l)) = h + ETy.t0.c := by
    ext <;> simp [ETy.l, ETy.r, ETy.c] <;> omega
  have c1 : Pt.half (h + ETy.t1.r + (h + ETy.t1.l)) = h + ETy.t1.c := by
    ext <;> simp [ETy.l, ETy.r, ETy.c] <;> omega
  have c2 : Pt.half (h + ETy.t2.l + (h + ETy.t2.r)) = h + ETy.t2.c := by
    ext <;> simp [ETy.l, ETy.r, ETy.c] <;> omega
  rw [b0, b1, b2, a0, a1, a2, c0, c1, c2]
  have p := parity_l hx
  have q := parity_r hx
  simp only [shp] at p q
  rw [mkEdge_odd_even (q .t0) (p .t0), mkEdge_odd_even (q .t1) (p .t1), mkEdge_even_odd (p .t2) (q .t2)]
  rfl

theorem mem_round_edges {lay : HoneycombLayout} (hv : lay.Valid) {r : Int} {e : Edge} :
    e ∈ lay.round_edges r ↔ ∃ h t, HexT lay.tile_width lay.tile_height h ∧ hexColour h = r % 3 ∧
      e = edgeT lay.tile_width lay.tile_height h t := by
  simp only [round_edges, mem_sorted, List.mem_flatMap, mem_round_hex_centers hv]
  constructor
  · rintro ⟨h, ⟨hx, hc⟩, he⟩
    rw [hexToEdge_map hx] at he
    simp only [List.mem_cons, List.not_mem_nil, or_false] at he
    rcases he with rfl | rfl | rfl
    exacts [⟨h, .t0, hx, hc, rfl⟩, ⟨h, .t1, hx, hc, rfl⟩, ⟨h, .t2, hx, hc, rfl⟩]
  · rintro ⟨h, t, hx, hc, rfl⟩
    refine ⟨h, ⟨hx, hc⟩, ?_⟩
    rw [hexToEdge_map hx]
    cases t <;> simp

theorem hexColour_shp (tw th : Int) {h d : Pt} (h2 : d.y % 2 = 0) (h3 : h.y % 2 = 0) :
    hexColour (shp tw th h d) = (h.y / 2 + d.y / 2) % 3 := by
  obtain ⟨i, j, _, e2⟩ := shp_spec tw th h d
  rw [hexColour, e2]
  omega

/-- An edge of a given colour is determined by any of its ends. -/
theorem edgeT_unique {h h' : Pt} {t t' : ETy} {q : Pt} (hx : HexT tw th h) (hx' : HexT tw th h')
    (hc : hexColour h = hexColour h') (ht : (edgeT tw th h t).Touches q) (ht' : (edgeT tw th h' t').Touches q) :
    h = h' ∧ t = t' := by
  have key : ∀ d d' : Pt, d.y % 2 = 0 → d'.y % 2 = 0 → shp tw th h d = q → shp tw th h' d' = q →
      (d.y / 2 - d'.y / 2) % 3 = 0 := by
    intro d d' h1 h2 e e'
    have a := hexColour_shp tw th h1 hx.2.2.1
    have b := hexColour_shp tw th h2 hx'.2.2.1
    rw [e] at a
    rw [e'] at b
    simp only [hexColour] at a b hc
    omega
  have side : ∀ {h : Pt} {t : ETy}, HexT tw th h → (edgeT tw th h t).Touches q →
      shp tw th h (if dataQubitParity q then t.r else t.l) = q := by
    intro h t hx ht
    rcases ht with e | e
    · have : dataQubitParity q = false := by rw [← e]; exact parity_l hx t
      rw [this]; exact e
    · have : dataQubitParity q = true := by rw [← e]; exact parity_r hx t
      rw [this]; exact e
  have s := side hx ht
  have s' := side hx' ht'
  have tt : t = t' := by
    have := key _ _ (by split <;> cases t <;> decide) (by split <;> cases t' <;> decide) s s'
    revert this
    cases dataQubitParity q <;> cases t <;> cases t' <;> decide
  subst tt
  exact ⟨shp_cancel hx.1 hx'.1 (s.trans s'.symm), rfl⟩

/-- Every data qubit is on an edge of every colour. -/
theorem edgeT_exists (hw : 0 < tw) (hh : 0 < th) {q : Pt} (hq : DataT tw th q) (r : Int) :
    ∃ h t, HexT tw th h ∧ hexColour h = r % 3 ∧ (edgeT tw th h t).Touches q := by
  obtain ⟨ho, q1, q2⟩ := hq
  have mk : ∀ d : Pt, d.x % 4 = 2 → d.y % 2 = 0 → (q.y - d.y - (q.x - d.x) / 2) % 4 = 0 →
      (q.y / 2 - d.y / 2 - r) % 3 = 0 →
      HexT tw th (shp tw th q (-d)) ∧ hexColour (shp tw th q (-d)) = r % 3 ∧ shp tw th (shp tw th q (-d)) d = q := by
    intro d d1 d2 d3 d4
    refine ⟨⟨onT_shp hw hh _ _, ?_⟩, ?_, ?_⟩
    · obtain ⟨i, j, e1, e2⟩ := shp_spec tw th q (-d)
      rw [e1, e2]
      simp only [Pt.neg_x, Pt.neg_y]
      refine ⟨?_, ?_, ?_⟩ <;> omega
    · rw [hexColour_shp tw th (by simp only [Pt.neg_y]; omega) q2]
      simp only [Pt.neg_y]
      omega
    · rw [shp_shp]
      have z : -d + d = ⟨0, 0⟩ := by ext <;> simp
      rw [z, shp_zero ho]
  have h3 : (q.y / 2 - r) % 3 = 0 ∨ (q.y / 2 - r) % 3 = 1 ∨ (q.y / 2 - r) % 3 = 2 := by omega
  by_cases hp : (q.y - (q.x - 2) / 2) % 4 = 0
  · rcases h3 with h3 | h3 | h3
    · obtain ⟨a, b, c⟩ := mk ETy.t2.l (by decide) (by decide) (by simp [ETy.l]; omega) (by simp [ETy.l]; omega)
      exact ⟨_, .t2, a, b, Or.inl c⟩
    · obtain ⟨a, b, c⟩ := mk ETy.t0.l (by decide) (by decide) (by simp [ETy.l]; omega) (by simp [ETy.l]; omega)
      exact ⟨_, .t0, a, b, Or.inl c⟩
    · obtain ⟨a, b, c⟩ := mk ETy.t1.l (by decide) (by decide) (by simp [ETy.l]; omega) (by simp [ETy.l]; omega)
      exact ⟨_, .t1, a, b, Or.inl c⟩
  · rcases h3 with h3 | h3 | h3
    · obtain ⟨a, b, c⟩ := mk ETy.t2.r (by decide) (by decide) (by simp [ETy.r]; omega) (by simp [ETy.r]; omega)
      exact ⟨_, .t2, a, b, Or.inr c⟩
    · obtain ⟨a, b, c⟩ := mk ETy.t1.r (by decide) (by decide) (by simp [ETy.r]; omega) (by simp [ETy.r]; omega)
      exact ⟨_, .t1, a, b, Or.inr c⟩
    · obtain ⟨a, b, c⟩ := mk ETy.t0.r (by decide) (by decide) (by simp [ETy.r]; omega) (by simp [ETy.r]; omega)
      exact ⟨_, .t0, a, b, Or.inr c⟩

/-- An edge is determined by its center. -/
theorem edgeT_center_inj {h h' : Pt} {t t' : ETy} (hx : HexT tw th h) (hx' : HexT tw th h')
    (e : (edgeT tw th h t).center = (edgeT tw th h' t').center) : edgeT tw th h t = edgeT tw th h' t' := by
  simp only [edgeT] at e
  have e' := e
  obtain ⟨i, j, a1, a2⟩ := shp_spec tw th h t.c
  obtain ⟨i', j', b1, b2⟩ := shp_spec tw th h' t'.c
  rw [e'] at a1 a2
  rw [a1] at b1
  rw [a2] at b2
  obtain ⟨o, g1, g2, g3⟩ := hx
  obtain ⟨o', g1', g2', g3'⟩ := hx'
  cases t <;> cases t' <;> simp only [ETy.c] at b1 b2 e
  · rw [shp_cancel o o' e]
  · have : False := by omega
    exact this.elim
  · exfalso; omega
  · exfalso; omega
  · rw [shp_cancel o o' e]
  · exfalso; omega
  · exfalso; omega
  · exfalso; omega
  · rw [shp_cancel o o' e]

end Honeycomb
