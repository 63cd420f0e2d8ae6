import Verif.Lemmas.Py
import Verif.Spec.Layout

/-! Geometry of the honeycomb layout: helper lemmas. -/

namespace Honeycomb
open HoneycombLayout

/-- `wrap` in terms of the tile counts. -/
def wrapT (tw th : Int) (p : Pt) : Pt := ⟨p.x % (8 * tw), p.y % (12 * th)⟩

@[simp] theorem wrapT_x (tw th : Int) (p : Pt) : (wrapT tw th p).x = p.x % (8 * tw) := rfl
@[simp] theorem wrapT_y (tw th : Int) (p : Pt) : (wrapT tw th p).y = p.y % (12 * th) := rfl

theorem wrap_eq (lay : HoneycombLayout) (p : Pt) : lay.wrap p = wrapT lay.tile_width lay.tile_height p := by
  simp only [HoneycombLayout.wrap, wrapT, coord_width, coord_height]
  congr 2 <;> omega

theorem Valid.tw_pos {lay : HoneycombLayout} (h : lay.Valid) : 0 < lay.tile_width := by
  have := h.width_even; have := h.width_pos; simp only [tile_width]; omega

theorem Valid.th_pos {lay : HoneycombLayout} (h : lay.Valid) : 0 < lay.tile_height := by
  have := h.height_six; have := h.height_pos; simp only [tile_height]; omega

theorem Valid.dw {lay : HoneycombLayout} (h : lay.Valid) : lay.data_width = 2 * lay.tile_width := by
  have := h.width_even; simp only [tile_width]; omega

theorem Valid.dh {lay : HoneycombLayout} (h : lay.Valid) : lay.data_height = 6 * lay.tile_height := by
  have := h.height_six; simp only [tile_height]; omega

/-- Points on the torus, in tile counts. -/
def OnT (tw th : Int) (p : Pt) : Prop := 0 ≤ p.x ∧ p.x < 8 * tw ∧ 0 ≤ p.y ∧ p.y < 12 * th

def DataT (tw th : Int) (p : Pt) : Prop := OnT tw th p ∧ p.x % 4 = 2 ∧ p.y % 2 = 0

def HexT (tw th : Int) (p : Pt) : Prop :=
  OnT tw th p ∧ p.x % 4 = 0 ∧ p.y % 2 = 0 ∧ (p.y - p.x / 2) % 4 = 0

theorem onTorus_iff {lay : HoneycombLayout} (h : lay.Valid) (p : Pt) :
    OnTorus lay p ↔ OnT lay.tile_width lay.tile_height p := by
  simp only [OnTorus, OnT, Valid.dw h, Valid.dh h]
  constructor <;> (rintro ⟨h1, h2, h3, h4⟩; refine ⟨h1, ?_, h3, ?_⟩ <;> omega)

theorem isData_iff {lay : HoneycombLayout} (h : lay.Valid) (p : Pt) :
    IsDataQubit lay p ↔ DataT lay.tile_width lay.tile_height p := by
  simp only [IsDataQubit, DataT, onTorus_iff h]

theorem isHex_iff {lay : HoneycombLayout} (h : lay.Valid) (p : Pt) :
    IsHexCenter lay p ↔ HexT lay.tile_width lay.tile_height p := by
  simp only [IsHexCenter, HexT, onTorus_iff h]

theorem onT_wrapT {tw th : Int} (hw : 0 < tw) (hh : 0 < th) (p : Pt) : OnT tw th (wrapT tw th p) := by
  simp only [OnT, wrapT_x, wrapT_y]
  exact ⟨Int.emod_nonneg _ (by omega), Int.emod_lt_of_pos _ (by omega),
    Int.emod_nonneg _ (by omega), Int.emod_lt_of_pos _ (by omega)⟩

theorem wrapT_of_onT {tw th : Int} {p : Pt} (h : OnT tw th p) : wrapT tw th p = p := by
  obtain ⟨h1, h2, h3, h4⟩ := h
  ext
  · exact Int.emod_eq_of_lt h1 h2
  · exact Int.emod_eq_of_lt h3 h4

/-! ### Hex centers -/

theorem hexItem_spec {tw th row col : Int} (hr0 : 0 ≤ row) (hr : row < 3 * th) (hc0 : 0 ≤ col)
    (hc : col < 2 * tw) :
    let p := wrapT tw th (Pt.ofInt (2 * col) (2 * row - col % 2))
    HexT tw th p ∧ p.x = 4 * col ∧ (p.y = 4 * row - 2 * (col % 2) ∨
      (row = 0 ∧ col % 2 = 1 ∧ p.y = 12 * th - 2)) ∧ (-row - col % 2) % 3 = hexColour p := by
  simp only [HexT, OnT, wrapT_x, wrapT_y, Pt.ofInt_x, Pt.ofInt_y, hexColour]
  have e1 : 2 * (2 * col) % (8 * tw) = 2 * (2 * col) := Int.emod_eq_of_lt (by omega) (by omega)
  rw [e1]
  rcases emod_cases (a := 2 * (2 * row - col % 2)) (m := 12 * th) (by omega) (by omega) with
    ⟨h1, h2, h3⟩ | ⟨h1, h3⟩ | ⟨h1, h3⟩ <;> rw [h3] <;> refine ⟨⟨⟨?_, ?_, ?_, ?_⟩, ?_, ?_, ?_⟩, ?_, ?_, ?_⟩ <;> omega

theorem mem_hexCenterItems {lay : HoneycombLayout} (hv : lay.Valid) {h : Pt} {c : Int} :
    (h, c) ∈ lay.hexCenterItems ↔ HexT lay.tile_width lay.tile_height h ∧ c = hexColour h := by
  have hw := Valid.tw_pos hv
  have hh := Valid.th_pos hv
  simp only [hexCenterItems, List.mem_flatMap, List.mem_map, mem_pyRange, wrap_eq, Prod.mk.injEq]
  constructor
  · rintro ⟨row, ⟨hr0, hr1⟩, col, ⟨hc0, hc1⟩, rfl, rfl⟩
    obtain ⟨h1, _, _, h4⟩ := hexItem_spec hr0 hr1 hc0 hc1
    exact ⟨h1, h4⟩
  · rintro ⟨hx, rfl⟩
    generalize lay.tile_width = tw at *
    generalize lay.tile_height = th at *
    obtain ⟨⟨h1, h2, h3, h4⟩, h5, h6, h7⟩ := hx
    by_cases hy : h.y / 2 + (h.x / 4) % 2 < 6 * th
    · have hr0 : 0 ≤ (h.y / 2 + (h.x / 4) % 2) / 2 := by omega
      have hr1 : (h.y / 2 + (h.x / 4) % 2) / 2 < 3 * th := by omega
      have hc0 : 0 ≤ h.x / 4 := by omega
      have hc1 : h.x / 4 < 2 * tw := by omega
      refine ⟨_, ⟨hr0, hr1⟩, h.x / 4, ⟨hc0, hc1⟩, ?_⟩
      obtain ⟨_, g2, g3, g4⟩ := hexItem_spec hr0 hr1 hc0 hc1
      have e : wrapT tw th (Pt.ofInt (2 * (h.x / 4)) (2 * ((h.y / 2 + (h.x / 4) % 2) / 2) - (h.x / 4) % 2)) = h := by
        ext
        · rw [g2]; omega
        · rcases g3 with g3 | ⟨g3, g3', g3''⟩
          · rw [g3]; omega
          · rw [g3'']; omega
      exact ⟨e, by rw [g4, e]⟩
    · have hr0 : (0 : Int) ≤ 0 := le_refl _
      have hr1 : (0 : Int) < 3 * th := by omega
      have hc0 : 0 ≤ h.x / 4 := by omega
      have hc1 : h.x / 4 < 2 * tw := by omega
      refine ⟨0, ⟨hr0, hr1⟩, h.x / 4, ⟨hc0, hc1⟩, ?_⟩
      obtain ⟨⟨⟨_, _, g0, _⟩, _⟩, g2, g3, g4⟩ := hexItem_spec hr0 hr1 hc0 hc1
      have e : wrapT tw th (Pt.ofInt (2 * (h.x / 4)) (2 * 0 - (h.x / 4) % 2)) = h := by
        ext
        · rw [g2]; omega
        · rcases g3 with g3 | ⟨g3, g3', g3''⟩
          · rw [g3] at g0 ⊢; omega
          · rw [g3'']; omega
      exact ⟨e, by rw [g4, e]⟩

theorem nodup_hexCenterItems {lay : HoneycombLayout} (hv : lay.Valid) :
    (lay.hexCenterItems.map Prod.fst).Nodup := by
  have hw := Valid.tw_pos hv
  have hh := Valid.th_pos hv
  simp only [hexCenterItems, List.map_flatMap, List.map_map, wrap_eq]
  generalize lay.tile_width = tw at *
  generalize lay.tile_height = th at *
  rw [List.nodup_flatMap]
  constructor
  · intro row hrow
    rw [mem_pyRange] at hrow
    refine List.Nodup.map_on ?_ (nodup_pyRange _)
    intro a ha b hb hab
    rw [mem_pyRange] at ha hb
    obtain ⟨_, e1, _, _⟩ := hexItem_spec hrow.1 hrow.2 ha.1 ha.2
    obtain ⟨_, e2, _, _⟩ := hexItem_spec hrow.1 hrow.2 hb.1 hb.2
    simp only [Function.comp] at hab
    rw [hab, e2] at e1
    omega
  · refine List.Nodup.pairwise_of_forall_ne (nodup_pyRange _) ?_
    intro r1 h1 r2 h2 hne
    rw [mem_pyRange] at h1 h2
    intro p hp1 hp2
    simp only [List.mem_map, mem_pyRange, Function.comp] at hp1 hp2
    obtain ⟨c1, hc1, rfl⟩ := hp1
    obtain ⟨c2, hc2, hab⟩ := hp2
    obtain ⟨_, e1, f1, _⟩ := hexItem_spec h1.1 h1.2 hc1.1 hc1.2
    obtain ⟨_, e2, f2, _⟩ := hexItem_spec h2.1 h2.2 hc2.1 hc2.2
    rw [hab] at e2 f2
    generalize wrapT tw th (Pt.ofInt (2 * c1) (2 * r1 - c1 % 2)) = p at *
    omega

theorem hexCenterCategories_eq {lay : HoneycombLayout} (hv : lay.Valid) :
    lay.hexCenterCategories = lay.hexCenterItems := PyDict.ofItems_of_nodup (nodup_hexCenterItems hv)

theorem mem_round_hex_centers {lay : HoneycombLayout} (hv : lay.Valid) {r : Int} {h : Pt} :
    h ∈ lay.round_hex_centers r ↔ HexT lay.tile_width lay.tile_height h ∧ hexColour h = r := by
  simp only [round_hex_centers, sortedComplex, mem_sorted, List.mem_map, List.mem_filter,
    hexCenterCategories_eq hv, decide_eq_true_eq]
  constructor
  · rintro ⟨⟨h', c⟩, ⟨hm, hc⟩, rfl⟩
    obtain ⟨h1, h2⟩ := (mem_hexCenterItems hv).1 hm
    exact ⟨h1, by simp only at hc; rw [← hc, h2]⟩
  · rintro ⟨h1, h2⟩
    exact ⟨(h, r), ⟨(mem_hexCenterItems hv).2 ⟨h1, h2.symm⟩, rfl⟩, rfl⟩

theorem nodup_round_hex_centers {lay : HoneycombLayout} (hv : lay.Valid) (r : Int) :
    (lay.round_hex_centers r).Nodup := by
  simp only [round_hex_centers, sortedComplex, nodup_sorted, hexCenterCategories_eq hv]
  exact (nodup_hexCenterItems hv).sublist (List.filter_sublist.map _)

end Honeycomb
