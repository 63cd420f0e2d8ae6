import Verif.Lemmas.Symptoms

/-! # The faces of one colour form one piece -/

namespace Honeycomb
namespace HoneycombLayout
variable {lay : HoneycombLayout}

/-- The faces of one colour are joined by steps to the right and up. -/
theorem faces_joined (hv : lay.Valid) {c : Int} {r : Pt → Pt → Prop} (refl : ∀ h, r h h) (symm : ∀ {a b}, r a b → r b a) (trans : ∀ {a b d}, r a b → r b d → r a d)
    (right : ∀ h, HexT lay.tile_width lay.tile_height h → hexColour h = c % 3 → r h (shp lay.tile_width lay.tile_height h ⟨8, 0⟩))
    (up : ∀ h, HexT lay.tile_width lay.tile_height h → hexColour h = c % 3 → r h (shp lay.tile_width lay.tile_height h ⟨4, 6⟩))
    {a b : Pt} (ha : HexT lay.tile_width lay.tile_height a) (hb : HexT lay.tile_width lay.tile_height b) (hca : hexColour a = c % 3) (hcb : hexColour b = c % 3) : r a b := by
  have hp := And.intro (Valid.tw_pos hv) (Valid.th_pos hv)
  have many : ∀ d : Pt, d.x % 4 = 0 → d.y % 2 = 0 → (d.y - d.x / 2) % 4 = 0 → d.y % 6 = 0 →
      (∀ h, HexT lay.tile_width lay.tile_height h → hexColour h = c % 3 → r h (shp lay.tile_width lay.tile_height h d)) →
      ∀ n : Int, ∀ h, HexT lay.tile_width lay.tile_height h → hexColour h = c % 3 → r h (shp lay.tile_width lay.tile_height h ⟨d.x * n, d.y * n⟩) := by
    intro d d1 d2 d3 d6 one n
    have mult : ∀ n : Int, (d.x * n) % 4 = 0 ∧ (d.y * n) % 2 = 0 ∧ (d.y * n - d.x * n / 2) % 4 = 0 ∧ (d.y * n / 2) % 3 = 0 := by
      intro n
      obtain ⟨u, hu⟩ : ∃ u, d.x = 4 * u := ⟨d.x / 4, by omega⟩
      obtain ⟨v, hv⟩ : ∃ v, d.y = 6 * v := ⟨d.y / 6, by omega⟩
      rw [hu, hv] at d3 ⊢
      obtain ⟨w, hw⟩ : ∃ w, 6 * v - 2 * u = 4 * w := ⟨(6 * v - 2 * u) / 4, by omega⟩
      have e1 : 4 * u * n = 4 * (u * n) := by ring
      have e2 : 6 * v * n = 6 * (v * n) := by ring
      have e3 : 6 * (v * n) - 2 * (u * n) = 4 * (w * n) := by linear_combination n * hw
      rw [e1, e2]
      refine ⟨?_, ?_, ?_, ?_⟩ <;> omega
    have hex : ∀ n : Int, ∀ h, HexT lay.tile_width lay.tile_height h → hexColour h = c % 3 →
        HexT lay.tile_width lay.tile_height (shp lay.tile_width lay.tile_height h ⟨d.x * n, d.y * n⟩) ∧
        hexColour (shp lay.tile_width lay.tile_height h ⟨d.x * n, d.y * n⟩) = c % 3 := by
      intro n h hx hc
      obtain ⟨m1, m2, m3, m4⟩ := mult n
      obtain ⟨g1, g2⟩ := hex_shift hp hx ⟨d.x * n, d.y * n⟩ m1 m2 m3
      refine ⟨g1, ?_⟩
      rw [g2]
      simp only
      omega
    have add : ∀ n : Int, ∀ h, shp lay.tile_width lay.tile_height (shp lay.tile_width lay.tile_height h ⟨d.x * n, d.y * n⟩) d =
        shp lay.tile_width lay.tile_height h ⟨d.x * (n + 1), d.y * (n + 1)⟩ := by
      intro n h
      rw [shp_shp]
      congr 1
      ext <;> simp <;> ring
    induction n with
    | zero =>
      intro h hx _
      have : shp lay.tile_width lay.tile_height h ⟨d.x * 0, d.y * 0⟩ = h := by
        rw [mul_zero, mul_zero]
        exact shp_zero hx.1
      rw [this]
      exact refl h
    | succ n ih =>
      intro h hx hc
      have := one _ (hex n h hx hc).1 (hex n h hx hc).2
      rw [add] at this
      exact trans (ih h hx hc) this
    | pred n ih =>
      intro h hx hc
      have := one _ (hex (-n - 1) h hx hc).1 (hex (-n - 1) h hx hc).2
      rw [add, show -(n : Int) - 1 + 1 = -n by ring] at this
      exact trans (ih h hx hc) (symm this)
  obtain ⟨a1, a2, a3, a4⟩ := ha
  obtain ⟨b1, b2, b3, b4⟩ := hb
  have hy : (b.y - a.y) % 6 = 0 := by rw [hexColour] at hca hcb; omega
  have h1 := many ⟨4, 6⟩ (by decide) (by decide) (by decide) (by decide) up ((b.y - a.y) / 6) a ⟨a1, a2, a3, a4⟩ hca
  have hx1 : HexT lay.tile_width lay.tile_height (shp lay.tile_width lay.tile_height a ⟨4 * ((b.y - a.y) / 6), 6 * ((b.y - a.y) / 6)⟩) ∧
      hexColour (shp lay.tile_width lay.tile_height a ⟨4 * ((b.y - a.y) / 6), 6 * ((b.y - a.y) / 6)⟩) = c % 3 := by
    obtain ⟨g1, g2⟩ := hex_shift hp (show HexT lay.tile_width lay.tile_height a from ⟨a1, a2, a3, a4⟩) ⟨4 * ((b.y - a.y) / 6), 6 * ((b.y - a.y) / 6)⟩ (by simp only; omega) (by simp only; omega) (by simp only; omega)
    refine ⟨g1, ?_⟩
    rw [g2]
    simp only
    omega
  have h2 := many ⟨8, 0⟩ (by decide) (by decide) (by decide) (by decide) right ((b.x - a.x - 4 * ((b.y - a.y) / 6)) / 8) _ hx1.1 hx1.2
  rw [shp_shp] at h2
  have e : (⟨4 * ((b.y - a.y) / 6), 6 * ((b.y - a.y) / 6)⟩ + ⟨8 * ((b.x - a.x - 4 * ((b.y - a.y) / 6)) / 8), 0 * ((b.x - a.x - 4 * ((b.y - a.y) / 6)) / 8)⟩ : Pt) = b - a := by
    ext <;> simp <;> omega
  rw [e] at h2
  have e2 : shp lay.tile_width lay.tile_height a (b - a) = b := by
    have : shp lay.tile_width lay.tile_height a (b - a) = shp lay.tile_width lay.tile_height b ⟨0, 0⟩ := by
      rw [shp, shp]; congr 1; ext <;> simp
    rw [this]
    exact shp_zero b1
  rw [e2] at h2
  exact trans h1 h2

end HoneycombLayout
end Honeycomb
