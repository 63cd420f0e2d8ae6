import Verif.Lemmas.Links

/-! # Ways between detectors -/

namespace Honeycomb
open HoneycombLayout

variable {lay : HoneycombLayout} {N : Nat} {C : List (ZMod 2) → Prop}

namespace HoneycombLayout

/-- A way between two detectors. -/
def Way (lay : HoneycombLayout) (N : Nat) (C : List (ZMod 2) → Prop) : Nat × Pt → Nat × Pt → Prop := Relation.ReflTransGen (lay.Link N C)

theorem Way.symm {a b : Nat × Pt} (h : lay.Way N C a b) : lay.Way N C b a := by
  induction h with
  | refl => exact Relation.ReflTransGen.refl
  | tail _ h ih => exact (Relation.ReflTransGen.single h.symm).trans ih

theorem Way.one {a b : Nat × Pt} (h : lay.Link N C a b) : lay.Way N C a b := Relation.ReflTransGen.single h

/-- The colour of the faces whose final detectors are reached in the end. -/
def topColour (lay : HoneycombLayout) (N : Nat) : Int := if sameBasis lay N then (N : Int) - 1 else N

theorem det_cases (hv : lay.Valid) {a : Nat × Pt} (ha : lay.Det N a) :
    (lay.obs = "H" ∧ ∃ e ∈ lay.round_edges 0, a = (0, e.center)) ∨
    (∃ k < N, ∃ h ∈ lay.round_hex_centers (((k : Int) - 2) % 3), lay.faceKnown k (((k : Int) - 2) % 3) = true ∧ a = (k, h)) ∨
    (sameBasis lay N ∧ ∃ e ∈ lay.round_edges ((N : Int) - 1), a = (N, e.center)) ∨
    (¬ sameBasis lay N ∧ ∃ h ∈ lay.round_hex_centers (((N : Int) - 2) % 3), a = (N, h)) ∨
    ∃ h, HexT lay.tile_width lay.tile_height h ∧ hexColour h = lay.topColour N % 3 ∧ a = (N, h) := by
  obtain ⟨x, hx, rfl⟩ := ha
  rw [allDets, List.mem_append] at hx
  rcases hx with hx | hx
  · obtain ⟨k, hk, hx⟩ := List.mem_flatMap.1 hx
    obtain ⟨y, hy, rfl⟩ := List.mem_map.1 hx
    have hk := List.mem_range.1 hk
    rw [annDets, List.mem_append] at hy
    rcases hy with hy | hy
    · split_ifs at hy with h0
      · obtain ⟨e, he, rfl⟩ := List.mem_map.1 hy
        obtain ⟨rfl, hH⟩ := h0
        exact Or.inl ⟨hH, e, he, rfl⟩
      · simp at hy
    · split_ifs at hy with h0
      · obtain ⟨h, hh, rfl⟩ := List.mem_map.1 hy
        exact Or.inr (Or.inl ⟨k, hk, h, hh, h0, rfl⟩)
      · simp at hy
  · obtain ⟨y, hy, rfl⟩ := List.mem_map.1 hx
    rw [finDets] at hy
    right; right
    by_cases hs : sameBasis lay N
    · rw [if_pos hs, List.mem_append] at hy
      rcases hy with hy | hy
      · obtain ⟨e, he, rfl⟩ := List.mem_map.1 hy
        exact Or.inl ⟨hs, e, he, rfl⟩
      · split_ifs at hy
        · obtain ⟨h, hh, rfl⟩ := List.mem_map.1 hy
          obtain ⟨hx, hc⟩ := (mem_round_hex_centers hv).1 hh
          exact Or.inr (Or.inr ⟨h, hx, by rw [topColour, if_pos hs, hc], rfl⟩)
        · simp at hy
    · rw [if_neg hs, List.mem_append] at hy
      rcases hy with hy | hy
      · split_ifs at hy
        · obtain ⟨h, hh, rfl⟩ := List.mem_map.1 hy
          exact Or.inr (Or.inl ⟨hs, h, hh, rfl⟩)
        · simp at hy
      · split_ifs at hy
        · obtain ⟨h, hh, rfl⟩ := List.mem_map.1 hy
          obtain ⟨hx, hc⟩ := (mem_round_hex_centers hv).1 hh
          exact Or.inr (Or.inr ⟨h, hx, by rw [topColour, if_neg hs, hc], rfl⟩)
        · simp at hy

theorem Joins.link {a b : Nat × Pt} (h : lay.Joins N C a b) (ha : lay.FinalHalfLayer a.1) : lay.FinalHalfLayer b.1 ∧ lay.Link N C a b := by
  rcases h with ⟨h1, h2⟩ | ⟨h1, -⟩
  · exact ⟨h1.1 ha, h2⟩
  · exact absurd ha h1

/-- The detectors of the half all lead to final detectors of faces. -/
theorem climb (hv : lay.Valid) (hs : lay.Supported) (hN : lay.sub_rounds = N) (hC : lay.Happens N C) : ∀ (n : Nat) {a : Nat × Pt}, N - a.1 ≤ n → lay.Det N a →
    lay.FinalHalfLayer a.1 → ∃ h, HexT lay.tile_width lay.tile_height h ∧ hexColour h = lay.topColour N % 3 ∧ lay.Way N C a (N, h)
  | n, a, hn, ha, hf => by
    have h1 : 1 ≤ N := by have := hs.2.2.1; omega
    rcases det_cases hv ha with ⟨hH, e, he, rfl⟩ | ⟨k, hk, h, hh, hkn, rfl⟩ | ⟨hsb, e, he, rfl⟩ | ⟨hsb, h, hh, rfl⟩ | ⟨h, hx, hc, rfl⟩
    · obtain ⟨g1, g2⟩ := (joins_first hv hs hN hC hH he (Or.inl rfl)).link hf
      match n with
      | 0 => simp only at hn; omega
      | n + 1 =>
        obtain ⟨h, hx, hc, hw⟩ := climb hv hs hN hC n (by simp only at hn ⊢; omega) g2.right g1
        exact ⟨h, hx, hc, (Way.one g2).trans hw⟩
    · obtain ⟨q, hq⟩ := exists_around lay h
      obtain ⟨g1, g2⟩ := (joins_face hv hs hN hC hk hh hkn hq).link hf
      match n with
      | 0 => simp only at hn; omega
      | n + 1 =>
        obtain ⟨h, hx, hc, hw⟩ := climb hv hs hN hC n (by simp only at hn ⊢; omega) g2.right g1
        exact ⟨h, hx, hc, (Way.one g2).trans hw⟩
    · obtain ⟨g1, g2⟩ := (joins_edge hv hs hN hC hsb he (Or.inl rfl)).link hf
      obtain ⟨s1, s2, -⟩ := faceAt_spec hv (edge_ends_data hv (round_edges_subset_all he)).1 ((N : Int) - 1)
      exact ⟨_, s1, by rw [topColour, if_pos hsb, s2], Way.one g2⟩
    · obtain ⟨q, hq⟩ := exists_around lay h
      obtain ⟨hx, hc⟩ := (mem_round_hex_centers hv).1 hh
      obtain ⟨g1, g2⟩ := (joins_half hv hs hN hC hsb hh hq).link hf
      obtain ⟨s1, s2, -⟩ := faceAt_spec hv (qubits_around_hex_data hv hx hq) (N : Int)
      exact ⟨_, s1, by rw [topColour, if_neg hsb, s2], Way.one g2⟩
    · exact ⟨h, hx, hc, Relation.ReflTransGen.refl⟩

/-- The two steps between faces of one colour follow an edge, and a face of the next colour is at both its ends. -/
theorem step_edge (hv : lay.Valid) {c : Int} {h : Pt} (hx : HexT lay.tile_width lay.tile_height h) (hc : hexColour h = c % 3) {d : Pt} (hd : d = ⟨8, 0⟩ ∨ d = ⟨4, 6⟩) :
    ∃ e ∈ lay.round_edges c, ∃ p q, (p = e.left ∨ p = e.right) ∧ (q = e.left ∨ q = e.right) ∧ lay.faceAt p c = h ∧ lay.faceAt q c = shp lay.tile_width lay.tile_height h d ∧
      ∃ g ∈ lay.round_hex_centers ((c - 2) % 3), p ∈ lay.qubits_around_hex g ∧ q ∈ lay.qubits_around_hex g := by
  have hp := And.intro (Valid.tw_pos hv) (Valid.th_pos hv)
  have near : ∀ (f o : Pt), o.x % 4 = 0 → o.y % 2 = 0 → (o.y - o.x / 2) % 4 = 0 → (∃ u ∈ hexOffsets, o + u = f) → ∀ c' : Int, (c + o.y / 2) % 3 = c' % 3 →
      HexT lay.tile_width lay.tile_height (shp lay.tile_width lay.tile_height h o) ∧ hexColour (shp lay.tile_width lay.tile_height h o) = c' % 3 ∧
      shp lay.tile_width lay.tile_height h f ∈ lay.qubits_around_hex (shp lay.tile_width lay.tile_height h o) := by
    rintro f o o1 o2 o3 ⟨u, hu, rfl⟩ c' hc'
    obtain ⟨g1, g2⟩ := hex_shift hp hx o o1 o2 o3
    refine ⟨g1, by rw [g2]; omega, mem_qubits_around_hex.2 ⟨u, hu, shp_shp _ _ _⟩⟩
  have own : ∀ f ∈ hexOffsets, lay.faceAt (shp lay.tile_width lay.tile_height h f) c = h := fun f hf =>
    faceAt_eq hv hx (mem_qubits_around_hex.2 ⟨f, hf, rfl⟩) hc
  rcases hd with rfl | rfl
  · refine ⟨edgeT lay.tile_width lay.tile_height h .t2, (mem_round_edges hv).2 ⟨h, .t2, hx, hc, rfl⟩, shp lay.tile_width lay.tile_height h ⟨2, 0⟩,
      shp lay.tile_width lay.tile_height h ⟨6, 0⟩, Or.inl rfl, Or.inr rfl, own _ (by decide), ?_, shp lay.tile_width lay.tile_height h ⟨4, 2⟩, ?_, ?_, ?_⟩
    · obtain ⟨g1, g2, g3⟩ := near ⟨6, 0⟩ ⟨8, 0⟩ (by decide) (by decide) (by decide) (by decide) c (by simp only; omega)
      exact faceAt_eq hv g1 g3 g2
    · obtain ⟨g1, g2, g3⟩ := near ⟨6, 0⟩ ⟨4, 2⟩ (by decide) (by decide) (by decide) (by decide) (c - 2) (by simp only; omega)
      exact (mem_round_hex_centers hv).2 ⟨g1, g2⟩
    · exact (near ⟨2, 0⟩ ⟨4, 2⟩ (by decide) (by decide) (by decide) (by decide) (c - 2) (by simp only; omega)).2.2
    · exact (near ⟨6, 0⟩ ⟨4, 2⟩ (by decide) (by decide) (by decide) (by decide) (c - 2) (by simp only; omega)).2.2
  · refine ⟨edgeT lay.tile_width lay.tile_height h .t1, (mem_round_edges hv).2 ⟨h, .t1, hx, hc, rfl⟩, shp lay.tile_width lay.tile_height h ⟨2, 2⟩,
      shp lay.tile_width lay.tile_height h ⟨2, 4⟩, Or.inr rfl, Or.inl rfl, own _ (by decide), ?_, shp lay.tile_width lay.tile_height h ⟨4, 2⟩, ?_, ?_, ?_⟩
    · obtain ⟨g1, g2, g3⟩ := near ⟨2, 4⟩ ⟨4, 6⟩ (by decide) (by decide) (by decide) (by decide) c (by simp only; omega)
      exact faceAt_eq hv g1 g3 g2
    · obtain ⟨g1, g2, g3⟩ := near ⟨2, 4⟩ ⟨4, 2⟩ (by decide) (by decide) (by decide) (by decide) (c - 2) (by simp only; omega)
      exact (mem_round_hex_centers hv).2 ⟨g1, g2⟩
    · exact (near ⟨2, 2⟩ ⟨4, 2⟩ (by decide) (by decide) (by decide) (by decide) (c - 2) (by simp only; omega)).2.2
    · exact (near ⟨2, 4⟩ ⟨4, 2⟩ (by decide) (by decide) (by decide) (by decide) (c - 2) (by simp only; omega)).2.2

/-- There is a way between any two of the last detectors. -/
theorem tops_joined (hv : lay.Valid) (hs : lay.Supported) (hN : lay.sub_rounds = N) (hC : lay.Happens N C) {a b : Pt}
    (ha : HexT lay.tile_width lay.tile_height a) (hb : HexT lay.tile_width lay.tile_height b) (hca : hexColour a = lay.topColour N % 3)
    (hcb : hexColour b = lay.topColour N % 3) : lay.Way N C (N, a) (N, b) := by
  have hf : lay.FinalHalfLayer N := Or.inl hN.symm
  have step : ∀ d : Pt, d = ⟨8, 0⟩ ∨ d = ⟨4, 6⟩ → ∀ h, HexT lay.tile_width lay.tile_height h → hexColour h = lay.topColour N % 3 →
      lay.Way N C (N, h) (N, shp lay.tile_width lay.tile_height h d) := by
    intro d hd h hx hc
    obtain ⟨e, he, p, q, hp, hq, f1, f2, g, hg, m1, m2⟩ := step_edge hv hx hc hd
    rw [topColour] at he f1 f2 hg
    split_ifs at he f1 f2 hg with hsb
    · have l1 := ((joins_edge hv hs hN hC hsb he hp).link hf).2
      have l2 := ((joins_edge hv hs hN hC hsb he hq).link hf).2
      rw [f1] at l1
      rw [f2] at l2
      exact (Way.one l1).symm.trans (Way.one l2)
    · have l1 := ((joins_half hv hs hN hC hsb hg m1).link hf).2
      have l2 := ((joins_half hv hs hN hC hsb hg m2).link hf).2
      rw [f1] at l1
      rw [f2] at l2
      exact (Way.one l1).symm.trans (Way.one l2)
  exact faces_joined hv (r := fun a b => lay.Way N C (N, a) (N, b)) (fun _ => Relation.ReflTransGen.refl) (fun h => h.symm) (fun h h' => h.trans h')
    (step _ (Or.inl rfl)) (step _ (Or.inr rfl)) ha hb hca hcb

/-- There is a way between any two detectors of the half. -/
theorem half_joined (hv : lay.Valid) (hs : lay.Supported) (hN : lay.sub_rounds = N) (hC : lay.Happens N C) {a b : Nat × Pt} (ha : lay.Det N a) (hb : lay.Det N b)
    (hfa : lay.FinalHalfLayer a.1) (hfb : lay.FinalHalfLayer b.1) : lay.Way N C a b := by
  obtain ⟨h, h1, h2, h3⟩ := climb hv hs hN hC _ (le_refl _) ha hfa
  obtain ⟨g, g1, g2, g3⟩ := climb hv hs hN hC _ (le_refl _) hb hfb
  exact (h3.trans (tops_joined hv hs hN hC h1 g1 h2 g2)).trans g3.symm

/-- Every detector of the other half leads to one that some record fires alone. -/
theorem escape (hv : lay.Valid) (hs : lay.Supported) (hN : lay.sub_rounds = N) (hC : lay.Happens N C) : ∀ (n : Nat) {a : Nat × Pt}, N - a.1 ≤ n → lay.Det N a →
    ¬ lay.FinalHalfLayer a.1 → ∃ b, lay.Det N b ∧ lay.Way N C a b ∧ lay.Fires N C fun x => x = b
  | n, a, hn, ha, hf => by
    have hfN : lay.FinalHalfLayer N := Or.inl hN.symm
    rcases det_cases hv ha with ⟨hH, e, he, rfl⟩ | ⟨k, hk, h, hh, hkn, rfl⟩ | ⟨hsb, e, he, rfl⟩ | ⟨hsb, h, hh, rfl⟩ | ⟨h, hx, hc, rfl⟩
    · exact absurd (Or.inr (by rw [hH]; rfl)) hf
    · obtain ⟨q, hq⟩ := exists_around lay h
      rcases joins_face hv hs hN hC hk hh hkn hq with ⟨g1, g2⟩ | ⟨-, g⟩
      · match n with
        | 0 => simp only at hn; omega
        | n + 1 =>
          obtain ⟨b, hb, hw, hfire⟩ := escape hv hs hN hC n (by simp only at hn ⊢; omega) g2.right (fun h => hf (g1.2 h))
          exact ⟨b, hb, (Way.one g2).trans hw, hfire⟩
      · exact ⟨_, ha, Relation.ReflTransGen.refl, g⟩
    · exact absurd hfN hf
    · exact absurd hfN hf
    · exact absurd hfN hf

end HoneycombLayout
end Honeycomb
