import Verif.Lemmas.Symptoms

/-!
# Which detectors a wrong result can fire
-/

namespace Honeycomb
namespace HoneycombLayout
variable {lay : HoneycombLayout} {N : Nat}

/-- After how many sub-rounds a face reading is compared with the same edges again. -/
def gapOf (lay : HoneycombLayout) : Int := if lay.style = "PC3" then 6 else 3

/-- Result `m` is the one of edge `e` in sub-round `j`. -/
def IsEdgeResult (lay : HoneycombLayout) (N : Nat) (m j : Int) (e : Edge) : Prop :=
  0 ≤ j ∧ j < N ∧ e ∈ lay.round_edges j ∧ m = lay.edgeRecord j e

/-- Result `m` is the final one of data qubit `q`. -/
def IsDataResult (lay : HoneycombLayout) (m : Int) (q : Pt) : Prop := q ∈ lay.data_qubit_coords ∧ m = lay.dataRecord q

theorem IsEdgeResult.unique (hv : lay.Valid) {m j j' : Int} {e e' : Edge} (h : lay.IsEdgeResult N m j e) (h' : lay.IsEdgeResult N m j' e') :
    j = j' ∧ e = e' := by
  obtain ⟨a1, a2, a3, a4⟩ := h
  obtain ⟨b1, b2, b3, b4⟩ := h'
  have e1 := mTime_int hv a1 e
  have e2 := mTime_int hv b1 e'
  have := mTime_inj hv (j := j.toNat) (j' := j'.toNat) (e := e) (e' := e') (by rwa [Int.toNat_of_nonneg a1]) (by rwa [Int.toNat_of_nonneg b1])
    (by omega)
  exact ⟨by omega, this.2⟩

theorem IsDataResult.unique (hv : lay.Valid) (hN : lay.sub_rounds = N) {m : Int} {q q' : Pt} (h : lay.IsDataResult m q) (h' : lay.IsDataResult m q') : q = q' := by
  refine dTime_inj (N := N) h.1 ?_
  have e1 := dTime_int hv hN q
  have e2 := dTime_int hv hN q'
  have h1 := h.2
  have h2 := h'.2
  omega

theorem IsEdgeResult.not_data (hv : lay.Valid) (hN : lay.sub_rounds = N) {m j : Int} {e : Edge} {q : Pt} (h : lay.IsEdgeResult N m j e)
    (h' : lay.IsDataResult m q) : False := by
  obtain ⟨a1, a2, a3, a4⟩ := h
  have e1 := mTime_int hv a1 e
  have e2 := dTime_int hv hN q
  have h2 := h'.2
  have h3 := mTime_lt hv (k := j.toNat) (e := e) (by rwa [Int.toNat_of_nonneg a1])
  have h4 : (j.toNat + 1) * lay.perRound ≤ N * lay.perRound := Nat.mul_le_mul_right _ (by omega)
  have h5 : N * lay.perRound ≤ lay.dTime N q := Nat.le_add_right _ _
  omega

/-- How a detector uses result `m`. -/
inductive UsedBy (lay : HoneycombLayout) (N : Nat) (m : Int) : Nat × Pt → Prop
  | first {e : Edge} : lay.obs = "H" → lay.IsEdgeResult N m 0 e → UsedBy lay N m (0, e.center)
  | face {k : Nat} {h : Pt} {j : Int} {e : Edge} : k < N → (lay.obs = "H" → 2 ≤ k) → HexT lay.tile_width lay.tile_height h → lay.IsEdgeResult N m j e →
      (e ∈ lay.second_edges_around_hex h ∧ (k = j ∨ k = j + lay.gapOf) ∨ e ∈ lay.first_edges_around_hex h ∧ (k = j + 1 ∨ k = j + 1 + lay.gapOf)) →
      UsedBy lay N m (k, h)
  | edge {e : Edge} {j : Int} : sameBasis lay N → lay.IsEdgeResult N m j e → (j = (N : Int) - 1 ∨ lay.style = "PC3" ∧ j = (N : Int) - 4) → UsedBy lay N m (N, e.center)
  | edgeData {e : Edge} {q : Pt} : e ∈ lay.round_edges ((N : Int) - 1) → (q = e.left ∨ q = e.right) → lay.IsDataResult m q → UsedBy lay N m (N, e.center)
  | last {h : Pt} {j : Int} {e : Edge} : HexT lay.tile_width lay.tile_height h → (sameBasis lay N → j % 3 ≠ ((N : Int) - 1) % 3) → lay.IsEdgeResult N m j e →
      (e ∈ lay.second_edges_around_hex h ∧ N ≤ j + lay.gapOf ∨ e ∈ lay.first_edges_around_hex h ∧ N ≤ j + 1 + lay.gapOf) → UsedBy lay N m (N, h)
  | lastData {h : Pt} {q : Pt} : HexT lay.tile_width lay.tile_height h → q ∈ lay.qubits_around_hex h → lay.IsDataResult m q → UsedBy lay N m (N, h)

theorem edge_side (hv : lay.Valid) {h : Pt} (hx : HexT lay.tile_width lay.tile_height h) {e : Edge} (he : e ∈ lay.all_edges_around_hex h) {j : Int}
    (hj : e ∈ lay.round_edges j) :
    e ∈ lay.second_edges_around_hex h ∧ j % 3 = (hexColour h + 2) % 3 ∨ e ∈ lay.first_edges_around_hex h ∧ j % 3 = (hexColour h + 1) % 3 := by
  rw [all_edges_around_hex, List.mem_append] at he
  rcases he with he | he
  · exact Or.inr ⟨he, round_edges_disjoint hv hj (first_edges_mem hv hx he)⟩
  · exact Or.inl ⟨he, round_edges_disjoint hv hj (second_edges_mem hv hx he)⟩

theorem last_used (hv : lay.Valid) {m : Int} {h : Pt} (hx : HexT lay.tile_width lay.tile_height h) {js : List Int}
    (hm : m ∈ lay.faceData h ∪ lay.faceRecords h js) (hjs : ∀ j ∈ js, j < N ∧ (sameBasis lay N → j % 3 ≠ ((N : Int) - 1) % 3) ∧
      (j % 3 = (hexColour h + 2) % 3 → N ≤ j + lay.gapOf) ∧ (j % 3 = (hexColour h + 1) % 3 → N ≤ j + 1 + lay.gapOf)) : lay.UsedBy N m (N, h) := by
  rcases hm with ⟨q, hq, rfl⟩ | ⟨j, hj, h0, e, he, hr, rfl⟩
  · exact .lastData hx hq ⟨qubits_around_hex_data hv hx hq, rfl⟩
  · obtain ⟨a, b, c, d⟩ := hjs j hj
    refine .last hx b ⟨h0, a, hr, rfl⟩ ?_
    rcases edge_side hv hx he hr with ⟨s, t⟩ | ⟨s, t⟩
    · exact Or.inl ⟨s, c t⟩
    · exact Or.inr ⟨s, d t⟩

theorem mem_ite_nil {α : Type} {c : Prop} [Decidable c] {l : List α} {x : α} (h : x ∈ if c then l else []) : c ∧ x ∈ l := by
  split_ifs at h with hc
  · exact ⟨hc, h⟩
  · simp at h

theorem usedBy (hv : lay.Valid) (hN : lay.sub_rounds = N) (h1 : 1 ≤ N) {m : Int} {x : Nat × ExpectedDetector}
    (hx : x ∈ lay.expectedDetectors) (hm : m ∈ x.2.records) : lay.UsedBy N m (x.1, x.2.place) := by
  rw [expectedDetectors, List.mem_append, hN, Int.toNat_natCast] at hx
  rcases hx with hx | hx
  · obtain ⟨k, hk, hx⟩ := List.mem_flatMap.1 hx
    obtain ⟨y, hy, rfl⟩ := List.mem_map.1 hx
    have hk := List.mem_range.1 hk
    rw [roundDetectors, List.mem_append] at hy
    rcases hy with hy | hy
    · obtain ⟨⟨hk0, hH⟩, hy'⟩ := mem_ite_nil hy
      obtain ⟨e, he, rfl⟩ := List.mem_map.1 hy'
      subst hk0
      exact .first hH ⟨le_refl _, by omega, he, hm⟩
    · obtain ⟨h0, hy⟩ := mem_ite_nil hy
      obtain ⟨h, hh, rfl⟩ := List.mem_map.1 hy
      obtain ⟨hx, hc⟩ := (mem_round_hex_centers hv).1 hh
      obtain ⟨j, hj, hj0, e, he, hr, rfl⟩ := hm
      have hj' : (k = j ∨ k = j + 1 ∨ k = j + lay.gapOf ∨ k = j + 1 + lay.gapOf) ∧ lay.gapOf % 3 = 0 ∧ 0 ≤ lay.gapOf := by
        rw [gapOf]
        split_ifs at hj ⊢ <;> simp only [List.mem_cons, List.not_mem_nil, or_false] at hj <;> omega
      refine .face hk (fun hH => ?_) hx ⟨hj0, by omega, hr, rfl⟩ ?_
      · rw [faceKnown, if_neg (by rw [hH]; decide)] at h0
        simp only [decide_eq_true_eq] at h0
        omega
      · rcases edge_side hv hx he hr with ⟨s, t⟩ | ⟨s, t⟩
        · exact Or.inl ⟨s, by omega⟩
        · exact Or.inr ⟨s, by omega⟩
  · obtain ⟨y, hy, rfl⟩ := List.mem_map.1 hx
    have face : ∀ {c : Int} {h : Pt} {js : List Int}, h ∈ lay.round_hex_centers (c % 3) → m ∈ lay.faceData h ∪ lay.faceRecords h js →
        (∀ j ∈ js, j < N ∧ (sameBasis lay N → j % 3 ≠ ((N : Int) - 1) % 3) ∧
      (j % 3 = (c + 2) % 3 → N ≤ j + lay.gapOf) ∧ (j % 3 = (c + 1) % 3 → N ≤ j + 1 + lay.gapOf)) → lay.UsedBy N m (N, h) := by
      intro c h js hh hm hjs
      obtain ⟨hx, hc⟩ := (mem_round_hex_centers hv).1 hh
      refine last_used hv hx hm fun j hj => ?_
      obtain ⟨a, b, c, d⟩ := hjs j hj
      exact ⟨a, b, fun h => c (by omega), fun h => d (by omega)⟩
    rw [finalDetectors] at hy
    simp only [hN] at hy
    have hgap : lay.gapOf = if lay.style = "PC3" then 6 else 3 := rfl
    by_cases hs : sameBasis lay N
    · rw [if_pos (show _ ∨ _ from hs), List.mem_append] at hy
      rcases hy with hy | hy
      · obtain ⟨e, he, rfl⟩ := List.mem_map.1 hy
        have hd := edge_ends_data hv (round_edges_subset_all he)
        rcases hm with rfl | rfl | rfl | ⟨hp, h4, rfl⟩
        · exact .edgeData he (Or.inl rfl) ⟨hd.1, rfl⟩
        · exact .edgeData he (Or.inr rfl) ⟨hd.2, rfl⟩
        · exact .edge hs ⟨by omega, by omega, he, rfl⟩ (Or.inl rfl)
        · exact .edge hs ⟨by omega, by omega, by rw [round_edges_congr lay (r' := (N : Int) - 1) (by omega)]; exact he, rfl⟩ (Or.inr ⟨hp, rfl⟩)
      · obtain ⟨h0, hy⟩ := mem_ite_nil hy
        obtain ⟨h, hh, rfl⟩ := List.mem_map.1 hy
        refine face hh hm fun j hj => ?_
        rw [hgap]
        split_ifs at hj ⊢ <;> simp only [List.mem_cons, List.not_mem_nil, or_false] at hj <;> omega
    · rw [if_neg (show ¬ (_ ∨ _) from hs), List.mem_append] at hy
      rcases hy with hy | hy
      all_goals
        obtain ⟨h0, hy⟩ := mem_ite_nil hy
        obtain ⟨h, hh, rfl⟩ := List.mem_map.1 hy
        refine face hh hm fun j hj => ?_
        rw [hgap]
        refine ⟨?_, fun h => absurd h hs, ?_, ?_⟩ <;> split_ifs at hj ⊢ <;> simp only [List.mem_cons, List.not_mem_nil, or_false] at hj <;> omega

/-- The detectors, by layer and place, that use one result. -/
theorem record_hits (hv : lay.Valid) (hN : lay.sub_rounds = N) (h1 : 1 ≤ N) (m : Int) :
    ∃ hits : List (Nat × Pt), hits.length ≤ 4 ∧ ∀ key, lay.UsedBy N m key → key ∈ hits := by
  have hg : 0 < lay.gapOf ∧ (lay.style = "PC3" → lay.gapOf = 6) := by
    rw [gapOf]
    split_ifs with h
    · exact ⟨by omega, fun _ => rfl⟩
    · exact ⟨by omega, fun h' => absurd h' h⟩
  by_cases hE : ∃ j e, lay.IsEdgeResult N m j e
  · obtain ⟨j, e, hr⟩ := hE
    have ha := round_edges_subset_all hr.2.2.1
    obtain ⟨f1, -, u1⟩ := first_edge_face hv ha
    obtain ⟨f2, -, u2⟩ := second_edge_face hv ha
    have uniq : ∀ {j' e'}, lay.IsEdgeResult N m j' e' → j' = j ∧ e' = e := fun h => h.unique hv hr
    obtain ⟨k0, rfl⟩ := Int.eq_ofNat_of_zero_le hr.1
    have hlt := hr.2.1
    by_cases hsp : sameBasis lay N ∧ ((k0 : Int) = N - 1 ∨ lay.style = "PC3" ∧ (k0 : Int) = N - 4)
    · have hgs : (N : Int) ≤ k0 + lay.gapOf := by
        rcases hsp.2 with h | ⟨hp, h⟩
        · omega
        · have := hg.2 hp; omega
      refine ⟨[(k0, f2), (k0 + 1, f1), (N, e.center), (0, e.center)], by simp, fun key hk => ?_⟩
      cases hk with
      | first _ h => obtain ⟨-, rfl⟩ := uniq h; simp
      | @face k h _ _ hkN _ hx h hu =>
        obtain ⟨rfl, rfl⟩ := uniq h
        rcases hu with ⟨s, t⟩ | ⟨s, t⟩
        · obtain rfl := u2 _ ⟨hx, s⟩
          obtain rfl : k = k0 := by omega
          simp
        · obtain rfl := u1 _ ⟨hx, s⟩
          obtain rfl : k = k0 + 1 := by omega
          simp
      | edge _ h _ => obtain ⟨-, rfl⟩ := uniq h; simp
      | edgeData _ _ h => exact (hr.not_data hv hN h).elim
      | last _ hs h _ => obtain ⟨rfl, rfl⟩ := uniq h; exact absurd (by omega) (hs hsp.1)
      | lastData _ _ h => exact (hr.not_data hv hN h).elim
    · obtain ⟨g, hgN⟩ := Int.eq_ofNat_of_zero_le hg.1.le
      by_cases h0 : k0 = 0 ∧ lay.obs = "H"
      · obtain ⟨rfl, hH⟩ := h0
        refine ⟨[(0, e.center), (min g N, f2), (min (1 + g) N, f1)], by simp, fun key hk => ?_⟩
        cases hk with
        | first _ h => obtain ⟨-, rfl⟩ := uniq h; simp
        | @face k h _ _ hkN h2 hx h hu =>
          obtain ⟨rfl, rfl⟩ := uniq h
          have h2 := h2 hH
          rcases hu with ⟨s, t⟩ | ⟨s, t⟩
          · obtain rfl := u2 _ ⟨hx, s⟩
            obtain rfl : k = min g N := by omega
            simp
          · obtain rfl := u1 _ ⟨hx, s⟩
            obtain rfl : k = min (1 + g) N := by omega
            simp
        | edge hs h hu => obtain ⟨rfl, rfl⟩ := uniq h; exact absurd ⟨hs, hu⟩ hsp
        | edgeData _ _ h => exact (hr.not_data hv hN h).elim
        | last hx _ h hu =>
          obtain ⟨rfl, rfl⟩ := uniq h
          rcases hu with ⟨s, t⟩ | ⟨s, t⟩
          · obtain rfl := u2 _ ⟨hx, s⟩
            rw [show min g N = N by omega]; simp
          · obtain rfl := u1 _ ⟨hx, s⟩
            rw [show min (1 + g) N = N by omega]; simp
        | lastData _ _ h => exact (hr.not_data hv hN h).elim
      · refine ⟨[(k0, f2), (min (k0 + g) N, f2), (min (k0 + 1) N, f1), (min (k0 + 1 + g) N, f1)], by simp, fun key hk => ?_⟩
        cases hk with
        | first hH h =>
          obtain ⟨hz, rfl⟩ := uniq h
          exact absurd ⟨by omega, hH⟩ h0
        | @face k h _ _ hkN h2 hx h hu =>
          obtain ⟨rfl, rfl⟩ := uniq h
          rcases hu with ⟨s, t⟩ | ⟨s, t⟩
          · obtain rfl := u2 _ ⟨hx, s⟩
            have : k = k0 ∨ k = min (k0 + g) N := by omega
            rcases this with rfl | rfl <;> simp
          · obtain rfl := u1 _ ⟨hx, s⟩
            have : k = min (k0 + 1) N ∨ k = min (k0 + 1 + g) N := by omega
            rcases this with rfl | rfl <;> simp
        | edge hs h hu => obtain ⟨rfl, rfl⟩ := uniq h; exact absurd ⟨hs, hu⟩ hsp
        | edgeData _ _ h => exact (hr.not_data hv hN h).elim
        | last hx _ h hu =>
          obtain ⟨rfl, rfl⟩ := uniq h
          rcases hu with ⟨s, t⟩ | ⟨s, t⟩
          · obtain rfl := u2 _ ⟨hx, s⟩
            rw [show min (k0 + g) N = N by omega]; simp
          · obtain rfl := u1 _ ⟨hx, s⟩
            rw [show min (k0 + 1 + g) N = N by omega]; simp
        | lastData _ _ h => exact (hr.not_data hv hN h).elim
  · by_cases hD : ∃ q, lay.IsDataResult m q
    · obtain ⟨q, hq⟩ := hD
      have uniq : ∀ {q'}, lay.IsDataResult m q' → q' = q := fun h => h.unique hv hN hq
      refine ⟨[(N, (lay.dataEdge q ((N : Int) - 1)).center), (N, lay.faceAt q 0), (N, lay.faceAt q 1), (N, lay.faceAt q 2)], by simp, fun key hk => ?_⟩
      cases hk with
      | first _ h => exact absurd ⟨_, _, h⟩ hE
      | face _ _ _ h _ => exact absurd ⟨_, _, h⟩ hE
      | edge _ h _ => exact absurd ⟨_, _, h⟩ hE
      | edgeData he ht h =>
        obtain rfl := uniq h
        rw [dataEdge_eq hv he ht]; simp
      | last _ _ h _ => exact absurd ⟨_, _, h⟩ hE
      | @lastData p _ hx hqh h =>
        obtain rfl := uniq h
        have := hexColour_range p
        have : hexColour p = 0 ∨ hexColour p = 1 ∨ hexColour p = 2 := by omega
        rcases this with h | h | h
        · rw [faceAt_eq hv hx hqh (c := 0) (by omega)]; simp
        · rw [faceAt_eq hv hx hqh (c := 1) (by omega)]; simp
        · rw [faceAt_eq hv hx hqh (c := 2) (by omega)]; simp
    · refine ⟨[], by simp, fun key hk => ?_⟩
      cases hk with
      | first _ h => exact absurd ⟨_, _, h⟩ hE
      | face _ _ _ h _ => exact absurd ⟨_, _, h⟩ hE
      | edge _ h _ => exact absurd ⟨_, _, h⟩ hE
      | edgeData he ht h => exact absurd ⟨_, h⟩ hD
      | last _ _ h _ => exact absurd ⟨_, _, h⟩ hE
      | lastData hx hqh h => exact absurd ⟨_, h⟩ hD

end HoneycombLayout
end Honeycomb
