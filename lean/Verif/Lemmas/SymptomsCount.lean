import Verif.Lemmas.SymptomsRecord
import Verif.Lemmas.LogicalRun

/-!
# Counting the detectors that fire
-/

namespace Honeycomb
namespace HoneycombLayout
variable {lay : HoneycombLayout} {N : Nat}

theorem center_not_face (hv : lay.Valid) {e : Edge} (he : e ∈ lay.all_edges) : ¬ HexT lay.tile_width lay.tile_height e.center := by
  obtain ⟨h, t, hx, rfl⟩ := (mem_all_edges hv).1 he
  rintro ⟨_, d1, d2, d3⟩
  obtain ⟨i, j, a1, a2⟩ := shp_spec lay.tile_width lay.tile_height h t.c
  simp only [edgeT] at d1 d2 d3
  rw [a1] at d1 d3
  rw [a2] at d2 d3
  obtain ⟨_, g1, g2, g3⟩ := hx
  cases t <;> simp only [ETy.c] at d1 d2 d3 <;> omega

theorem nodup_centers (hv : lay.Valid) (k : Int) : ((lay.round_edges k).map Edge.center).Nodup :=
  List.Nodup.map_on (fun _ ha _ hb h => edge_center_inj hv (round_edges_subset_all ha) (round_edges_subset_all hb) h) (nodup_round_edges hv k)

theorem annDets_nodup (hv : lay.Valid) (k : Nat) : ((annDets lay k).map Prod.fst).Nodup := by
  rw [annDets, List.map_append]
  by_cases h0 : k = 0 ∧ lay.obs = "H"
  · rw [if_pos h0, if_neg]
    · rw [List.map_nil, List.append_nil, List.map_map]
      exact nodup_centers hv 0
    · rw [h0.1, faceKnown, h0.2]
      decide
  · rw [if_neg h0, List.map_nil, List.nil_append]
    split_ifs
    · rw [List.map_map]
      exact (by simpa using nodup_round_hex_centers hv _ : ((lay.round_hex_centers (((k : Int) - 2) % 3)).map id).Nodup)
    · exact List.nodup_nil

theorem faces_nodup (hv : lay.Valid) {c : Prop} [Decidable c] {r : Int} {f : Pt → Finset Nat} :
    ((if c then (lay.round_hex_centers r).map fun h => (h, f h) else []).map Prod.fst).Nodup := by
  split_ifs
  · rw [List.map_map]
    exact (by simpa using nodup_round_hex_centers hv _ : ((lay.round_hex_centers r).map id).Nodup)
  · exact List.nodup_nil

theorem mem_faces {c : Prop} [Decidable c] {r : Int} {f : Pt → Finset Nat} {p : Pt}
    (h : p ∈ (if c then (lay.round_hex_centers r).map fun h => (h, f h) else []).map Prod.fst) : p ∈ lay.round_hex_centers r := by
  split_ifs at h
  · rw [List.map_map] at h
    exact (by simpa using h)
  · simp at h

theorem finDets_nodup (hv : lay.Valid) (N : Nat) : ((finDets lay N).map Prod.fst).Nodup := by
  rw [finDets]
  by_cases hs : sameBasis lay N
  · rw [if_pos hs, List.map_append, List.nodup_append]
    refine ⟨?_, faces_nodup hv, fun a ha b hb h => ?_⟩
    · rw [List.map_map]; exact nodup_centers hv _
    · subst h
      rw [List.map_map] at ha
      obtain ⟨e, he, rfl⟩ := List.mem_map.1 ha
      exact center_not_face hv (round_edges_subset_all he) ((mem_round_hex_centers hv).1 (mem_faces hb)).1
  · rw [if_neg hs, List.map_append, List.nodup_append]
    refine ⟨faces_nodup hv, faces_nodup hv, fun a ha b hb h => ?_⟩
    subst h
    have := hex_colour hv (mem_faces ha) (mem_faces hb)
    omega

/-- No two detectors have the same layer and place. -/
theorem keys_nodup (hv : lay.Valid) (N : Nat) : ((allDets lay N).map fun x => (x.1, x.2.1)).Nodup := by
  have inj : ∀ k : Nat, Function.Injective fun p : Pt => (k, p) := fun k a b h => (Prod.mk.inj h).2
  rw [allDets, List.map_append, List.nodup_append]
  refine ⟨?_, ?_, ?_⟩
  · rw [List.map_flatMap, List.nodup_flatMap]
    refine ⟨fun k _ => ?_, ?_⟩
    · rw [List.map_map]
      have := (annDets_nodup hv k).map (inj k)
      rw [List.map_map] at this
      exact this
    · refine List.nodup_range.imp fun {a b} hab => ?_
      intro x hx hy
      simp only [List.mem_map] at hx hy
      obtain ⟨_, ⟨_, _, rfl⟩, rfl⟩ := hx
      obtain ⟨_, ⟨_, _, rfl⟩, h⟩ := hy
      exact hab (Prod.mk.inj h).1.symm
  · rw [List.map_map]
    have := (finDets_nodup hv N).map (inj N)
    rw [List.map_map] at this
    exact this
  · intro x hx y hy h
    subst h
    simp only [List.mem_map, List.mem_flatMap, List.mem_range] at hx hy
    obtain ⟨_, ⟨k, hk, _, _, rfl⟩, rfl⟩ := hx
    obtain ⟨_, ⟨_, _, rfl⟩, h⟩ := hy
    have := (Prod.mk.inj h).1
    simp only at this
    omega

theorem IsEdgeResult.lt (hv : lay.Valid) {m : Nat} {j : Int} {e : Edge} (h : lay.IsEdgeResult N m j e) {k : Nat} (hk : j ≤ k) :
    m < (k + 1) * lay.perRound := by
  obtain ⟨a1, a2, a3, a4⟩ := h
  have e1 := mTime_int hv a1 e
  have h3 := mTime_lt hv (k := j.toNat) (e := e) (by rwa [Int.toNat_of_nonneg a1])
  have h4 : (j.toNat + 1) * lay.perRound ≤ (k + 1) * lay.perRound := Nat.mul_le_mul_right _ (by omega)
  omega

theorem IsDataResult.lt (hv : lay.Valid) (hN : lay.sub_rounds = N) {m : Nat} {q : Pt} (h : lay.IsDataResult m q) :
    m < N * lay.perRound + lay.data_qubit_coords.length := by
  have e2 := dTime_int hv hN q
  have h2 := h.2
  have h3 := List.idxOf_lt_length_iff.2 h.1
  have : m = lay.dTime N q := by omega
  rw [this, dTime]
  omega

/-- The results a detector uses precede it. -/
theorem usedBy_lt (hv : lay.Valid) (hN : lay.sub_rounds = N) (h1 : 1 ≤ N) {m : Nat} {key : Nat × Pt} (h : lay.UsedBy N m key) :
    m < layerTime lay N key.1 := by
  have hg : 0 < lay.gapOf := by rw [gapOf]; split_ifs <;> omega
  have fin : ∀ {j e}, lay.IsEdgeResult N (m : Int) j e → m < layerTime lay N N := by
    intro j e hr
    have := hr.lt hv (k := N - 1) (by have := hr.2.1; omega)
    rw [Nat.sub_add_cancel h1] at this
    rw [layerTime, if_neg (by omega)]
    omega
  cases h with
  | first _ h =>
    rw [layerTime, if_pos (show 0 < N by omega)]
    exact h.lt hv (by simp)
  | face hk _ _ h hu =>
    simp only
    rw [layerTime, if_pos hk]
    exact h.lt hv (by omega)
  | edge _ h _ => exact fin h
  | edgeData _ _ h =>
    simp only
    rw [layerTime, if_neg (by omega)]
    exact h.lt hv hN
  | last _ _ h _ => exact fin h
  | lastData _ _ h =>
    simp only
    rw [layerTime, if_neg (by omega)]
    exact h.lt hv hN

theorem layerTime_le (h1 : 1 ≤ N) (k : Nat) : layerTime lay N k ≤ N * lay.perRound + lay.data_qubit_coords.length := by
  rw [layerTime]
  split_ifs with hk
  · have : (k + 1) * lay.perRound ≤ N * lay.perRound := Nat.mul_le_mul_right _ (by omega)
    omega
  · omega

theorem forall₂_left {α β : Type} {r : α → β → Prop} {l : List α} {l' : List β} (h : List.Forall₂ r l l') {x : α} (hx : x ∈ l) :
    ∃ y ∈ l', r x y := by
  induction h with
  | nil => simp at hx
  | cons hab _ ih =>
    rcases List.mem_cons.1 hx with rfl | hx
    · exact ⟨_, by simp, hab⟩
    · obtain ⟨y, hy, h⟩ := ih hx
      exact ⟨y, List.mem_cons_of_mem _ hy, h⟩

/-- The results a detector of the closed list uses. -/
theorem allDets_used (hv : lay.Valid) (hs : lay.Supported) (hN : lay.sub_rounds = N) {x : Nat × Pt × Finset Nat} (hx : x ∈ allDets lay N)
    {m : Nat} (hm : m ∈ x.2.2) : lay.UsedBy N m (x.1, x.2.1) := by
  have h1 : 1 ≤ N := by have := hs.2.2.1; omega
  obtain ⟨y, hy, e1, e2, e3⟩ := forall₂_left (allDets_ok hv hs hN) hx
  rw [e1, e2]
  exact usedBy hv hN h1 hy ((e3 m).1 ⟨m, hm, rfl⟩)

/-- The values of the detectors. -/
theorem values_eq (hv : lay.Valid) (hs : lay.Supported) (hN : lay.sub_rounds = N) {rec : List (ZMod 2)}
    (hl : rec.length = N * lay.perRound + lay.data_qubit_coords.length) :
    detectorValues (lay.closedCircuit N) rec = (allDets lay N).map fun x => some (val (recAt rec) x.2.2) := by
  have h1 : 1 ≤ N := by have := hs.2.2.1; omega
  rw [detectorValues, closed_detectors_eq hv hs hN, List.map_map]
  refine List.map_congr_left fun x hx => ?_
  exact flipParity_relTo (hl ▸ layerTime_le h1 x.1) (fun m hm => usedBy_lt hv hN h1 (allDets_used hv hs hN hx hm)) (g := .DETECTOR)
    (as := (coords3 x.2.1).map .lit)

/-- Counting through distinct keys. -/
theorem count_le {α β : Type} [DecidableEq β] {l : List α} {f : α → Option (ZMod 2)} {g : α → β} (hn : (l.map g).Nodup) {hits : List β}
    (h : ∀ x ∈ l, f x = some 1 → g x ∈ hits) : (l.map f).count (some 1) ≤ hits.length := by
  rw [List.count_eq_length_filter, List.filter_map, List.length_map, ← List.length_map (f := g)]
  refine List.Subperm.length_le ((List.subperm_of_subset (hn.sublist (List.filter_sublist.map g))) ?_)
  intro b hb
  obtain ⟨x, hx, rfl⟩ := List.mem_map.1 hb
  obtain ⟨hx, hf⟩ := List.mem_filter.1 hx
  exact h x hx (by simpa using hf)

end HoneycombLayout
end Honeycomb
