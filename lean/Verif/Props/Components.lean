import Verif.Lemmas.Climb
import Verif.Lemmas.ModelExists
import Verif.Props.Coverage
import Verif.Props.Decoding

/-!
# The matching graph has two connected components (C105)

`Spec/Components.lean`: `FinalHalfLayer k` says that layer `k` is that of the final detectors or one of every other layer before it, `finalHalf` are the
detectors in these layers, `Connected` says that there is a way along edges. `Spec/ErrorModel.lean`: `ErrorModelOf d m`.
-/

namespace Honeycomb
open HoneycombLayout

variable {lay : HoneycombLayout} {N : Nat}

theorem layer_get (hv : lay.Valid) (hs : lay.Supported) (hN : lay.sub_rounds = N) (i : Nat) :
    (lay.expectedDetectors[i]?).map Prod.fst = ((allDets lay N)[i]?).map Prod.fst := by
  have h := allDets_ok hv hs hN
  have : lay.expectedDetectors.map Prod.fst = (allDets lay N).map Prod.fst := by
    have : List.Forall₂ (fun x1 x2 => x1 = x2) (lay.expectedDetectors.map Prod.fst) ((allDets lay N).map Prod.fst) := by
      rw [List.forall₂_map_left_iff, List.forall₂_map_right_iff]
      exact h.flip.imp fun a b h => h.1.symm
    rwa [List.forall₂_eq_eq_eq] at this
  rw [← List.getElem?_map, this, List.getElem?_map]

theorem mem_finalHalf (hv : lay.Valid) (hs : lay.Supported) (hN : lay.sub_rounds = N) {i : Nat} :
    i ∈ lay.finalHalf ↔ ∃ z, (allDets lay N)[i]? = some z ∧ lay.FinalHalfLayer z.1 := by
  have hg := layer_get hv hs hN i
  rw [finalHalf]
  refine Finset.mem_filter.trans ?_
  constructor
  · rintro ⟨-, x, hx, hf⟩
    rw [hx] at hg
    cases hz : (allDets lay N)[i]? with
    | none => rw [hz] at hg; simp at hg
    | some z =>
      rw [hz] at hg
      simp only [Option.map_some, Option.some.injEq] at hg
      exact ⟨z, rfl, hg ▸ hf⟩
  · rintro ⟨z, hz, hf⟩
    rw [hz] at hg
    cases hx : lay.expectedDetectors[i]? with
    | none => rw [hx] at hg; simp at hg
    | some x =>
      rw [hx] at hg
      simp only [Option.map_some, Option.some.injEq] at hg
      exact ⟨Finset.mem_range.2 (List.getElem?_eq_some_iff.1 hx).1, x, rfl, hg ▸ hf⟩

/-- The detectors that fire. -/
theorem bits_iff (hv : lay.Valid) (hs : lay.Supported) (hN : lay.sub_rounds = N) {d : Circuit} (hd : lay.makeCircuit = .ok d) {rec : List (ZMod 2)}
    (hl : rec.length = lay.total N) (x : Nat) :
    (detectionBits d rec)[x]? = some true ↔ ∃ z, (allDets lay N)[x]? = some z ∧ val (recAt rec) z.2.2 = 1 := by
  obtain ⟨ht, -⟩ := noisy_run hv hs hN hd
  have hval : detectorValues d.flatten rec = detectorValues (lay.closedCircuit N) rec := by rw [detectorValues, ht, detectorValues]
  rw [detectionBits_get, hval, values_eq hv hs hN hl, List.getElem?_map]
  cases (allDets lay N)[x]? <;> simp

theorem even_fired (hv : lay.Valid) (hs : lay.Supported) (hN : lay.sub_rounds = N) {d : Circuit} (hd : lay.makeCircuit = .ok d) {n : Nat} {rec : List (ZMod 2)}
    (hr : CanSample n d.flatten rec) : Even (lay.finalHalf.filter fun i => (detectionBits d rec)[i]? = some true).card := by
  classical
  obtain ⟨F, F', -, hr⟩ := hr
  obtain ⟨es, rec0, G, m, hle, hes, hrun, hdiff⟩ := sampled hv hs hN hd hr.loose
  obtain ⟨g1, g2, g3⟩ := sampled_inside hv hs hN hes hrun hdiff
  obtain ⟨E, Fs, ht, hrec, hl, hE⟩ := damage_traj hv hs hN g1 g2 g3
  have h0 := half_even hv hs hN hrec
  have two : ∀ z : ZMod 2, z = if z = 1 then 1 else 0 := by decide
  rw [← ZMod.natCast_eq_zero_iff_even, Finset.card_filter, Nat.cast_sum]
  rw [← h0]
  have e1 : ((allDets lay N).map fun x => if lay.FinalHalfLayer x.1 then val (recAt rec) x.2.2 else 0).sum =
      ∑ i ∈ Finset.range (allDets lay N).length, if i ∈ lay.finalHalf then (if (detectionBits d rec)[i]? = some true then 1 else 0) else 0 := by
    rw [← Fin.sum_univ_getElem, Finset.sum_range]
    refine Fintype.sum_equiv (finCongr (by rw [List.length_map])) _ _ fun i => ?_
    have hi : (i : Nat) < (allDets lay N).length := lt_of_lt_of_eq i.2 (List.length_map _)
    have hz : (allDets lay N)[(i : Nat)]? = some (allDets lay N)[(i : Nat)] := List.getElem?_eq_getElem hi
    have k1 : (i : Nat) ∈ lay.finalHalf ↔ lay.FinalHalfLayer (allDets lay N)[(i : Nat)].1 := by
      rw [mem_finalHalf hv hs hN, hz]; simp
    have k2 : (detectionBits d rec)[(i : Nat)]? = some true ↔ val (recAt rec) (allDets lay N)[(i : Nat)].2.2 = 1 := by
      rw [bits_iff hv hs hN hd hl, hz]; simp
    simp only [List.getElem_map, finCongr_apply, Fin.val_cast, k1, k2]
    split_ifs with a b b
    · exact b
    · rw [two (val _ _), if_neg b]
    · rfl
  rw [e1, ← Finset.sum_filter]
  have e2 : (Finset.range (allDets lay N).length).filter (fun i => i ∈ lay.finalHalf) = lay.finalHalf := by
    ext i
    rw [Finset.mem_filter, Finset.mem_range, and_iff_right_iff_imp]
    intro h
    obtain ⟨z, hz, -⟩ := (mem_finalHalf hv hs hN).1 h
    exact (List.getElem?_eq_some_iff.1 hz).1
  rw [e2]
  exact Finset.sum_congr rfl fun i _ => by split_ifs <;> simp

/-- C105: whatever errors the noise channels make, an even number of the detectors of `finalHalf` fires. -/
theorem c105_even (lay : HoneycombLayout) (hv : lay.Valid) (hs : lay.Supported) :
    ∃ d, lay.makeCircuit = .ok d ∧ ∀ n rec, CanSample n d.flatten rec → Even (lay.finalHalf.filter fun i => (detectionBits d rec)[i]? = some true).card := by
  obtain ⟨N, hN⟩ := Int.eq_ofNat_of_zero_le (show 0 ≤ lay.sub_rounds by have := hs.2.2.1; omega)
  obtain ⟨_, _, d, _, _, _, _, _, _, _, _, _, _, _, _, hd⟩ := makeCircuit_ok hv hs hN
  exact ⟨d, hd, fun n rec h => even_fired hv hs hN hd h⟩

/-- A record that fires one or two detectors has an edge. -/
theorem edge_of_bits {d : Circuit} {m : Dem} (hm : ErrorModelOf d m) {g : NxGraph} (hg : ∀ u v, (∃ e, g.edge? u v = some e) ↔ m.between u v ≠ [])
    {rec : List (ZMod 2)} (hr : CanSample 1 d.flatten rec) {u v : Nat} (hu : u < d.num_detectors) (hv : v ≤ d.num_detectors) (huv : u ≠ v)
    (hb : ∀ x, (detectionBits d rec)[x]? = some true ↔ x < d.num_detectors ∧ (x = u ∨ x = v)) : ∃ data, g.edge? u v = some data := by
  have hsub : trueAt (detectionBits d rec) ⊆ [u, v] := fun x hx => by
    have := ((hb x).1 (mem_trueAt.1 hx)).2
    simpa using this
  have hnd : (trueAt (detectionBits d rec)).Nodup := (List.nodup_range).filter _
  have hle : (detectionBits d rec).count true ≤ 2 := by
    rw [← trueAt_length]
    exact (hnd.subperm hsub).length_le
  have hpos : 0 < (detectionBits d rec).count true := List.count_pos_iff.2 (List.mem_of_getElem? ((hb u).2 ⟨hu, Or.inl rfl⟩))
  obtain ⟨e, he, he0, hdets⟩ := hm.complete rec hr (by simp only [List.mem_cons, List.not_mem_nil, or_false]; omega)
  obtain ⟨hn, hlen⟩ := hm.two e he he0
  have hmem : ∀ x, x ∈ e.dets ↔ x < d.num_detectors ∧ (x = u ∨ x = v) := fun x => (hdets x).trans (hb x)
  rw [hg, Dem.between]
  refine List.ne_nil_of_mem (a := e) (List.mem_filter.2 ⟨he, decide_eq_true ⟨he0, ?_⟩⟩)
  rw [Mechanism.connects, hm.detectors]
  rcases Nat.lt_or_eq_of_le hv with hlt | rfl
  · have h1 := (hmem u).2 ⟨hu, Or.inl rfl⟩
    have h2 := (hmem v).2 ⟨hlt, Or.inr rfl⟩
    match hde : e.dets with
    | [] => rw [hde] at h1; cases h1
    | [a] => rw [hde] at h1 h2; simp only [List.mem_singleton] at h1 h2; exact absurd (h1.trans h2.symm) huv
    | [a, b] =>
      rw [hde] at h1 h2
      simp only [List.mem_cons, List.not_mem_nil, or_false] at h1 h2
      rcases h1 with rfl | rfl <;> rcases h2 with rfl | rfl
      · exact absurd rfl huv
      · exact Or.inl rfl
      · exact Or.inr (Or.inl rfl)
      · exact absurd rfl huv
    | a :: b :: c :: l => rw [hde] at hlen; simp at hlen
  · have h1 := (hmem u).2 ⟨hu, Or.inl rfl⟩
    have h2 : ∀ x ∈ e.dets, x = u := fun x hx => by
      have := (hmem x).1 hx
      omega
    right; right; left
    refine ⟨?_, rfl⟩
    match hde : e.dets with
    | [] => rw [hde] at h1; cases h1
    | [a] => rw [hde] at h1; rw [List.mem_singleton.1 h1]
    | a :: b :: l =>
      rw [hde] at hn h2
      have := (h2 a (by simp)).trans (h2 b (by simp)).symm
      simp [this] at hn

theorem NxGraph.Connected.symm {g : NxGraph} {u v : Nat} (h : g.Connected u v) : g.Connected v u := by
  induction h with
  | refl => exact Relation.ReflTransGen.refl
  | tail _ h ih =>
    refine (Relation.ReflTransGen.single ?_).trans ih
    obtain ⟨data, h⟩ := h
    refine ⟨data, ?_⟩
    rw [NxGraph.edge?, edgeKey, Nat.min_comm, Nat.max_comm]
    exact h

/-- The number of the detector with the given layer and place. -/
def keyIdx (lay : HoneycombLayout) (N : Nat) (a : Nat × Pt) : Nat := ((allDets lay N).map fun x => (x.1, x.2.1)).idxOf a

theorem keyIdx_eq (hv : lay.Valid) {i : Nat} {z : Nat × Pt × Finset Nat} (h : (allDets lay N)[i]? = some z) : keyIdx lay N (z.1, z.2.1) = i := by
  obtain ⟨hi, h⟩ := List.getElem?_eq_some_iff.1 h
  have hn := keys_nodup hv N
  have hi' : i < ((allDets lay N).map fun x => (x.1, x.2.1)).length := by rw [List.length_map]; exact hi
  have := hn.idxOf_getElem i hi'
  rw [List.getElem_map, h] at this
  exact this

theorem keyIdx_det (hv : lay.Valid) {a : Nat × Pt} (ha : lay.Det N a) : ∃ z, (allDets lay N)[keyIdx lay N a]? = some z ∧ (z.1, z.2.1) = a := by
  obtain ⟨x, hx, rfl⟩ := ha
  obtain ⟨i, hi⟩ := List.mem_iff_getElem?.1 hx
  rw [keyIdx_eq hv hi]
  exact ⟨x, hi, rfl⟩

/-- C105: the matching graph of every error model of a noisy generated circuit has exactly two connected components. One is `finalHalf`, the final detectors
and those of every other layer before them; the other one has the remaining detectors and the boundary node. -/
theorem c105_components (lay : HoneycombLayout) (hv : lay.Valid) (hs : lay.Supported) (hp : 0 < lay.noise) :
    ∃ d, lay.makeCircuit = .ok d ∧ ∀ m, ErrorModelOf d m → ∃ g, demToNxGraph m = .ok g ∧
      (∀ x, (∃ data, g.nodes.get? x = some data) ↔ x ≤ d.num_detectors) ∧
      ∀ u v, u ≤ d.num_detectors → v ≤ d.num_detectors → (g.Connected u v ↔ (u ∈ lay.finalHalf ↔ v ∈ lay.finalHalf)) := by
  classical
  obtain ⟨N, hN⟩ := Int.eq_ofNat_of_zero_le (show 0 ≤ lay.sub_rounds by have := hs.2.2.1; omega)
  obtain ⟨_, _, d, _, _, _, _, _, _, _, _, _, _, _, _, hd⟩ := makeCircuit_ok hv hs hN
  refine ⟨d, hd, fun m hm => ?_⟩
  have h2 : ∀ e ∈ m.mechanisms, e.p ≠ 0 → e.dets.length ≤ 2 := fun e he h0 => (hm.two e he h0).2
  obtain ⟨g, hg, hedge, -⟩ := c35_graph m hm.coords hm.prob h2
  obtain ⟨g', hg', hnodes, -⟩ := c35_nodes m hm.coords hm.prob h2
  obtain rfl : g = g' := by rw [hg] at hg'; exact Except.ok.inj hg'
  have hnd := num_detectors_allDets hv hs hN hd
  have hC : lay.Happens N (CanSample 1 d.flatten) := fun x hx => HoneycombLayout.drawn hv hs hN hp hd hx
  have hbd : d.num_detectors ∉ lay.finalHalf := by
    intro h
    obtain ⟨z, hz, -⟩ := (mem_finalHalf hv hs hN).1 h
    have := (List.getElem?_eq_some_iff.1 hz).1
    omega
  have hlt : ∀ a, lay.Det N a → keyIdx lay N a < d.num_detectors := fun a ha => by
    obtain ⟨z, hz, -⟩ := keyIdx_det hv ha
    rw [hnd]
    exact (List.getElem?_eq_some_iff.1 hz).1
  -- what fires, in terms of the numbers
  have hfire : ∀ (S : Nat × Pt → Prop), lay.Fires N (CanSample 1 d.flatten) S → ∃ rec, CanSample 1 d.flatten rec ∧
      ∀ x : Nat, (detectionBits d rec)[x]? = some true ↔ ∃ z : Nat × Pt × Finset Nat, (allDets lay N)[x]? = some z ∧ S (z.1, z.2.1) := by
    rintro S ⟨rec, hr, hl, h⟩
    refine ⟨rec, hr, fun x => ?_⟩
    rw [bits_iff hv hs hN hd hl]
    exact exists_congr fun z => and_congr_right fun hz => h z (List.mem_of_getElem? hz)
  have hlink : ∀ a b, lay.Link N (CanSample 1 d.flatten) a b → g.Connected (keyIdx lay N a) (keyIdx lay N b) := by
    intro a b h
    obtain ⟨rec, hr, hb⟩ := hfire _ h.fires
    obtain ⟨za, hza, hka⟩ := keyIdx_det hv h.left
    obtain ⟨zb, hzb, hkb⟩ := keyIdx_det hv h.right
    refine Relation.ReflTransGen.single (edge_of_bits hm hedge hr (hlt a h.left) (hlt b h.right).le (fun he => h.ne ?_) fun x => ?_)
    · rw [he, hzb] at hza
      rw [← hka, ← hkb, Option.some.inj hza]
    · rw [hb]
      constructor
      · rintro ⟨z, hz, rfl | rfl⟩
        · rw [keyIdx_eq hv hz]; exact ⟨by rw [hnd]; exact (List.getElem?_eq_some_iff.1 hz).1, Or.inl rfl⟩
        · rw [keyIdx_eq hv hz]; exact ⟨by rw [hnd]; exact (List.getElem?_eq_some_iff.1 hz).1, Or.inr rfl⟩
      · rintro ⟨-, rfl | rfl⟩
        · exact ⟨za, hza, Or.inl hka⟩
        · exact ⟨zb, hzb, Or.inr hkb⟩
  have hway : ∀ a b, lay.Way N (CanSample 1 d.flatten) a b → g.Connected (keyIdx lay N a) (keyIdx lay N b) := by
    intro a b h
    induction h with
    | refl => exact Relation.ReflTransGen.refl
    | tail _ h ih => exact ih.trans (hlink _ _ h)
  have halone : ∀ a, lay.Det N a → (lay.Fires N (CanSample 1 d.flatten) fun x => x = a) → g.Connected (keyIdx lay N a) d.num_detectors := by
    intro a ha h
    obtain ⟨rec, hr, hb⟩ := hfire _ h
    obtain ⟨za, hza, hka⟩ := keyIdx_det hv ha
    refine Relation.ReflTransGen.single (edge_of_bits hm hedge hr (hlt a ha) (le_refl _) (hlt a ha).ne fun x => ?_)
    rw [hb]
    constructor
    · rintro ⟨z, hz, rfl⟩
      rw [keyIdx_eq hv hz]; exact ⟨by rw [hnd]; exact (List.getElem?_eq_some_iff.1 hz).1, Or.inl rfl⟩
    · rintro ⟨hx, rfl | rfl⟩
      · exact ⟨za, hza, hka⟩
      · exact absurd hx (lt_irrefl _)
  have hkey : ∀ u < d.num_detectors, ∃ a, lay.Det N a ∧ keyIdx lay N a = u ∧ (u ∈ lay.finalHalf ↔ lay.FinalHalfLayer a.1) := by
    intro u hu
    rw [hnd] at hu
    have hz := List.getElem?_eq_getElem hu
    refine ⟨_, ⟨_, List.mem_of_getElem? hz, rfl⟩, keyIdx_eq hv hz, ?_⟩
    rw [mem_finalHalf hv hs hN, hz]
    simp
  have hout : ∀ u ≤ d.num_detectors, u ∉ lay.finalHalf → g.Connected u d.num_detectors := by
    intro u hu hf
    rcases Nat.lt_or_eq_of_le hu with hlt | rfl
    · obtain ⟨a, ha, rfl, hk⟩ := hkey u hlt
      obtain ⟨b, hb, hw, hfb⟩ := escape hv hs hN hC _ (le_refl _) ha (fun h => hf (hk.2 h))
      exact (hway _ _ hw).trans (halone b hb hfb)
    · exact Relation.ReflTransGen.refl
  refine ⟨g, hg, fun x => ?_, fun u v hu hv' => ⟨fun hc => ?_, fun h => ?_⟩⟩
  · rw [hnodes, hm.detectors]
    constructor
    · rintro (rfl | ⟨c, hc⟩ | ⟨e, he, -, hx⟩)
      · exact le_refl _
      · have := (calls_ids m).2 _ _ hc; rw [hm.detectors] at this; exact this.le
      · have := mechanisms_ids m e he x hx; rw [hm.detectors] at this; exact this.le
    · intro hx
      rcases Nat.lt_or_eq_of_le hx with hlt | rfl
      · obtain ⟨d', hd', hw⟩ := c101_watches lay hv hs hp
        obtain rfl : d = d' := by rw [hd] at hd'; exact Except.ok.inj hd'
        obtain ⟨rec, h1, h2, h3⟩ := hw x hlt
        have hx' : (detectionBits d rec)[x]? = some true := (detectionBits_get d rec x).2 h2
        have hcount : (detectionBits d rec).count true = (detectorValues d.flatten rec).count (some 1) := by
          rw [detectionBits, List.count, List.count, List.countP_map]
          exact List.countP_congr fun v _ => by simp
        have hpos : 0 < (detectionBits d rec).count true := List.count_pos_iff.2 (List.mem_of_getElem? hx')
        obtain ⟨e, he, he0, hdets⟩ := hm.complete rec h1 (by
          rw [hcount] at hpos ⊢
          simp only [List.mem_cons, List.not_mem_nil, or_false]
          omega)
        exact Or.inr (Or.inr ⟨e, he, he0, (hdets x).2 hx'⟩)
      · exact Or.inl rfl
  · clear hu hv'
    induction hc with
    | refl => exact Iff.rfl
    | tail _ h ih =>
      refine ih.trans ?_
      rename_i a b _
      have hb := (hedge a b).1 h
      obtain ⟨e, he⟩ := List.exists_mem_of_ne_nil _ hb
      rw [Dem.between, List.mem_filter, decide_eq_true_iff] at he
      obtain ⟨he, he0, hc⟩ := he
      obtain ⟨rec, hr, hsym, -⟩ := hm.sound e he he0
      have hev := even_fired hv hs hN hd hr
      have hn := (hm.two e he he0).1
      have hfil : (lay.finalHalf.filter fun i => (detectionBits d rec)[i]? = some true) = lay.finalHalf.filter fun i => i ∈ e.dets :=
        Finset.filter_congr fun i _ => (hsym i).symm
      rw [hfil] at hev
      have two : ∀ x y, x ≠ y → e.dets = [x, y] ∨ e.dets = [y, x] → (x ∈ lay.finalHalf ↔ y ∈ lay.finalHalf) := by
        intro x y hxy hde
        have : (lay.finalHalf.filter fun i => i ∈ e.dets) = (lay.finalHalf.filter fun i => i = x) ∪ lay.finalHalf.filter fun i => i = y := by
          rw [← Finset.filter_or]
          refine Finset.filter_congr fun i _ => ?_
          rcases hde with h | h <;> rw [h] <;> simp [or_comm]
        rw [this, Finset.filter_eq', Finset.filter_eq'] at hev
        by_cases hx : x ∈ lay.finalHalf <;> by_cases hy : y ∈ lay.finalHalf <;> simp [hx, hy] at hev ⊢
      have one : ∀ x, e.dets = [x] → x ∉ lay.finalHalf := by
        intro x hde hx
        have : (lay.finalHalf.filter fun i => i ∈ e.dets) = lay.finalHalf.filter fun i => i = x :=
          Finset.filter_congr fun i _ => by rw [hde]; simp
        rw [this, Finset.filter_eq', if_pos hx] at hev
        simp at hev
      rw [Mechanism.connects, hm.detectors] at hc
      rcases hc with hc | hc | ⟨hc, rfl⟩ | ⟨hc, rfl⟩
      · exact two a b (fun h => by rw [hc, h] at hn; simp at hn) (Or.inl hc)
      · exact two a b (fun h => by rw [hc, h] at hn; simp at hn) (Or.inr hc)
      · exact iff_of_false (one _ hc) hbd
      · exact iff_of_false hbd (one _ hc)
  · by_cases hfu : u ∈ lay.finalHalf
    · have hfv := h.1 hfu
      obtain ⟨a, ha, rfl, hka⟩ := hkey u (lt_of_le_of_ne hu fun h => hbd (h ▸ hfu))
      obtain ⟨b, hb, rfl, hkb⟩ := hkey v (lt_of_le_of_ne hv' fun h => hbd (h ▸ hfv))
      exact hway _ _ (half_joined hv hs hN hC ha hb (hka.1 hfu) (hkb.1 hfv))
    · exact (hout u hu hfu).trans (hout v hv' fun hv => hfu (h.2 hv)).symm

theorem countP_ones {α : Type} (p : α → Bool) : ∀ l : List α, l.countP p = (l.map fun x => if p x then 1 else 0).sum
  | [] => rfl
  | a :: l => by rw [List.countP_cons, countP_ones p l, List.map_cons, List.sum_cons, Nat.add_comm]

theorem finalHalf_card (hv : lay.Valid) (hs : lay.Supported) (hN : lay.sub_rounds = N) :
    lay.finalHalf.card = (allDets lay N).countP fun x => lay.FinalHalfLayer x.1 := by
  have e2 : (Finset.range (allDets lay N).length).filter (fun i => i ∈ lay.finalHalf) = lay.finalHalf := by
    ext i
    rw [Finset.mem_filter, Finset.mem_range, and_iff_right_iff_imp]
    intro h
    obtain ⟨z, hz, -⟩ := (mem_finalHalf hv hs hN).1 h
    exact (List.getElem?_eq_some_iff.1 hz).1
  rw [← e2, Finset.card_filter, countP_ones, ← Fin.sum_univ_getElem, Finset.sum_range]
  refine (Fintype.sum_equiv (finCongr (by rw [List.length_map])) _ _ fun i => ?_).symm
  have hi : (i : Nat) < (allDets lay N).length := lt_of_lt_of_eq i.2 (List.length_map _)
  have hz : (allDets lay N)[(i : Nat)]? = some (allDets lay N)[(i : Nat)] := List.getElem?_eq_getElem hi
  have k1 : (i : Nat) ∈ lay.finalHalf ↔ lay.FinalHalfLayer (allDets lay N)[(i : Nat)].1 := by
    rw [mem_finalHalf hv hs hN, hz]; simp
  simp only [List.getElem_map, finCongr_apply, Fin.val_cast, k1, decide_eq_true_eq]

theorem others_count (hv : lay.Valid) (ho : lay.ObsOk) {n : Nat} :
    ((List.range n).flatMap fun k => (annDets lay k).map fun x => (k, x)).countP (fun x => ¬ ((x.1 : Int) % 2 = if lay.obs = "V" then 1 else 0)) =
      lay.faces * (if lay.obs = "V" then (n - 3) / 2 else (n - 4) / 2) := by
  induction n with
  | zero => simp
  | succ n ih =>
    rw [List.range_succ, List.flatMap_append, List.countP_append, ih, List.flatMap_singleton, List.countP_map]
    by_cases hk : (n : Int) % 2 = if lay.obs = "V" then 1 else 0
    · have : (annDets lay n).countP ((fun x : Nat × Pt × Finset Nat => decide (¬ ((x.1 : Int) % 2 = if lay.obs = "V" then 1 else 0))) ∘ fun x => (n, x)) = 0 :=
        List.countP_eq_zero.2 fun x _ => by simp [hk]
      rw [this, add_zero]
      congr 1
      split_ifs at hk ⊢ <;> omega
    · have : (annDets lay n).countP ((fun x : Nat × Pt × Finset Nat => decide (¬ ((x.1 : Int) % 2 = if lay.obs = "V" then 1 else 0))) ∘ fun x => (n, x)) =
          (annDets lay n).length := List.countP_eq_length.2 fun x _ => by simp [hk]
      rw [this, annDets_length hv, once _ lay.faces, thrice, ← Nat.mul_add, ← Nat.mul_add, faceKnown]
      congr 1
      rcases ho with hV | hH
      · simp only [hV, if_true, show ¬ ("V" = "H") by decide, and_false, if_false, zero_add, decide_eq_true_eq] at hk ⊢
        split_ifs <;> omega
      · simp only [hH, if_true, show ¬ ("H" = "V") by decide, and_true, if_false, decide_eq_true_eq] at hk ⊢
        split_ifs <;> omega

/-- C105: `finalHalf` consists of detectors and is not empty, so that the boundary node is in the other component. The other component has the faces of one
colour, `data_width * data_height / 6` many, for every other sub-round from the fifth one ("V") or the sixth one ("H") on. -/
theorem c105_sizes (lay : HoneycombLayout) (hv : lay.Valid) (hs : lay.Supported) :
    ∃ d, lay.makeCircuit = .ok d ∧ (∀ i ∈ lay.finalHalf, i < d.num_detectors) ∧ lay.finalHalf.Nonempty ∧
      (d.num_detectors : Int) - lay.finalHalf.card = lay.data_width * lay.data_height / 6 *
        max 0 (if lay.obs = "V" then (lay.sub_rounds - 3) / 2 else (lay.sub_rounds - 4) / 2) := by
  obtain ⟨N, hN⟩ := Int.eq_ofNat_of_zero_le (show 0 ≤ lay.sub_rounds by have := hs.2.2.1; omega)
  obtain ⟨_, _, d, _, _, _, _, _, _, _, _, _, _, _, _, hd⟩ := makeCircuit_ok hv hs hN
  have h1 : 1 ≤ N := by have := hs.2.2.1; omega
  have hf : (lay.faces : Int) = lay.data_width * lay.data_height / 6 := by
    rw [faces, length_round_hex_centers hv (by omega) (by omega), Valid.dw hv, Valid.dh hv]
    rw [show 2 * lay.tile_width * (6 * lay.tile_height) = 6 * (2 * lay.tile_width * lay.tile_height) by ring]
    omega
  have hpos : 0 < lay.faces := by
    have := length_round_hex_centers hv (r := 0) (by omega) (by omega)
    have h3 : 0 < 2 * lay.tile_width * lay.tile_height := by
      have := Valid.tw_pos hv; have := Valid.th_pos hv; positivity
    rw [← faces] at this
    omega
  have hnd := num_detectors_allDets hv hs hN hd
  refine ⟨d, hd, fun i hi => ?_, ?_, ?_⟩
  · obtain ⟨z, hz, -⟩ := (mem_finalHalf hv hs hN).1 hi
    rw [hnd]
    exact (List.getElem?_eq_some_iff.1 hz).1
  · have hl : 0 < (finDets lay N).length := by
      have hk := finals_known hs.2.1 h1
      rw [finDets_length hv]
      split_ifs at hk ⊢ <;> first | omega | (exfalso; tauto)
    obtain ⟨y, hy⟩ := List.exists_mem_of_length_pos hl
    have hm : (N, y) ∈ allDets lay N := by
      rw [allDets, List.mem_append]
      exact Or.inr (List.mem_map.2 ⟨y, hy, rfl⟩)
    obtain ⟨i, hi⟩ := List.mem_iff_getElem?.1 hm
    exact ⟨i, (mem_finalHalf hv hs hN).2 ⟨_, hi, Or.inl hN.symm⟩⟩
  · have hc := List.length_eq_countP_add_countP (l := allDets lay N) (fun x => decide (lay.FinalHalfLayer x.1))
    have ho : (allDets lay N).countP (fun x => ¬ decide (lay.FinalHalfLayer x.1)) = lay.faces * (if lay.obs = "V" then (N - 3) / 2 else (N - 4) / 2) := by
      rw [← others_count hv hs.2.1, allDets, List.countP_append, List.countP_map]
      have z : (finDets lay N).countP ((fun x : Nat × Pt × Finset Nat => decide (¬ decide (lay.FinalHalfLayer x.1))) ∘ fun x => (N, x)) = 0 :=
        List.countP_eq_zero.2 fun x _ => by simp [FinalHalfLayer, hN]
      rw [z, add_zero]
      refine List.countP_congr fun x hx => ?_
      obtain ⟨k, hk, hx⟩ := List.mem_flatMap.1 hx
      obtain ⟨y, hy, rfl⟩ := List.mem_map.1 hx
      have hk := List.mem_range.1 hk
      have : lay.FinalHalfLayer k ↔ (k : Int) % 2 = if lay.obs = "V" then 1 else 0 := by rw [FinalHalfLayer, hN, or_iff_right (by omega)]
      simp [this]
    rw [hnd, finalHalf_card hv hs hN, hc, ho, ← hf, hN]
    push_cast
    rw [add_sub_cancel_left]
    congr 1
    split_ifs <;> omega

/-- The hypotheses of C105 are met: the circuit has an error model; in its graph four detectors are connected to the boundary, and some detector is not. -/
example : ∃ d m g, HoneycombLayout.makeCircuit ⟨4, 6, 6, "SD6", "V", 1/1000⟩ = .ok d ∧ ErrorModelOf d m ∧ demToNxGraph m = .ok g ∧
    (∃ u < d.num_detectors, ¬ g.Connected u d.num_detectors) ∧ d.num_detectors = 32 ∧ (HoneycombLayout.finalHalf ⟨4, 6, 6, "SD6", "V", 1/1000⟩).card = 28 := by
  have hv : HoneycombLayout.Valid ⟨4, 6, 6, "SD6", "V", 1/1000⟩ := by constructor <;> decide
  have hs : HoneycombLayout.Supported ⟨4, 6, 6, "SD6", "V", 1/1000⟩ := by refine ⟨?_, ?_, ?_, ?_⟩ <;> simp
  obtain ⟨d, hd, h⟩ := c105_components _ hv hs (by norm_num)
  obtain ⟨d', hd', h'⟩ := c22_detectors _ hv hs
  rw [hd] at hd'
  obtain rfl := Except.ok.inj hd'
  obtain ⟨d', hd', hlt, ⟨u, hu⟩, hsz⟩ := c105_sizes _ hv hs
  rw [hd] at hd'
  obtain rfl := Except.ok.inj hd'
  obtain ⟨d', hd', hw⟩ := c101_watches _ hv hs (by norm_num)
  rw [hd] at hd'
  obtain rfl := Except.ok.inj hd'
  obtain ⟨m, hm, -⟩ := exists_errorModel (1 / 2) (by norm_num) (by norm_num) hw
  obtain ⟨g, hg, -, hc⟩ := h m hm
  have h32 : d.num_detectors = 32 := by simp at h'; omega
  refine ⟨d, m, g, hd, hm, hg, ⟨u, hlt u hu, fun hcon => ?_⟩, h32, ?_⟩
  · have := ((hc u _ (hlt u hu).le (le_refl _)).1 hcon).1 hu
    exact lt_irrefl _ (hlt _ this)
  · rw [h32] at hsz
    have h4 := hsz.trans (show _ = (4 : Int) by decide)
    omega

end Honeycomb
