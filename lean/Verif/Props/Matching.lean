import Verif.Lemmas.ModelExists
import Verif.Model.Mains
import Verif.Props.Coverage
import Verif.Props.Decompose
import Verif.Props.Decoding

/-!
# Matching decoders correct few errors (C104)

`Spec/ErrorModel.lean`: `ErrorModelOf d m` says that the components of `m` are the symptoms of single errors of the noise channels of `d` with at most two
detectors; `Explains b T row` that the edges in `T` match the detectors that fired; `predicts` is the prediction from a matching; `MinimumWeight` a decoder that
predicts from a matching of least weight.
-/

namespace Honeycomb
open HoneycombLayout

/-- Edges of the graph come from components. -/
theorem edges_components {m : Dem} {T : Finset (Nat × Nat)} (hT : T ⊆ m.pairs) :
    ∃ l : List Mechanism, l.length = T.card ∧ (∀ e ∈ l, e ∈ m.mechanisms ∧ e.p ≠ 0) ∧ OddOn m.num_detectors l T := by
  have : ∀ k, ∃ e : Mechanism, k ∈ T → e ∈ m.mechanisms ∧ e.p ≠ 0 ∧ e.key m.num_detectors = some k := fun k => by
    by_cases hk : k ∈ T
    · obtain ⟨e, h1, h2, h3⟩ := mem_demPairs.1 (hT hk)
      exact ⟨e, fun _ => ⟨h1, h2, h3⟩⟩
    · exact ⟨⟨0, [], []⟩, fun h => absurd h hk⟩
  choose f hf using this
  refine ⟨T.toList.map f, by simp, fun e he => ?_, oddOn_iff.2 fun k _ => ?_⟩
  · obtain ⟨k, hk, rfl⟩ := List.mem_map.1 he
    have := hf k (Finset.mem_toList.1 hk)
    exact ⟨this.1, this.2.1⟩
  · have hcount : (T.toList.map f).countP (fun e => e.key m.num_detectors = some k) = T.toList.count k := by
      rw [List.countP_map, List.count]
      refine List.countP_congr fun x hx => ?_
      rw [Function.comp_apply, (hf x (Finset.mem_toList.1 hx)).2.2]
      simp
    rw [hcount]
    by_cases hk : k ∈ T
    · rw [List.count_eq_one_of_mem T.nodup_toList (Finset.mem_toList.2 hk)]
      simp [hk]
    · rw [List.count_eq_zero_of_not_mem (by rwa [Finset.mem_toList])]
      simp [hk]

theorem endsAt_zero {m : Dem} {T : Finset (Nat × Nat)} (hT : T ⊆ m.pairs) {x : Nat} (hx : m.num_detectors < x) : endsAt T x = 0 := by
  refine Finset.sum_eq_zero fun k hk => ?_
  have h1 := demPairs_bound m k (hT hk)
  have h2 := demPairs_ordered m k (hT hk)
  rw [if_neg (by omega), if_neg (by omega), Nat.add_zero]

/-- What the edges of the graph do, a sample with as many errors does. -/
theorem edges_sample {lay : HoneycombLayout} {d : Circuit} (hv : lay.Valid) (hs : lay.Supported) (hd : lay.makeCircuit = .ok d) {m : Dem}
    (hm : ErrorModelOf d m) (hD : 2 < lay.circuitDistance) {g : NxGraph} (hg : demToNxGraph m = .ok g) {T : Finset (Nat × Nat)} (hT : g.HasEdges T) :
    ∃ rec, CanSample T.card d.flatten rec ∧ Explains d.num_detectors T (detectionBits d rec) ∧ g.predicts d.num_observables T = observableBits d rec := by
  have hG := errorModel_graphlike hv hs hd hm hD
  obtain ⟨g1, hg1, hsub, -⟩ := graphlike_graph hG
  obtain rfl := Except.ok.inj (hg.symm.trans hg1)
  have hTp := (hsub T).1 hT
  obtain ⟨l, hl, hmem, hodd⟩ := edges_components hTp
  obtain ⟨g2, hg2, hex⟩ := c102_explains m hG (component_silent hv hs hd hm (by omega))
  obtain rfl := Except.ok.inj (hg.symm.trans hg2)
  obtain ⟨-, h1, h2⟩ := hex l T hmem hT.1 hodd
  obtain ⟨rec, h3, h4, h5⟩ := components_sample hv hs hd hm l hmem
  rw [hl] at h3
  refine ⟨rec, h3, fun x hx => ?_, ?_⟩
  · rw [h4]
    rcases lt_or_gt_of_ne hx with hx | hx
    · exact (h1 x (by rwa [hm.detectors])).symm
    · rw [endsAt_zero hTp (by rwa [hm.detectors]), ← h4, List.getElem?_eq_none (by rw [detectionBits_length]; omega)]
      simp
  · refine bits_ext (by rw [observableBits_length]; simp [NxGraph.predicts]) fun j => ?_
    rw [h5, h2, NxGraph.predicts, List.getElem?_map]
    by_cases hj : j < d.num_observables
    · rw [List.getElem?_range hj]
      simp
    · rw [List.getElem?_eq_none (by simpa using hj)]
      refine iff_of_false (by simp) fun ho => ?_
      rw [← h2, ← h5, List.getElem?_eq_none (by rw [observableBits_length]; omega)] at ho
      cases ho

/-- C104: with an error model of the circuit, the matching graph is made without an exception, components on the same edge flip the same observables (so that C102
holds), and every detector has an edge. -/
theorem c104_graph (lay : HoneycombLayout) (hv : lay.Valid) (hs : lay.Supported) (hp : 0 < lay.noise) (hD : 2 < lay.circuitDistance) :
    ∃ d, lay.makeCircuit = .ok d ∧ ∀ m, ErrorModelOf d m → Graphlike m ∧
      ∃ g, demToNxGraph m = .ok g ∧ ∀ x < d.num_detectors, ∃ v data, g.edge? x v = some data := by
  obtain ⟨d, hd, hw⟩ := c101_watches lay hv hs hp
  refine ⟨d, hd, fun m hm => ?_⟩
  have hG := errorModel_graphlike hv hs hd hm hD
  obtain ⟨g, hg, hsub, hedge⟩ := graphlike_graph hG
  refine ⟨hG, g, hg, fun x hx => ?_⟩
  obtain ⟨rec, h1, h2, h3⟩ := hw x hx
  have hx' : (detectionBits d rec)[x]? = some true := (detectionBits_get d rec x).2 h2
  have hcount : (detectionBits d rec).count true = (detectorValues d.flatten rec).count (some 1) := by
    rw [detectionBits, List.count, List.count, List.countP_map]
    refine List.countP_congr fun v _ => ?_
    simp
  have hpos : 0 < (detectionBits d rec).count true := List.count_pos_iff.2 (List.mem_of_getElem? hx')
  obtain ⟨e, he, he0, hdets⟩ := hm.complete rec h1 (by
    rw [hcount] at hpos ⊢
    simp only [List.mem_cons, List.not_mem_nil, or_false]
    omega)
  have hxe := (hdets x).2 hx'
  have hlen := (hm.two e he he0).2
  obtain ⟨u, v, hk, huv⟩ : ∃ u v, e.key m.num_detectors = some (edgeKey u v) ∧ (u = x ∨ v = x) := by
    rw [Mechanism.key]
    match hde : e.dets with
    | [] => rw [hde] at hxe; cases hxe
    | [a] => exact ⟨a, m.num_detectors, rfl, .inl (by rw [hde] at hxe; exact (List.mem_singleton.1 hxe).symm)⟩
    | [a, b] => exact ⟨a, b, rfl, by rw [hde] at hxe; simp only [List.mem_cons, List.not_mem_nil, or_false] at hxe; tauto⟩
    | a :: b :: c :: l => rw [hde] at hlen; simp at hlen
  obtain ⟨data, f, hdata, -⟩ := hedge _ (mem_demPairs.2 ⟨e, he, he0, hk⟩)
  have hswap : ∀ u v, g.edge? (edgeKey u v).1 (edgeKey u v).2 = g.edge? u v := fun u v => by
    rw [NxGraph.edge?, NxGraph.edge?, edgeKey_of_le (edgeKey_ordered u v)]
  rw [hswap] at hdata
  rcases huv with rfl | rfl
  · exact ⟨v, data, hdata⟩
  · refine ⟨u, data, ?_⟩
    rw [NxGraph.edge?, edgeKey, Nat.min_comm, Nat.max_comm]
    exact hdata

/-- C104: edges of the matching graph that together fire no detector but flip an observable are at least `circuitDistance` many. -/
theorem c104_distance (lay : HoneycombLayout) (hv : lay.Valid) (hs : lay.Supported) (hD : 2 < lay.circuitDistance) :
    ∃ d, lay.makeCircuit = .ok d ∧ ∀ m, ErrorModelOf d m → ∃ g, demToNxGraph m = .ok g ∧ ∀ T, g.HasEdges T →
      (∀ x < d.num_detectors, Even (endsAt T x)) → (∃ j < d.num_observables, Odd (g.framesOf T j)) → lay.circuitDistance ≤ T.card := by
  obtain ⟨N, hN⟩ := Int.eq_ofNat_of_zero_le (show 0 ≤ lay.sub_rounds by have := hs.2.2.1; omega)
  obtain ⟨_, _, d, _, _, _, _, _, _, _, _, _, _, _, _, hd⟩ := makeCircuit_ok hv hs hN
  refine ⟨d, hd, fun m hm => ?_⟩
  obtain ⟨g, hg, -⟩ := graphlike_graph (errorModel_graphlike hv hs hd hm hD)
  refine ⟨g, hg, fun T hT heven => ?_⟩
  rintro ⟨j, hj, hodd⟩
  by_contra hlt
  obtain ⟨rec, h1, h2, h3⟩ := edges_sample hv hs hd hm hD hg hT
  obtain ⟨s, g1, g2, g3⟩ := quiet_sample hv hs hd
  have heq : detectionBits d rec = detectionBits d s := bits_ext (by rw [detectionBits_length, detectionBits_length]) fun x => by
    refine iff_of_false (fun hx => ?_) (g2 x)
    have hx' : x < d.num_detectors := by
      by_contra hge
      rw [List.getElem?_eq_none (by rw [detectionBits_length]; omega)] at hx
      cases hx
    have := (h2 x (by omega)).2 hx
    exact Nat.not_even_iff_odd.2 this (heven x hx')
  have := few_same hv hs hd h1 g1 (by omega) heq
  refine g3 j ?_
  rw [← this, ← h3, NxGraph.predicts, List.getElem?_map, List.getElem?_range hj]
  simp [hodd]

/-- The parity of the sum of defined values. -/
theorem sumValues_odd : ∀ vs : List (Option (ZMod 2)), (∀ v ∈ vs, v.isSome) → (sumValues vs = some 1 ↔ Odd (vs.countP fun v => v = some 1)) ∧ (sumValues vs).isSome
  | [], _ => by simp [sumValues]
  | v :: vs, h => by
    obtain ⟨h1, h2⟩ := sumValues_odd vs fun w hw => h w (List.mem_cons_of_mem _ hw)
    obtain ⟨a, rfl⟩ := Option.isSome_iff_exists.1 (h v List.mem_cons_self)
    obtain ⟨b, hb⟩ := Option.isSome_iff_exists.1 h2
    rw [hb] at h1
    rw [sumValues, hb, List.countP_cons, Nat.odd_add, ← Nat.not_odd_iff_even, ← h1]
    refine ⟨?_, by simp⟩
    clear h1 h2 hb h
    revert a b
    decide

/-- Single errors with at most two symptoms are components of the error model. -/
theorem singles_components {lay : HoneycombLayout} {d : Circuit} (hv : lay.Valid) (hs : lay.Supported) (hd : lay.makeCircuit = .ok d) {m : Dem}
    (hm : ErrorModelOf d m) (hD : 2 < lay.circuitDistance) : ∀ recs : List (List (ZMod 2)),
    (∀ r ∈ recs, CanSample 1 d.flatten r ∧ (detectorValues d.flatten r).count (some 1) ≤ 2) →
    ∃ l : List Mechanism, l.length ≤ recs.length ∧ (∀ e ∈ l, e ∈ m.mechanisms ∧ e.p ≠ 0) ∧
      (∀ x : Nat, Fires l x ↔ Odd (recs.countP fun r => (detectionBits d r)[x]? = some true)) ∧
      ∀ j : Nat, Flips l j ↔ Odd (recs.countP fun r => (observableBits d r)[j]? = some true)
  | [], _ => ⟨[], by simp, by simp, by simp [Fires], by simp [Flips]⟩
  | r :: recs, h => by
    obtain ⟨l, hl, h1, h2, h3⟩ := singles_components hv hs hd hm hD recs fun s hs' => h s (List.mem_cons_of_mem _ hs')
    obtain ⟨hr, hc⟩ := h r List.mem_cons_self
    have hcount : (detectionBits d r).count true = (detectorValues d.flatten r).count (some 1) := by
      rw [detectionBits, List.count, List.count, List.countP_map]
      refine List.countP_congr fun v _ => ?_
      simp
    by_cases h0 : (detectionBits d r).count true = 0
    · obtain ⟨s, g1, g2, g3⟩ := quiet_sample hv hs hd
      have hno : ∀ x : Nat, ¬(detectionBits d r)[x]? = some true := fun x hx => by
        rw [List.count_eq_zero] at h0
        exact h0 (List.mem_of_getElem? hx)
      have heq : detectionBits d r = detectionBits d s := bits_ext (by rw [detectionBits_length, detectionBits_length]) fun x =>
        iff_of_false (hno x) (g2 x)
      have hobs := few_same hv hs hd hr g1 (by omega) heq
      refine ⟨l, by rw [List.length_cons]; omega, h1, fun x => ?_, fun j => ?_⟩
      · rw [List.countP_cons_of_neg (by simpa using hno x), h2]
      · rw [List.countP_cons_of_neg (by rw [hobs]; simpa using g3 j), h3]
    · obtain ⟨e, he, he0, hdets⟩ := hm.complete r hr (by
        simp only [List.mem_cons, List.not_mem_nil, or_false]
        omega)
      obtain ⟨s, g1, g2, g3⟩ := hm.sound e he he0
      have heq : detectionBits d s = detectionBits d r := bits_ext (by rw [detectionBits_length, detectionBits_length]) fun x => by rw [← g2, hdets]
      have hobs := few_same hv hs hd g1 hr (by omega) heq
      refine ⟨e :: l, by rw [List.length_cons, List.length_cons]; omega, ?_, fun x => ?_, fun j => ?_⟩
      · rintro e' he'
        rcases List.mem_cons.1 he' with rfl | he'
        exacts [⟨he, he0⟩, h1 _ he']
      · rw [Fires, List.map_cons, List.sum_cons, List.countP_cons, Nat.odd_add', Nat.odd_add, ← Fires, h2, ← Nat.not_odd_iff_even, ← Nat.not_odd_iff_even]
        by_cases hx : x ∈ e.dets
        · rw [List.count_eq_one_of_mem (hm.two e he he0).1 hx, (hdets x).1 hx]
          simp
        · rw [List.count_eq_zero_of_not_mem hx]
          simp [(hdets x).not.1 hx]
      · rw [Flips, List.countP_cons, List.countP_cons, Nat.odd_add, Nat.odd_add, ← Flips, h3, ← Nat.not_odd_iff_even, ← Nat.not_odd_iff_even, ← hobs]
        simp only [g3]

/-- Single errors that fire at most two detectors are edges of the graph. -/
theorem explained_by {lay : HoneycombLayout} {d : Circuit} (hv : lay.Valid) (hs : lay.Supported) (hd : lay.makeCircuit = .ok d) {m : Dem}
    (hm : ErrorModelOf d m) (hD : 2 < lay.circuitDistance) {g : NxGraph} (hg : demToNxGraph m = .ok g) {rec : List (ZMod 2)} {recs : List (List (ZMod 2))}
    (h1 : ∀ r ∈ recs, CanSample 1 d.flatten r ∧ (detectorValues d.flatten r).count (some 1) ≤ 2)
    (h2 : ∀ i < (detectorValues d.flatten rec).length,
      (detectorValues d.flatten rec)[i]? = some (sumValues (recs.map fun r => (detectorValues d.flatten r).getD i none)))
    (h3 : observableValue (if lay.obs = "V" then 0 else 1) d.flatten rec =
      sumValues (recs.map (observableValue (if lay.obs = "V" then 0 else 1) d.flatten))) :
    ∃ T, T.card ≤ recs.length ∧ g.HasEdges T ∧ Explains d.num_detectors T (detectionBits d rec) ∧ g.predicts d.num_observables T = observableBits d rec := by
  have hG := errorModel_graphlike hv hs hd hm hD
  obtain ⟨g', hg', hex⟩ := c102_explains m hG (component_silent hv hs hd hm (by omega))
  obtain rfl := Except.ok.inj (hg.symm.trans hg')
  obtain ⟨l, kl, k1, k2, k3⟩ := singles_components hv hs hd hm hD recs h1
  classical
  set T := m.pairs.filter fun k => Odd (l.countP fun e => e.key m.num_detectors = some k) with hTdef
  have hTp : T ⊆ m.pairs := Finset.filter_subset _ _
  have hodd : OddOn m.num_detectors l T := oddOn_iff.2 fun k _ => by
    rw [hTdef, Finset.mem_filter]
    refine ⟨fun ho => ⟨?_, ho⟩, fun ho => ho.2⟩
    obtain ⟨e, he, hek⟩ := List.countP_pos_iff.1 ho.pos
    exact mem_demPairs.2 ⟨e, (k1 e he).1, (k1 e he).2, of_decide_eq_true hek⟩
  obtain ⟨e1, e2, e3⟩ := hex l T k1 (fun k hk => demPairs_ordered m k (hTp hk)) hodd
  have hcard : T.card ≤ recs.length := by
    refine le_trans ?_ (((List.toFinset_card_le _).trans (List.length_filterMap_le (fun e : Mechanism => e.key m.num_detectors) l)).trans kl)
    refine Finset.card_le_card fun k hk => ?_
    rw [hTdef, Finset.mem_filter] at hk
    obtain ⟨e, he, hek⟩ := List.countP_pos_iff.1 hk.2.pos
    exact List.mem_toFinset.2 (List.mem_filterMap.2 ⟨e, he, of_decide_eq_true hek⟩)
  refine ⟨T, hcard, e1, fun x hx => ?_, ?_⟩
  · rcases lt_or_gt_of_ne hx with hx | hx
    · rw [← e2 x (by rwa [hm.detectors]), k2, detectionBits_get, h2 x (by rwa [detectorValues_length]), Option.some.injEq, (sumValues_odd _ ?_).1]
      · rw [List.countP_map]
        refine Iff.of_eq (congrArg Odd (List.countP_congr fun r hr => ?_))
        rw [decide_eq_true_eq, Function.comp_apply, decide_eq_true_eq, detectionBits_get, List.getD_eq_getElem?_getD,
          List.getElem?_eq_getElem (by rwa [detectorValues_length]), Option.getD_some, Option.some.injEq]
      · intro v hv'
        obtain ⟨r, hr, rfl⟩ := List.mem_map.1 hv'
        rw [List.getD_eq_getElem?_getD, List.getElem?_eq_getElem (by rwa [detectorValues_length]), Option.getD_some]
        exact (sample_defined hv hs hd (h1 r hr).1).1 _ (List.getElem_mem _)
    · rw [endsAt_zero hTp (by rwa [hm.detectors]), List.getElem?_eq_none (by rw [detectionBits_length]; omega)]
      simp
  · refine bits_ext (by rw [observableBits_length]; simp [NxGraph.predicts]) fun j => ?_
    rw [NxGraph.predicts, List.getElem?_map, observableBits_get]
    by_cases hj : j < d.num_observables
    · rw [List.getElem?_range hj, Option.map_some, Option.some.injEq, decide_eq_true_eq, ← e3, k3]
      have hcongr : (recs.countP fun r => (observableBits d r)[j]? = some true) = recs.countP fun r => observableValue j d.flatten r = some 1 :=
        List.countP_congr fun r _ => by simp [observableBits_get, hj]
      rw [hcongr]
      simp only [hj, true_and]
      by_cases hk : j = lay.obsI
      · rw [hk]
        rw [show observableValue lay.obsI d.flatten rec = _ from h3, (sumValues_odd _ ?_).1, List.countP_map]
        · rfl
        · intro v hv'
          obtain ⟨r, hr, rfl⟩ := List.mem_map.1 hv'
          exact (sample_defined hv hs hd (h1 r hr).1).2
      · simp only [other_observable hv hs hd j hk]
        simp
    · rw [List.getElem?_eq_none (by simpa using hj)]
      simp [hj]

/-- C104: for every sample of the circuit there are edges of the matching graph that fire exactly the detectors, and flip exactly the observables, of the sample. -/
theorem c104_explained (lay : HoneycombLayout) (hv : lay.Valid) (hs : lay.Supported) (hp : 0 < lay.noise) (hD : 2 < lay.circuitDistance) :
    ∃ d, lay.makeCircuit = .ok d ∧ ∀ m, ErrorModelOf d m → ∃ g, demToNxGraph m = .ok g ∧ ∀ n rec, CanSample n d.flatten rec →
      ∃ T, g.HasEdges T ∧ Explains d.num_detectors T (detectionBits d rec) ∧ g.predicts d.num_observables T = observableBits d rec := by
  obtain ⟨d, hd, hdec⟩ := c100_decomposes lay hv hs hp
  refine ⟨d, hd, fun m hm => ?_⟩
  have hG := errorModel_graphlike hv hs hd hm hD
  obtain ⟨g, hg, -⟩ := graphlike_graph hG
  refine ⟨g, hg, fun n rec hrec => ?_⟩
  obtain ⟨recs, h1, h2, h3⟩ := hdec n rec hrec
  obtain ⟨T, -, h⟩ := explained_by hv hs hd hm hD hg h1 h2 h3
  exact ⟨T, h⟩

theorem sum_symmDiff {M : Type} [AddCommMonoid M] (f : Nat × Nat → M) (T T' : Finset (Nat × Nat)) :
    ∑ k ∈ symmDiff T T', f k + (∑ k ∈ T ∩ T', f k + ∑ k ∈ T ∩ T', f k) = ∑ k ∈ T, f k + ∑ k ∈ T', f k := by
  have hdis : Disjoint (T \ T') (T' \ T) := by
    rw [Finset.disjoint_left]
    intro k h1 h2
    exact (Finset.mem_sdiff.1 h1).2 (Finset.mem_sdiff.1 h2).1
  rw [symmDiff, Finset.sup_eq_union, Finset.sum_union hdis, ← Finset.sum_inter_add_sum_sdiff T T' f, ← Finset.sum_inter_add_sum_sdiff T' T f, Finset.inter_comm T' T]
  abel

theorem odd_symmDiff (f : Nat × Nat → Nat) (T T' : Finset (Nat × Nat)) :
    Odd (∑ k ∈ symmDiff T T', f k) ↔ ¬(Odd (∑ k ∈ T, f k) ↔ Odd (∑ k ∈ T', f k)) := by
  have := sum_symmDiff f T T'
  simp only [Nat.odd_iff]
  omega

/-- Two matchings with different predictions differ in many edges, so that their weights together are not small. -/
theorem matchings_differ {lay : HoneycombLayout} {d : Circuit} (hv : lay.Valid) (hs : lay.Supported) (hd : lay.makeCircuit = .ok d) {m : Dem}
    (hm : ErrorModelOf d m) (hD : 2 < lay.circuitDistance) {g : NxGraph} (hg : demToNxGraph m = .ok g) {T T' : Finset (Nat × Nat)} (hT : g.HasEdges T)
    (hT' : g.HasEdges T') {row : List Bool} (h : Explains d.num_detectors T row) (h' : Explains d.num_detectors T' row)
    (hne : g.predicts d.num_observables T ≠ g.predicts d.num_observables T') {w : ℝ} (hw0 : 0 ≤ w)
    (hw : ∀ u v data, g.edge? u v = some data → w ≤ data.weight) : w * lay.circuitDistance ≤ g.weightOf T + g.weightOf T' := by
  obtain ⟨d', hd', hdist⟩ := c104_distance lay hv hs hD
  obtain rfl := Except.ok.inj (hd.symm.trans hd')
  obtain ⟨g', hg', hdist⟩ := hdist m hm
  obtain rfl := Except.ok.inj (hg.symm.trans hg')
  have hE : g.HasEdges (symmDiff T T') := by
    have : ∀ k ∈ symmDiff T T', k ∈ T ∨ k ∈ T' := fun k hk => by
      rcases Finset.mem_symmDiff.1 hk with h | h
      exacts [.inl h.1, .inr h.1]
    exact ⟨fun k hk => (this k hk).elim (hT.1 k) (hT'.1 k), fun k hk => (this k hk).elim (hT.2 k) (hT'.2 k)⟩
  have hwt : ∀ U, g.HasEdges U → ∀ k ∈ U, w ≤ g.weightAt k := fun U hU k hk => by
    obtain ⟨data, hdata⟩ := hU.2 k hk
    rw [NxGraph.weightAt, hdata]
    exact hw _ _ data hdata
  have hcard := hdist (symmDiff T T') hE (fun x hx => ?_) ?_
  · have h1 : w * (symmDiff T T').card ≤ g.weightOf (symmDiff T T') := by
      rw [mul_comm, ← nsmul_eq_mul]
      exact Finset.card_nsmul_le_sum _ _ _ (hwt _ hE)
    have h2 : g.weightOf (symmDiff T T') ≤ g.weightOf T + g.weightOf T' := by
      rw [NxGraph.weightOf, NxGraph.weightOf, NxGraph.weightOf, ← sum_symmDiff]
      have : 0 ≤ ∑ k ∈ T ∩ T', g.weightAt k := Finset.sum_nonneg fun k hk => hw0.trans (hwt T hT k (Finset.mem_inter.1 hk).1)
      linarith
    have h3 : (lay.circuitDistance : ℝ) ≤ (symmDiff T T').card := by exact_mod_cast hcard
    have := mul_le_mul_of_nonneg_left h3 hw0
    linarith
  · rw [← Nat.not_odd_iff_even, endsAt, odd_symmDiff, not_not]
    exact (h x (by omega)).trans (h' x (by omega)).symm
  · by_contra hno
    push Not at hno
    refine hne (List.map_congr_left fun j hj => ?_)
    have := hno j (List.mem_range.1 hj)
    rw [NxGraph.framesOf, odd_symmDiff, not_not] at this
    exact decide_eq_decide.2 this

/-- C104: a matching of least weight predicts the observables of a sample correctly, if the edges that explain the sample are light: together less than half of
`circuitDistance` times the weight `w` of the lightest edge. -/
theorem c104_corrects (lay : HoneycombLayout) (hv : lay.Valid) (hs : lay.Supported) (hD : 2 < lay.circuitDistance) :
    ∃ d, lay.makeCircuit = .ok d ∧ ∀ m, ErrorModelOf d m → ∃ g, demToNxGraph m = .ok g ∧
      ∀ w : ℝ, 0 ≤ w → (∀ u v data, g.edge? u v = some data → w ≤ data.weight) →
      ∀ matching, MinimumWeight g d.num_detectors d.num_observables matching → ∀ rec T, g.HasEdges T → Explains d.num_detectors T (detectionBits d rec) →
        g.predicts d.num_observables T = observableBits d rec → 2 * g.weightOf T < w * lay.circuitDistance →
        matching (detectionBits d rec) = observableBits d rec := by
  obtain ⟨d, hd, hdist⟩ := c104_distance lay hv hs hD
  refine ⟨d, hd, fun m hm => ?_⟩
  obtain ⟨g, hg, -⟩ := hdist m hm
  refine ⟨g, hg, fun w hw0 hw matching hmin rec T hT hex hpred hlight => ?_⟩
  obtain ⟨T', hT', hex', hle, heq⟩ := hmin _ ⟨T, hT, hex⟩
  rw [heq, ← hpred]
  by_contra hne
  have := matchings_differ hv hs hd hm hD hg hT' hT hex' hex hne hw0 hw
  linarith [hle T hT hex]

/-- C104: `decode_using_pymatching` predicts all such samples correctly, and `sample_decode_count_correct` counts all of them as correct, if pymatching finds
matchings of least weight in the graph that it is given. -/
theorem c104_pymatching (lay : HoneycombLayout) (hv : lay.Valid) (hs : lay.Supported) (hD : 2 < lay.circuitDistance) :
    ∃ d, lay.makeCircuit = .ok d ∧ ∀ m, ErrorModelOf d m → (∀ e ∈ m.mechanisms, e.p ≤ 1 / 2) →
      ∃ g g', demToNxGraph m = .ok g ∧ demToPymatchingGraph m = .ok g' ∧
      ∀ w : ℝ, 0 ≤ w → (∀ u v data, g.edge? u v = some data → w ≤ data.weight) →
      ∀ matching, MinimumWeight g' d.num_detectors d.num_observables matching → ∀ recs : List (List (ZMod 2)),
        (∀ rec ∈ recs, ∃ T, g.HasEdges T ∧ Explains d.num_detectors T (detectionBits d rec) ∧ g.predicts d.num_observables T = observableBits d rec ∧
          2 * g.weightOf T < w * lay.circuitDistance ∧ g.weightOf T < 9999999999) →
        decodeUsingPymatching ⟨d.num_detectors, d.num_observables⟩ (recs.map (detectionBits d)) false matching = .ok (recs.map (observableBits d)) ∧
        sampleDecodeCountCorrect ⟨d.num_detectors, d.num_observables⟩ none "pymatching" (recs.map fun rec => detectionBits d rec ++ observableBits d rec)
          (fun _ correlated dets => decodeUsingPymatching ⟨d.num_detectors, d.num_observables⟩ dets correlated matching) = .ok recs.length := by
  obtain ⟨d, hd, hdist⟩ := c104_distance lay hv hs hD
  refine ⟨d, hd, fun m hm hh => ?_⟩
  have hG := errorModel_graphlike hv hs hd hm hD
  obtain ⟨g, hg, hsub, -⟩ := graphlike_graph hG
  obtain ⟨g', hg', hold, hnew, hpos⟩ := pymatching_graph hG hh hg
  refine ⟨g, g', hg, hg', fun w hw0 hw matching hmin recs hrecs => ?_⟩
  have hsame : ∀ T ⊆ m.pairs, g'.weightOf T = g.weightOf T ∧ g'.predicts d.num_observables T = g.predicts d.num_observables T := fun T hT => by
    have hmark : ∀ k ∈ T, ∀ j, g'.Marked k j ↔ g.Marked k j := fun k hk j => by rw [NxGraph.Marked, NxGraph.Marked, hold k (hT hk)]
    refine ⟨Finset.sum_congr rfl fun k hk => by rw [NxGraph.weightAt, NxGraph.weightAt, hold k (hT hk)], List.map_congr_left fun j _ => ?_⟩
    have : g'.framesOf T j = g.framesOf T j := Finset.sum_congr rfl fun k hk => by classical exact if_congr (hmark k hk j) rfl rfl
    rw [this]
  have hone : ∀ rec ∈ recs, matching (detectionBits d rec ++ [false]) = observableBits d rec := fun rec hr => by
    obtain ⟨T, hT, hex, hpred, hlight, hbig⟩ := hrecs rec hr
    have hTp := (hsub T).1 hT
    have hconv : ∀ U, Explains d.num_detectors U (detectionBits d rec ++ [false]) ↔ Explains d.num_detectors U (detectionBits d rec) := fun U => by
      refine forall_congr' fun x => forall_congr' fun hx => ?_
      rcases lt_or_gt_of_ne hx with hx | hx
      · rw [List.getElem?_append_left (by rwa [detectionBits_length])]
      · rw [List.getElem?_eq_none (by rw [List.length_append, detectionBits_length]; simpa using hx), List.getElem?_eq_none (by rw [detectionBits_length]; omega)]
    have hTE : g'.HasEdges T := ⟨hT.1, fun k hk => by rw [hold k (hTp hk)]; exact hT.2 k hk⟩
    obtain ⟨T', hT', hex', hle, heq⟩ := hmin _ ⟨T, hTE, (hconv T).2 hex⟩
    have hle' := hle T hTE ((hconv T).2 hex)
    rw [(hsame T hTp).1] at hle'
    have hTp' : T' ⊆ m.pairs := fun k hk => by
      by_contra hkp
      obtain ⟨data, hdata⟩ := hT'.2 k hk
      have h1 := Finset.single_le_sum (f := g'.weightAt) (hpos T' hT') hk
      simp only [NxGraph.weightAt, hdata, hnew k data (hT'.1 k hk) hdata hkp] at h1
      have h2 : (9999999999 : ℝ) ≤ g'.weightOf T' := h1
      linarith
    rw [heq, (hsame T' hTp').2, ← hpred]
    rw [(hsame T' hTp').1] at hle'
    by_contra hne
    have := matchings_differ hv hs hd hm hD hg ((hsub T').2 hTp') hT ((hconv T').1 hex') hex hne hw0 hw
    linarith
  have hrows : ∀ r ∈ recs.map (detectionBits d), r.length = d.num_detectors := fun r hr => by
    obtain ⟨rec, -, rfl⟩ := List.mem_map.1 hr
    exact detectionBits_length d rec
  have hdecode : decodeUsingPymatching ⟨d.num_detectors, d.num_observables⟩ (recs.map (detectionBits d)) false matching = .ok (recs.map (observableBits d)) := by
    rw [(c37_decode ⟨d.num_detectors, d.num_observables⟩ _ matching hrows).1, List.map_map]
    exact congrArg _ (List.map_congr_left fun rec hr => hone rec hr)
  refine ⟨hdecode, ?_⟩
  have htake : (recs.map fun rec => detectionBits d rec ++ observableBits d rec).map (List.take d.num_detectors) = recs.map (detectionBits d) := by
    rw [List.map_map]
    refine List.map_congr_left fun rec _ => ?_
    rw [Function.comp_apply, ← detectionBits_length d rec, List.take_left]
  rw [c38_counts ⟨d.num_detectors, d.num_observables⟩ none "pymatching" (false, false) _ (recs.map (observableBits d)) _ c38_flags.1 (.inl rfl) ?_ ?_ ?_]
  · congr 1
    rw [Finset.filter_true_of_mem, Finset.card_range, List.length_map]
    intro k hk
    rw [Finset.mem_range, List.length_map] at hk
    simp only [List.getD_eq_getElem?_getD, List.getElem?_map, List.getElem?_eq_getElem hk, Option.map_some, Option.getD_some]
    rw [← detectionBits_length d recs[k], List.drop_left]
  · intro r hr
    obtain ⟨rec, -, rfl⟩ := List.mem_map.1 hr
    rw [List.length_append, detectionBits_length, observableBits_length]
  · show decodeUsingPymatching _ _ _ _ = _
    rw [htake]
    exact hdecode
  · refine ⟨by simp, fun r hr => ?_⟩
    obtain ⟨rec, -, rfl⟩ := List.mem_map.1 hr
    exact observableBits_length d rec

/-- C104: every generated circuit with noise has such error models, with any probability for the components, and every graph has a minimum weight decoder. -/
theorem c104_exists (lay : HoneycombLayout) (hv : lay.Valid) (hs : lay.Supported) (hp : 0 < lay.noise) :
    ∃ d, lay.makeCircuit = .ok d ∧ (∀ p : Rat, 0 < p → p < 1 → ∃ m, ErrorModelOf d m ∧ ∀ e ∈ m.mechanisms, e.p = p) ∧
      ∀ g, ∃ matching, MinimumWeight g d.num_detectors d.num_observables matching := by
  obtain ⟨d, hd, hw⟩ := c101_watches lay hv hs hp
  exact ⟨d, hd, fun p h0 h1 => exists_errorModel p h0 h1 hw, fun g => exists_minimumWeight g _ _⟩

/-- C104: the graph that `write_honeycomb_networkx_graph.py` saves has 152 detectors, each with an edge, and undetected edges that flip an observable are at least
three. -/
theorem c104_script : ∃ d, HoneycombLayout.makeCircuit ⟨4, 6, 36, "SD6", "H", 1/1000⟩ = .ok d ∧ d.num_detectors = 152 ∧
    ∀ errorModel : Circuit → Dem, ErrorModelOf d (errorModel d) → ∃ g, writeNetworkxGraph errorModel = .ok g ∧
      (∀ x < 152, ∃ v data, g.edge? x v = some data) ∧
      ∀ T, g.HasEdges T → (∀ x < 152, Even (endsAt T x)) → (∃ j < d.num_observables, Odd (g.framesOf T j)) → 3 ≤ T.card := by
  have hv : HoneycombLayout.Valid ⟨4, 6, 36, "SD6", "H", 1/1000⟩ := ⟨by decide, by decide, by decide, by decide⟩
  have hs : HoneycombLayout.Supported ⟨4, 6, 36, "SD6", "H", 1/1000⟩ := ⟨by decide, by decide, by decide, by decide⟩
  have hD : HoneycombLayout.circuitDistance ⟨4, 6, 36, "SD6", "H", 1/1000⟩ = 3 := by decide
  obtain ⟨d, hd, hn⟩ := c22_detectors _ hv hs
  have hn : (d.num_detectors : Int) = 152 := hn.trans (by decide)
  have hn : d.num_detectors = 152 := by omega
  obtain ⟨d', hd', hgr⟩ := c104_graph _ hv hs (by norm_num) (by omega)
  obtain rfl := Except.ok.inj (hd.symm.trans hd')
  obtain ⟨d', hd', hdist⟩ := c104_distance _ hv hs (by omega)
  obtain rfl := Except.ok.inj (hd.symm.trans hd')
  refine ⟨d, hd, hn, fun errorModel hm => ?_⟩
  obtain ⟨-, g, hg, hcov⟩ := hgr _ hm
  obtain ⟨g', hg', hdist⟩ := hdist _ hm
  obtain rfl := Except.ok.inj (hg.symm.trans hg')
  rw [hn] at hcov hdist
  refine ⟨g, ?_, hcov, fun T h1 h2 h3 => ?_⟩
  · have hmake : HoneycombLayout.make 4 6 36 "SD6" "H" (1/1000) = .ok ⟨4, 6, 36, "SD6", "H", 1/1000⟩ := rfl
    rw [writeNetworkxGraph, hmake]
    show (do let c ← HoneycombLayout.makeCircuit ⟨4, 6, 36, "SD6", "H", 1/1000⟩; demToNxGraph (errorModel c)) = _
    rw [hd]
    exact hg
  · have := hdist T h1 h2 h3
    omega

/-! ## The hypotheses can be met -/

theorem prod_le_one_of_mem {n : Nat} {f : Fin n → Rat} {c : Rat} (h0 : ∀ i, 0 ≤ f i) (h1 : ∀ i, f i ≤ 1) (i : Fin n) (hi : f i = c) : ∏ i, f i ≤ c := by
  rw [← hi, ← Finset.mul_prod_erase Finset.univ f (Finset.mem_univ i)]
  exact mul_le_of_le_one_right (h0 i) (Finset.prod_le_one (fun j _ => h0 j) fun j _ => h1 j)

/-- Weights of the graph of a model whose components all have probability 1/1000. -/
theorem uniform_weights {m : Dem} (hG : Graphlike m) (hu : ∀ e ∈ m.mechanisms, e.p = 1 / 1000) {g : NxGraph} (hg : demToNxGraph m = .ok g) :
    ∀ k : Nat × Nat, k.1 ≤ k.2 → ∀ data, g.edge? k.1 k.2 = some data → 0 < data.weight ∧ data.weight < 999 := by
  intro k hk data hdata
  obtain ⟨g1, hg1, hsub, hedge⟩ := graphlike_graph hG
  obtain rfl := Except.ok.inj (hg.symm.trans hg1)
  have hkp : k ∈ m.pairs := (hsub {k}).1 ⟨by rintro e he; rw [Finset.mem_singleton.1 he]; exact hk,
    by rintro e he; rw [Finset.mem_singleton.1 he]; exact ⟨data, hdata⟩⟩ (by simp)
  obtain ⟨data', f, e1, -, -, p0, p1, e2⟩ := hedge k hkp
  rw [hdata] at e1
  obtain rfl := Option.some.inj e1
  set q := oddProb m.num_detectors m.mechanisms k with hq
  have hq2 : q < 1 / 2 ∧ 1 / 1000 ≤ q := by
    rw [hq, oddProb, probOdd_eq]
    set ps := (m.mechanisms.filter fun e => e.p ≠ 0 ∧ e.key m.num_detectors = some k).map Mechanism.p with hps
    have hall : ∀ i : Fin ps.length, (1 - 2 * ps[i] : Rat) = 499 / 500 := fun i => by
      have : ps[i] ∈ ps := List.getElem_mem _
      obtain ⟨e, he, hep⟩ := List.mem_map.1 this
      rw [← hep, hu e (List.mem_filter.1 he).1]
      norm_num
    have hne : 0 < ps.length := by
      obtain ⟨e, he, he0, hek⟩ := mem_demPairs.1 hkp
      rw [hps, List.length_map]
      exact List.length_pos_of_mem (List.mem_filter.2 ⟨he, by simp [he0, hek]⟩)
    have h1 : ∏ i : Fin ps.length, (1 - 2 * ps[i] : Rat) ≤ 499 / 500 :=
      prod_le_one_of_mem (fun i => by rw [hall]; norm_num) (fun i => by rw [hall]; norm_num) ⟨0, hne⟩ (hall _)
    have h2 : 0 < ∏ i : Fin ps.length, (1 - 2 * ps[i] : Rat) := Finset.prod_pos fun i _ => by rw [hall]; norm_num
    constructor <;> linarith
  have q1 : (q : ℝ) < 1 / 2 := by
    have : ((q : Rat) : ℝ) < ((1 / 2 : Rat) : ℝ) := by exact_mod_cast hq2.1
    simpa using this
  have q2 : (1 / 1000 : ℝ) ≤ q := by
    have : ((1 / 1000 : Rat) : ℝ) ≤ ((q : Rat) : ℝ) := by exact_mod_cast hq2.2
    simpa using this
  have q0 : (0 : ℝ) < q := by linarith
  rw [e2]
  constructor
  · refine Real.log_pos ?_
    rw [lt_div_iff₀ q0]
    linarith
  · have h1 : (1 - (q : ℝ)) / q ≤ 999 := by
      rw [div_le_iff₀ q0]
      linarith
    have := Real.log_le_sub_one_of_pos (x := (1 - (q : ℝ)) / q) (div_pos (by linarith) q0)
    linarith

/-- For a circuit with ancillas of size 4 by 6: an error model, its graphs, a decoder and a sample with an error that fires detectors and meets all hypotheses of
`c104_pymatching`, so that `decode_using_pymatching` corrects it. -/
example : ∃ d m g g' matching rec, HoneycombLayout.makeCircuit ⟨4, 6, 4, "SD6", "V", 1/1000⟩ = .ok d ∧ ErrorModelOf d m ∧ demToNxGraph m = .ok g ∧
    demToPymatchingGraph m = .ok g' ∧ MinimumWeight g' d.num_detectors d.num_observables matching ∧ CanSample 1 d.flatten rec ∧ true ∈ detectionBits d rec ∧
    decodeUsingPymatching ⟨d.num_detectors, d.num_observables⟩ [detectionBits d rec] false matching = .ok [observableBits d rec] := by
  set lay : HoneycombLayout := ⟨4, 6, 4, "SD6", "V", 1/1000⟩ with hlay
  have hv : lay.Valid := ⟨by decide, by decide, by decide, by decide⟩
  have hs : lay.Supported := ⟨by decide, by decide, by decide, by decide⟩
  have hD : lay.circuitDistance = 4 := by decide
  have hp : 0 < lay.noise := by rw [hlay]; norm_num
  obtain ⟨d, hd, hex, hmin⟩ := c104_exists lay hv hs hp
  obtain ⟨m, hm, hu⟩ := hex (1 / 1000) (by norm_num) (by norm_num)
  obtain ⟨d', hd', hgr⟩ := c104_graph lay hv hs hp (by omega)
  obtain rfl := Except.ok.inj (hd.symm.trans hd')
  obtain ⟨hG, g, hg, hcov⟩ := hgr m hm
  obtain ⟨d', hd', hpy⟩ := c104_pymatching lay hv hs (by omega)
  obtain rfl := Except.ok.inj (hd.symm.trans hd')
  obtain ⟨g1, g', hg1, hg', hpy⟩ := hpy m hm fun e he => by rw [hu e he]; norm_num
  obtain rfl := Except.ok.inj (hg.symm.trans hg1)
  obtain ⟨matching, hmatch⟩ := hmin g'
  obtain ⟨d', hd', hn⟩ := c22_detectors lay hv hs
  obtain rfl := Except.ok.inj (hd.symm.trans hd')
  have hn : (d.num_detectors : Int) = 24 := hn.trans (by decide)
  -- the lightest edge
  have hw := uniform_weights hG hu hg
  obtain ⟨g2, hg2, hsub, hedge⟩ := graphlike_graph hG
  obtain rfl := Except.ok.inj (hg.symm.trans hg2)
  obtain ⟨v, data, hdata⟩ := hcov 0 (by omega)
  have hpairs : ∀ k data, k.1 ≤ k.2 → g.edge? k.1 k.2 = some data → k ∈ m.pairs := fun k data hk hdata =>
    (hsub {k}).1 ⟨by rintro e he; rw [Finset.mem_singleton.1 he]; exact hk, by rintro e he; rw [Finset.mem_singleton.1 he]; exact ⟨data, hdata⟩⟩ (by simp)
  have h0 : (0, v) ∈ m.pairs := hpairs (0, v) data (Nat.zero_le _) hdata
  obtain ⟨k, hk, hmink⟩ := Finset.exists_min_image m.pairs g.weightAt ⟨_, h0⟩
  obtain ⟨datak, -, hdk, -⟩ := hedge k hk
  have hko := demPairs_ordered m k hk
  obtain ⟨w0, w1⟩ := hw k hko datak hdk
  have hwk : g.weightAt k = datak.weight := by rw [NxGraph.weightAt, hdk]
  have hT : g.HasEdges {k} := (hsub {k}).2 (by simpa using hk)
  obtain ⟨rec, h1, h2, h3⟩ := edges_sample hv hs hd hm (by omega) hg hT
  rw [Finset.card_singleton] at h1
  have hweight : g.weightOf {k} = datak.weight := by rw [NxGraph.weightOf, Finset.sum_singleton, hwk]
  have := hpy (datak.weight) w0.le (fun u v data hdata => by
    have hswap : g.edge? (edgeKey u v).1 (edgeKey u v).2 = some data := by
      rw [NxGraph.edge?, edgeKey_of_le (edgeKey_ordered u v)]
      exact hdata
    have := hmink _ (hpairs _ data (edgeKey_ordered u v) hswap)
    rw [hwk, NxGraph.weightAt, hswap] at this
    exact this) matching hmatch [rec] (fun r hr => by
    rw [List.mem_singleton.1 hr]
    refine ⟨{k}, hT, h2, h3, ?_, ?_⟩
    · rw [hweight, hD]
      push_cast
      linarith
    · rw [hweight]
      linarith)
  refine ⟨d, m, g, g', matching, rec, hd, hm, hg, hg', hmatch, h1, ?_, this.1⟩
  -- the edge has an end at a detector
  obtain ⟨e, he, he0, hek⟩ := mem_demPairs.1 hk
  have hlt := mechanisms_ids m e he
  have hb := hm.detectors
  have hend : ∃ x < d.num_detectors, endsAt {k} x = 1 := by
    have hnd := (hm.two e he he0).1
    rw [Mechanism.key] at hek
    split at hek
    · rename_i a ha
      have := hlt a (by rw [ha]; simp)
      cases hek
      refine ⟨a, by omega, ?_⟩
      rw [endsAt, Finset.sum_singleton, ends_key, if_pos rfl, if_neg (by omega)]
    · rename_i a c ha
      have h1 := hlt a (by rw [ha]; simp)
      have hac : a ≠ c := by rw [ha] at hnd; simpa using hnd
      cases hek
      refine ⟨a, by omega, ?_⟩
      rw [endsAt, Finset.sum_singleton, ends_key, if_pos rfl, if_neg hac.symm]
    · cases hek
  obtain ⟨x, hx, hone⟩ := hend
  exact List.mem_of_getElem? ((h2 x (by omega)).1 (by rw [hone]; exact odd_one))

end Honeycomb
