import Verif.Lemmas.PartsCount
import Verif.Lemmas.Threshold
import Verif.Props.Matching

/-!
# When a minimum weight matching fails

The argument of `Threshold.lean` for matchings of the graph of the error model. What an error does a bounded number of edges of the graph does too, so a failed shot
has a walk through many errors, a fixed part of which really happened.
-/

namespace Honeycomb
open scoped ENNReal
open HoneycombLayout
variable {lay : HoneycombLayout} {d : Circuit} {n m : Nat} {r s : List (ZMod 2)} {g : NxGraph}

theorem fired_one (x : Nat) : fired d.flatten r x = 1 ↔ (detectionBits d r)[x]? = some true := by
  rw [detectionBits_get, fired]
  rcases h : (detectorValues d.flatten r)[x]? with _ | _ | a <;> simp

theorem fired_out {x : Nat} (h : d.num_detectors ≤ x) : fired d.flatten r x = 0 := by
  rw [fired, List.getElem?_eq_none (by rw [detectorValues_length]; exact h)]
  rfl

theorem parity_eq {k : Nat} {a : ZMod 2} : (k : ZMod 2) = a ↔ (Odd k ↔ a = 1) := by
  rcases Nat.even_or_odd k with h | h
  · rw [(ZMod.natCast_eq_zero_iff_even).2 h, iff_false_left (Nat.not_odd_iff_even.2 h)]
    revert a
    decide
  · rw [(ZMod.natCast_eq_one_iff_odd).2 h, iff_true_left h]
    revert a
    decide

theorem explains_fired {T : Finset (Nat × Nat)} : Explains d.num_detectors T (detectionBits d r) ↔
    ∀ x ≠ d.num_detectors, (endsAt T x : ZMod 2) = fired d.flatten r x := by
  refine forall₂_congr fun x _ => ?_
  rw [parity_eq, fired_one]

theorem endsAt_sum (T : Finset (Nat × Nat)) (x : Nat) : endsAt T x = ∑ k ∈ T, endsAt {k} x := by
  simp only [endsAt, Finset.sum_singleton]

theorem framesOf_sum (T : Finset (Nat × Nat)) (j : Nat) : g.framesOf T j = ∑ k ∈ T, g.framesOf {k} j := by
  simp only [NxGraph.framesOf, Finset.sum_singleton]

theorem endsAt_symmDiff (T T' : Finset (Nat × Nat)) (x : Nat) : (endsAt (symmDiff T T') x : ZMod 2) = endsAt T x + endsAt T' x := by
  have h := congrArg (Nat.cast : Nat → ZMod 2) (sum_symmDiff (fun e : Nat × Nat => (if e.1 = x then 1 else 0) + if e.2 = x then 1 else 0) T T')
  rw [Nat.cast_add, Nat.cast_add, Nat.cast_add, CharTwo.add_self_eq_zero, add_zero] at h
  exact h

theorem hasEdges_symmDiff {T T' : Finset (Nat × Nat)} (h : g.HasEdges T) (h' : g.HasEdges T') : g.HasEdges (symmDiff T T') := by
  have : ∀ k ∈ symmDiff T T', k ∈ T ∨ k ∈ T' := fun k hk => by
    rcases Finset.mem_symmDiff.1 hk with h | h
    exacts [.inl h.1, .inr h.1]
  refine ⟨fun k hk => ?_, fun k hk => ?_⟩
  · rcases this k hk with hk | hk
    exacts [h.1 k hk, h'.1 k hk]
  · rcases this k hk with hk | hk
    exacts [h.2 k hk, h'.2 k hk]

theorem hasEdges_subset {T T' : Finset (Nat × Nat)} (h : g.HasEdges T) (hs : T' ⊆ T) : g.HasEdges T' :=
  ⟨fun k hk => h.1 k (hs hk), fun k hk => h.2 k (hs hk)⟩

theorem framesOf_symmDiff (T T' : Finset (Nat × Nat)) (j : Nat) : (g.framesOf (symmDiff T T') j : ZMod 2) = g.framesOf T j + g.framesOf T' j := by
  have h := congrArg (Nat.cast : Nat → ZMod 2) (sum_symmDiff (fun e : Nat × Nat => g.framesOf {e} j) T T')
  rw [Nat.cast_add, Nat.cast_add, Nat.cast_add, CharTwo.add_self_eq_zero, add_zero, ← framesOf_sum, ← framesOf_sum, ← framesOf_sum] at h
  exact h

theorem predicts_value (hv : lay.Valid) (hs : lay.Supported) (hd : lay.makeCircuit = .ok d) {T : Finset (Nat × Nat)} (hr : CanSample n d.flatten r)
    (h : g.predicts d.num_observables T = observableBits d r) : (g.framesOf T lay.obsI : ZMod 2) = obsValue lay.obsI d.flatten r := by
  have hlt := obsI_lt hv hs hd
  have := congrArg (fun l : List Bool => l[lay.obsI]?) h
  simp only [NxGraph.predicts, observableBits, List.getElem?_map, List.getElem?_range hlt, Option.map_some, Option.some.injEq] at this
  obtain ⟨a, ha⟩ := Option.isSome_iff_exists.1 (sample_defined hv hs hd hr).2
  rw [ha] at this
  rw [parity_eq, obsValue, ha, Option.getD_some]
  simpa using this

/-- What some errors do a bounded number of edges for each of them do. -/
theorem few_edges (hv : lay.Valid) (hs : lay.Supported) (hp : 0 < lay.noise) (hd : lay.makeCircuit = .ok d) {m : Dem}
    (hm : ErrorModelOf d m) (hD : 2 < lay.circuitDistance) (hg : demToNxGraph m = .ok g) {ι : Type} (rs : ι → List (ZMod 2))
    (h : ∀ t, CanSample 1 d.flatten (rs t)) (K : Finset ι) :
    ∃ T, g.HasEdges T ∧ T.card ≤ 20000 * K.card ∧ (∀ x ≠ d.num_detectors, (endsAt T x : ZMod 2) = (∑ t ∈ K, fired d.flatten (rs t)) x) ∧
      (g.framesOf T lay.obsI : ZMod 2) = ∑ t ∈ K, obsValue lay.obsI d.flatten (rs t) := by
  classical
  obtain ⟨N, hN⟩ := Int.eq_ofNat_of_zero_le (show 0 ≤ lay.sub_rounds by have := hs.2.2.1; omega)
  induction K using Finset.induction_on with
  | empty => exact ⟨∅, ⟨fun k hk => by simp at hk, fun k hk => by simp at hk⟩, by simp, fun x _ => by simp [endsAt], by simp [NxGraph.framesOf]⟩
  | insert t K ht ih =>
    obtain ⟨T, h1, h2, h3, h4⟩ := ih
    obtain ⟨recs, k1, k2, k3, k4⟩ := single_parts hv hs hN hp hd (h t)
    obtain ⟨T', j1, j2, j3, j4⟩ := explained_by hv hs hd hm hD hg k2 k3 k4
    refine ⟨symmDiff T T', hasEdges_symmDiff h1 j2, ?_, fun x hx => ?_, ?_⟩
    · have hc : (symmDiff T T').card ≤ T.card + T'.card :=
        (Finset.card_le_card (show symmDiff T T' ⊆ T ∪ T' from symmDiff_le_sup)).trans (Finset.card_union_le _ _)
      rw [Finset.card_insert_of_notMem ht]
      omega
    · rw [endsAt_symmDiff, Finset.sum_insert ht, Pi.add_apply, h3 x hx, explains_fired.1 j3 x hx, add_comm]
    · rw [framesOf_symmDiff, Finset.sum_insert ht, h4, predicts_value hv hs hd (h t) j4, add_comm]

/-- A failed shot has a walk through at least `D` errors, a fixed part of which really happened. -/
theorem matching_walk (hv : lay.Valid) (hs : lay.Supported) (hp : 0 < lay.noise) (hd : lay.makeCircuit = .ok d) {m : Dem}
    (hm : ErrorModelOf d m) (hD2 : 2 < lay.circuitDistance) (hg : demToNxGraph m = .ok g) {w ρ : ℝ} (hw : 0 < w) (hρ : 0 ≤ ρ)
    (hwt : ∀ u v data, g.edge? u v = some data → w ≤ data.weight ∧ data.weight ≤ ρ * w) {A : Nat} (hA : 1 + 20000 * ρ ≤ A)
    {matching : List Bool → List Bool} (hmin : MinimumWeight g d.num_detectors d.num_observables matching)
    {D : Nat} (hdist : ∀ (n : Nat) rec, CanSample n d.flatten rec → (∀ v ∈ detectorValues d.flatten rec, v = some 0) →
      observableValue lay.obsI d.flatten rec ≠ some 0 → D ≤ n)
    {R : Nat → Nat → Prop} (hR : ∀ a b, R a b → R b a) (hadj : ∀ a b ra rb j, SampleAt d.flatten [a] ra → SampleAt d.flatten [b] rb →
      fired d.flatten ra j ≠ 0 → fired d.flatten rb j ≠ 0 → R a b)
    {H : List Nat} (hnd : H.Nodup) {rec : List (ZMod 2)} (hrec : SampleAt d.flatten H rec) (hf : matching (detectionBits d rec) ≠ observableBits d rec) :
    ∃ c, D ≤ c ∧ ∃ w : List (Nat × Bool), w.IsChain (fun a b => R a.1 b.1) ∧ w.length + 1 = 2 * c ∧
      (∀ a ∈ w, a.1 < (d.flatten.map Instr.slots).sum) ∧ (∀ a ∈ hitsOf w, a ∈ H) ∧ c ≤ A * (hitsOf w).card := by
  classical
  -- the matching
  obtain ⟨T', hT', hex', hle', heq'⟩ : ∃ T, g.HasEdges T ∧ Explains d.num_detectors T (detectionBits d rec) ∧
      (∀ T', g.HasEdges T' → Explains d.num_detectors T' (detectionBits d rec) → g.weightOf T ≤ g.weightOf T') ∧
      matching (detectionBits d rec) = g.predicts d.num_observables T := by
    refine hmin _ ?_
    obtain ⟨d', hd', h⟩ := c104_explained lay hv hs hp hD2
    obtain rfl := Except.ok.inj (hd.symm.trans hd')
    obtain ⟨g', hg', h⟩ := h m hm
    obtain rfl := Except.ok.inj (hg.symm.trans hg')
    obtain ⟨T, h1, h2, -⟩ := h _ rec hrec.sample
    exact ⟨T, h1, h2⟩
  rw [heq'] at hf
  have hone : ∀ k : {k // k ∈ T'}, ∃ a rk, SampleAt d.flatten [a] rk ∧ (∀ x ≠ d.num_detectors, (endsAt {k.1} x : ZMod 2) = fired d.flatten rk x) ∧
      (g.framesOf {k.1} lay.obsI : ZMod 2) = obsValue lay.obsI d.flatten rk := fun k => by
    obtain ⟨rk, h1, h2, h3⟩ := edges_sample hv hs hd hm hD2 hg (T := {k.1}) (hasEdges_subset hT' (by simp))
    obtain ⟨G, hG, h1'⟩ := h1.at
    rw [Finset.card_singleton] at hG
    obtain ⟨a, rfl⟩ := List.length_eq_one_iff.1 hG
    exact ⟨a, rk, h1', explains_fired.1 h2, predicts_value hv hs hd h1 h3⟩
  choose place rG g1 g2 g3 using hone
  obtain ⟨rE, e1, e2, e3⟩ := hrec.parts hv hs hd
  set rs : Fin H.length ⊕ {k // k ∈ T'} → List (ZMod 2) := Sum.elim rE rG with hrs
  set lab : Fin H.length ⊕ {k // k ∈ T'} → Nat × Bool := Sum.elim (fun i => (H[i], true)) (fun k => (place k, false)) with hlab
  have hat : ∀ t, SampleAt d.flatten [(lab t).1] (rs t) := by
    rintro (i | i)
    · exact e1 i
    · exact g1 i
  have hone : ∀ t, CanSample 1 d.flatten (rs t) := fun t => (hat t).sample
  have hnd0 : ∀ t, fired d.flatten (rs t) d.num_detectors = 0 := fun t => fired_out le_rfl
  have hGsum : ∀ x ≠ d.num_detectors, ∑ k, fired d.flatten (rG k) x = endsAt T' x := fun x hx => by
    rw [endsAt_sum, Nat.cast_sum, ← Finset.sum_coe_sort T']
    exact Finset.sum_congr rfl fun k _ => (g2 k x hx).symm
  have hval : ∑ t, fired d.flatten (rs t) = 0 := by
    funext x
    rw [Finset.sum_apply]
    by_cases hx : x = d.num_detectors
    · rw [hx]
      exact Finset.sum_eq_zero fun t _ => hnd0 t
    · rw [Fintype.sum_sum_type]
      simp only [hrs, Sum.elim_inl, Sum.elim_inr]
      rw [hGsum x hx, explains_fired.1 hex' x hx, ← e2, Finset.sum_apply]
      exact CharTwo.add_self_eq_zero _
  have hobs : ∑ t, obsValue lay.obsI d.flatten (rs t) ≠ 0 := by
    rw [Fintype.sum_sum_type]
    simp only [hrs, Sum.elim_inl, Sum.elim_inr]
    have hFr : ∑ k, obsValue lay.obsI d.flatten (rG k) = g.framesOf T' lay.obsI := by
      rw [framesOf_sum, Nat.cast_sum, ← Finset.sum_coe_sort T']
      exact Finset.sum_congr rfl fun k _ => (g3 k).symm
    rw [e3, hFr]
    obtain ⟨r2, h1, -, h3⟩ := edges_sample hv hs hd hm hD2 hg hT'
    rw [predicts_value hv hs hd h1 h3, ← obsValue_add hv hs hd hrec.sample h1, ne_eq, obsValue_zero hv hs hd (hrec.sample.sum h1),
      ← sameObservables hv hs hd hrec.sample h1]
    rw [h3] at hf
    exact fun e => hf e.symm
  obtain ⟨K, -, ⟨wk, w1, w2, w3⟩, k1, k2⟩ := exists_cluster (R := fun a b : Nat × Bool => R a.1 b.1) (lab := lab) (fun a b h => hR _ _ h)
    (fun t => fired d.flatten (rs t)) (fun t => obsValue lay.obsI d.flatten (rs t)) (fun x y i hx hy => hadj _ _ _ _ i (hat x) (hat y) hx hy) _
    Finset.univ rfl hval hobs
  obtain ⟨rK, q1, q2, q3⟩ := gather hv hs hd rs hone K
  have hDK : D ≤ K.card := by
    refine hdist _ rK q1 ((fired_zero hv hs hd q1).1 (q2.trans k1)) ?_
    rw [ne_eq, ← obsValue_zero hv hs hd q1, q3]
    exact k2
  -- exchanging the matching inside the cluster
  set KE := K.filter fun t => t.isLeft with hKE
  set KG := K.filter fun t => ¬ t.isLeft with hKG
  have hc1 : KE.card + KG.card = K.card := Finset.card_filter_add_card_filter_not _
  have hs1 : ∑ t ∈ KE, fired d.flatten (rs t) + ∑ t ∈ KG, fired d.flatten (rs t) = 0 := by
    rw [Finset.sum_filter_add_sum_filter_not, k1]
  have hs2 : ∑ t ∈ KE, fired d.flatten (rs t) = ∑ t ∈ KG, fired d.flatten (rs t) := by
    calc _ = (∑ t ∈ KE, fired d.flatten (rs t) + ∑ t ∈ KG, fired d.flatten (rs t)) + ∑ t ∈ KG, fired d.flatten (rs t) := by
          rw [add_assoc, self_add, add_zero]
      _ = _ := by rw [hs1, zero_add]
  set KS : Finset {k // k ∈ T'} := Finset.univ.filter fun k => (Sum.inr k : Fin H.length ⊕ {k // k ∈ T'}) ∈ K with hKS
  have hKGmap : KG = KS.map ⟨Sum.inr, Sum.inr_injective⟩ := by
    ext t
    rw [hKG, Finset.mem_filter, Finset.mem_map]
    constructor
    · rintro ⟨h1, h2⟩
      rcases t with i | k
      · simp at h2
      · exact ⟨k, by rw [hKS, Finset.mem_filter]; exact ⟨Finset.mem_univ _, h1⟩, rfl⟩
    · rintro ⟨k, hk, rfl⟩
      rw [hKS, Finset.mem_filter] at hk
      exact ⟨hk.2, by simp⟩
  set KT : Finset (Nat × Nat) := KS.map ⟨Subtype.val, Subtype.val_injective⟩ with hKT
  have hKTsub : KT ⊆ T' := fun k hk => by
    obtain ⟨k', -, rfl⟩ := Finset.mem_map.1 hk
    exact k'.2
  have hKTcard : KT.card = KG.card := by rw [hKGmap, hKT, Finset.card_map, Finset.card_map]
  have hKTsum : ∀ x ≠ d.num_detectors, (endsAt KT x : ZMod 2) = (∑ t ∈ KG, fired d.flatten (rs t)) x := fun x hx => by
    rw [endsAt_sum, hKT, Finset.sum_map, hKGmap, Finset.sum_map, Finset.sum_apply, Nat.cast_sum]
    exact Finset.sum_congr rfl fun k _ => g2 k x hx
  obtain ⟨TE, t1, t2, t3, -⟩ := few_edges hv hs hp hd hm hD2 hg rs hone KE
  have hle := hle' (symmDiff (T' \ KT) TE) (hasEdges_symmDiff (hasEdges_subset hT' Finset.sdiff_subset) t1) (explains_fired.2 fun x hx => by
    have h1 : (endsAt T' x : ZMod 2) = endsAt (T' \ KT) x + endsAt KT x := by
      rw [← Nat.cast_add, endsAt, endsAt, endsAt, Finset.sum_sdiff hKTsub]
    rw [endsAt_symmDiff, t3 x hx, hs2, ← hKTsum x hx, ← h1, explains_fired.1 hex' x hx])
  have hwt' : ∀ T, g.HasEdges T → w * T.card ≤ g.weightOf T ∧ g.weightOf T ≤ ρ * w * T.card := fun T hT => by
    have : ∀ k ∈ T, w ≤ g.weightAt k ∧ g.weightAt k ≤ ρ * w := fun k hk => by
      obtain ⟨data, hdata⟩ := hT.2 k hk
      rw [NxGraph.weightAt, hdata]
      exact hwt _ _ _ hdata
    constructor
    · rw [mul_comm, ← nsmul_eq_mul]
      exact Finset.card_nsmul_le_sum _ _ _ fun k hk => (this k hk).1
    · rw [mul_comm, ← nsmul_eq_mul]
      exact Finset.sum_le_card_nsmul _ _ _ fun k hk => (this k hk).2
  have hsum := sum_symmDiff g.weightAt (T' \ KT) TE
  have hint := (hwt' ((T' \ KT) ∩ TE) (hasEdges_subset t1 Finset.inter_subset_right)).1
  have hint0 : 0 ≤ w * (((T' \ KT) ∩ TE).card : ℝ) := by positivity
  have hsplit : g.weightOf (T' \ KT) + g.weightOf KT = g.weightOf T' := Finset.sum_sdiff hKTsub
  have hsw : g.weightOf KT ≤ g.weightOf TE := by
    simp only [NxGraph.weightOf] at hle hint hsplit ⊢
    linarith
  have hlow := (hwt' KT (hasEdges_subset hT' hKTsub)).1
  have hhigh := (hwt' TE t1).2
  -- the errors that really happened have different places
  have hinj : KE.card ≤ (hitsOf wk).card := by
    have : (KE.image fun t => (lab t).1) ⊆ hitsOf wk := by
      intro a ha
      obtain ⟨t, ht, rfl⟩ := Finset.mem_image.1 ha
      rw [hKE, Finset.mem_filter] at ht
      rw [mem_hitsOf, w3]
      refine ⟨t, ht.1, ?_⟩
      rcases t with i | i
      · rfl
      · simp at ht
    refine le_trans (le_of_eq ?_) (Finset.card_le_card this)
    rw [Finset.card_image_of_injOn]
    intro t ht t' ht' e
    have ht := (Finset.mem_filter.1 (Finset.mem_coe.1 ht)).2
    have ht' := (Finset.mem_filter.1 (Finset.mem_coe.1 ht')).2
    rcases t with i | i <;> rcases t' with j | j <;> simp at ht ht'
    have := hnd.injective_get e
    exact congrArg Sum.inl this
  have hKA : K.card ≤ A * KE.card := by
    rw [← hc1]
    have h1 : w * (KT.card : ℝ) ≤ w * (ρ * (20000 * KE.card)) := by
      have h2 : (TE.card : ℝ) ≤ 20000 * KE.card := by exact_mod_cast t2
      have h3 : ρ * w * TE.card ≤ ρ * w * (20000 * KE.card) := mul_le_mul_of_nonneg_left h2 (by positivity)
      linarith
    have h2 : (KT.card : ℝ) ≤ ρ * (20000 * KE.card) := le_of_mul_le_mul_left h1 hw
    have h3 : (1 + 20000 * ρ) * KE.card ≤ A * KE.card := mul_le_mul_of_nonneg_right hA (by positivity)
    rw [← hKTcard]
    have h4 : ((KE.card + KT.card : Nat) : ℝ) ≤ ((A * KE.card : Nat) : ℝ) := by
      push_cast
      linarith
    exact_mod_cast h4
  refine ⟨K.card, hDK, wk, w1, w2, fun a ha => ?_, fun a ha => ?_, hKA.trans (Nat.mul_le_mul le_rfl hinj)⟩
  · obtain ⟨t, -, rfl⟩ := (w3 a).1 ha
    obtain ⟨F, F', -, h⟩ := hat t
    exact h.lt _ (by simp)
  · obtain ⟨t, -, e⟩ := (w3 _).1 (mem_hitsOf.1 ha)
    rcases t with i | i
    · simp only [hlab, Sum.elim_inl, Prod.mk.injEq] at e
      rw [← e.1]
      exact List.getElem_mem _
    · simp [hlab] at e

end Honeycomb
