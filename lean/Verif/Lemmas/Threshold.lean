import Verif.Lemmas.Clusters
import Verif.Lemmas.Placed
import Verif.Lemmas.Correct
import Verif.Lemmas.Superpose

/-!
# A failed shot has a long walk through errors, half of which happened
-/

namespace Honeycomb
open HoneycombLayout
open scoped ENNReal

/-- The value of detector `j`. -/
def fired (l : List Instr) (rec : List (ZMod 2)) (j : Nat) : ZMod 2 := (((detectorValues l rec)[j]?).getD none).getD 0

/-- The value of observable `k`. -/
def obsValue (k : Nat) (l : List Instr) (rec : List (ZMod 2)) : ZMod 2 := (observableValue k l rec).getD 0

variable {lay : HoneycombLayout} {d : Circuit} {n m : Nat} {r s : List (ZMod 2)}

theorem fired_add (hv : lay.Valid) (hs : lay.Supported) (hd : lay.makeCircuit = .ok d) (h : CanSample n d.flatten r) (h' : CanSample m d.flatten s) :
    fired d.flatten (addRec r s) = fired d.flatten r + fired d.flatten s := by
  funext j
  have h1 := (sample_defined hv hs hd h).1
  have h2 := (sample_defined hv hs hd h').1
  have hl : (detectorValues d.flatten r).length = (detectorValues d.flatten s).length := by rw [detectorValues_length, detectorValues_length]
  rw [Pi.add_apply, fired, fired, fired, detectorValues_add, List.getElem?_zipWith]
  by_cases hj : j < (detectorValues d.flatten r).length
  · obtain ⟨a, ha⟩ := Option.isSome_iff_exists.1 (h1 _ (List.getElem_mem hj))
    obtain ⟨b, hb⟩ := Option.isSome_iff_exists.1 (h2 _ (List.getElem_mem (hl ▸ hj)))
    rw [List.getElem?_eq_getElem hj, List.getElem?_eq_getElem (hl ▸ hj), ha, hb]
    rfl
  · rw [List.getElem?_eq_none (by omega), List.getElem?_eq_none (by omega)]
    rfl

theorem obsValue_add (hv : lay.Valid) (hs : lay.Supported) (hd : lay.makeCircuit = .ok d) (h : CanSample n d.flatten r) (h' : CanSample m d.flatten s) :
    obsValue lay.obsI d.flatten (addRec r s) = obsValue lay.obsI d.flatten r + obsValue lay.obsI d.flatten s := by
  obtain ⟨a, ha⟩ := Option.isSome_iff_exists.1 (sample_defined hv hs hd h).2
  obtain ⟨b, hb⟩ := Option.isSome_iff_exists.1 (sample_defined hv hs hd h').2
  rw [obsValue, obsValue, obsValue, observableValue_add, ha, hb]
  rfl

theorem fired_zero (hv : lay.Valid) (hs : lay.Supported) (hd : lay.makeCircuit = .ok d) (h : CanSample n d.flatten r) :
    fired d.flatten r = 0 ↔ ∀ v ∈ detectorValues d.flatten r, v = some 0 := by
  have h1 := (sample_defined hv hs hd h).1
  constructor
  · intro e v hv'
    obtain ⟨j, hj, rfl⟩ := List.mem_iff_getElem.1 hv'
    obtain ⟨a, ha⟩ := Option.isSome_iff_exists.1 (h1 _ hv')
    have := congrFun e j
    rw [fired, List.getElem?_eq_getElem hj, ha] at this
    rw [ha]
    exact congrArg some this
  · intro e
    funext j
    rw [fired]
    by_cases hj : j < (detectorValues d.flatten r).length
    · rw [List.getElem?_eq_getElem hj, e _ (List.getElem_mem hj)]; rfl
    · rw [List.getElem?_eq_none (by omega)]; rfl

theorem obsValue_zero (hv : lay.Valid) (hs : lay.Supported) (hd : lay.makeCircuit = .ok d) (h : CanSample n d.flatten r) :
    obsValue lay.obsI d.flatten r = 0 ↔ observableValue lay.obsI d.flatten r = some 0 := by
  obtain ⟨a, ha⟩ := Option.isSome_iff_exists.1 (sample_defined hv hs hd h).2
  rw [obsValue, ha]
  simp

theorem clean_zero (hv : lay.Valid) (hs : lay.Supported) (hd : lay.makeCircuit = .ok d) (h : CanRecord d.flatten r) :
    fired d.flatten r = 0 ∧ obsValue lay.obsI d.flatten r = 0 := by
  obtain ⟨d', hd', h18⟩ := c18_no_detector_fires lay hv hs
  obtain rfl := Except.ok.inj (hd.symm.trans hd')
  obtain ⟨d', hd', h19⟩ := c19_observable_not_flipped lay hv hs
  obtain rfl := Except.ok.inj (hd.symm.trans hd')
  have h18 := h18 r h
  constructor
  · funext j
    rw [fired]
    by_cases hj : j < (detectorValues d.flatten r).length
    · rw [List.getElem?_eq_getElem hj, h18 _ (List.getElem_mem hj)]; rfl
    · rw [List.getElem?_eq_none (by omega)]; rfl
  · rw [obsValue, show observableValue lay.obsI d.flatten r = some 0 from h19 r h]; rfl

theorem PlacedRuns.clean {F F' : Frame} {l : List Instr} {H : List Nat} (h : PlacedRuns F l r F' H) (h0 : H = []) : Runs F (actions l) r F' := by
  induction h with
  | nil F => exact .nil F
  | step h1 _ ih =>
    rw [List.map_eq_nil_iff] at h0
    rw [actions, List.flatMap_cons]
    exact runs_append.2 ⟨_, _, _, h1, ih h0, rfl⟩
  | error => simp at h0
  | flip => simp at h0

/-- A sample is the sum of the effects of its errors. -/
theorem SampleAt.parts (hv : lay.Valid) (hs : lay.Supported) (hd : lay.makeCircuit = .ok d) : ∀ {H : List Nat} {r : List (ZMod 2)}, SampleAt d.flatten H r →
    ∃ rs : Fin H.length → List (ZMod 2), (∀ i, SampleAt d.flatten [H[i]] (rs i)) ∧ ∑ i, fired d.flatten (rs i) = fired d.flatten r ∧
      ∑ i, obsValue lay.obsI d.flatten (rs i) = obsValue lay.obsI d.flatten r
  | [], r, ⟨F, F', h0, h⟩ => by
    obtain ⟨h1, h2⟩ := clean_zero hv hs hd ⟨F, F', h0, h.clean rfl⟩
    exact ⟨fun _ => [], fun i => i.elim0, by simp [h1], by simp [h2]⟩
  | a :: H, r, h => by
    obtain ⟨ra, rb, ha, hb, rfl⟩ := h.split
    obtain ⟨rs, h1, h2, h3⟩ := parts hv hs hd hb
    refine ⟨Fin.cons ra rs, fun i => ?_, ?_, ?_⟩
    · refine Fin.cases ?_ (fun i => ?_) i
      · exact ha
      · exact h1 i
    · rw [fired_add hv hs hd ha.sample hb.sample, ← h2]
      exact Fin.sum_univ_succ _
    · rw [obsValue_add hv hs hd ha.sample hb.sample, ← h3]
      exact Fin.sum_univ_succ _

/-- Effects of single errors add up to a sample. -/
theorem gather (hv : lay.Valid) (hs : lay.Supported) (hd : lay.makeCircuit = .ok d) {T : Type} (rs : T → List (ZMod 2))
    (h : ∀ t, CanSample 1 d.flatten (rs t)) (K : Finset T) : ∃ r, CanSample K.card d.flatten r ∧ fired d.flatten r = ∑ t ∈ K, fired d.flatten (rs t) ∧
      obsValue lay.obsI d.flatten r = ∑ t ∈ K, obsValue lay.obsI d.flatten (rs t) := by
  classical
  induction K using Finset.induction_on with
  | empty =>
    obtain ⟨s, hr⟩ := canRecord_exists d.flatten
    obtain ⟨h1, h2⟩ := clean_zero hv hs hd hr
    obtain ⟨F, F', h0, hr⟩ := hr
    exact ⟨s, ⟨F, F', h0, noisy_of_runs hr⟩, h1, h2⟩
  | insert t K ht ih =>
    obtain ⟨r, h1, h2, h3⟩ := ih
    refine ⟨addRec r (rs t), ?_, ?_, ?_⟩
    · rw [Finset.card_insert_of_notMem ht]; exact h1.sum (h t)
    · rw [fired_add hv hs hd h1 (h t), Finset.sum_insert ht, h2, add_comm]
    · rw [obsValue_add hv hs hd h1 (h t), Finset.sum_insert ht, h3, add_comm]

/-- The places that really were hit. -/
def hitsOf (w : List (Nat × Bool)) : Finset Nat := (w.filterMap fun a => if a.2 then some a.1 else none).toFinset

theorem mem_hitsOf {w : List (Nat × Bool)} {a : Nat} : a ∈ hitsOf w ↔ (a, true) ∈ w := by
  rw [hitsOf, List.mem_toFinset, List.mem_filterMap]
  constructor
  · rintro ⟨⟨b, c⟩, h, e⟩
    cases c <;> simp at e
    exact e ▸ h
  · intro h
    exact ⟨_, h, by simp⟩

theorem self_add {ι : Type} (f : ι → ZMod 2) : f + f = 0 := funext fun i => CharTwo.add_self_eq_zero (f i)

/-- A failed shot has a walk through at least `D` errors, at least half of which really happened. -/
theorem failed_walk (hv : lay.Valid) (hs : lay.Supported) (hd : lay.makeCircuit = .ok d) {guess : List Bool → List Bool} (hg : MinimumErrors d guess)
    {D : Nat} (hdist : ∀ (n : Nat) rec, CanSample n d.flatten rec → (∀ v ∈ detectorValues d.flatten rec, v = some 0) →
      observableValue lay.obsI d.flatten rec ≠ some 0 → D ≤ n)
    {R : Nat → Nat → Prop} (hR : ∀ a b, R a b → R b a) (hadj : ∀ a b ra rb j, SampleAt d.flatten [a] ra → SampleAt d.flatten [b] rb →
      fired d.flatten ra j ≠ 0 → fired d.flatten rb j ≠ 0 → R a b)
    {H : List Nat} (hnd : H.Nodup) {rec : List (ZMod 2)} (hrec : SampleAt d.flatten H rec) (hf : guess (detectionBits d rec) ≠ observableBits d rec) :
    ∃ c, D ≤ c ∧ ∃ w : List (Nat × Bool), w.IsChain (fun a b => R a.1 b.1) ∧ w.length + 1 = 2 * c ∧
      (∀ a ∈ w, a.1 < (d.flatten.map Instr.slots).sum) ∧ (∀ a ∈ hitsOf w, a ∈ H) ∧ c ≤ 2 * (hitsOf w).card := by
  classical
  -- a best explanation
  have hex : ∃ n, ∃ rec0, CanSample n d.flatten rec0 ∧ detectionBits d rec0 = detectionBits d rec := ⟨_, rec, hrec.sample, rfl⟩
  obtain ⟨rec0, h1, h2⟩ := Nat.find_spec hex
  obtain ⟨m, hm, rec', h3, h4, h5⟩ := hg _ rec0 h1
  rw [h2] at h4 h5
  have hmin : ∀ n s, CanSample n d.flatten s → detectionBits d s = detectionBits d rec → m ≤ n := fun n s hs' he =>
    hm.trans (Nat.find_min' hex ⟨s, hs', he⟩)
  obtain ⟨G, rfl, h3'⟩ := h3.at
  obtain ⟨rE, e1, e2, e3⟩ := hrec.parts hv hs hd
  obtain ⟨rG, g1, g2, g3⟩ := h3'.parts hv hs hd
  set rs : Fin H.length ⊕ Fin G.length → List (ZMod 2) := Sum.elim rE rG with hrs
  set lab : Fin H.length ⊕ Fin G.length → Nat × Bool := Sum.elim (fun i => (H[i], true)) (fun i => (G[i], false)) with hlab
  have hat : ∀ t, SampleAt d.flatten [(lab t).1] (rs t) := by
    rintro (i | i)
    · exact e1 i
    · exact g1 i
  have hone : ∀ t, CanSample 1 d.flatten (rs t) := fun t => (hat t).sample
  have hval : ∑ t, fired d.flatten (rs t) = 0 := by
    rw [Fintype.sum_sum_type]
    simp only [hrs, Sum.elim_inl, Sum.elim_inr]
    rw [e2, g2, ← fired_add hv hs hd hrec.sample h3, fired_zero hv hs hd (hrec.sample.sum h3), ← sameDetection hv hs hd hrec.sample h3, h4]
  have hobs : ∑ t, obsValue lay.obsI d.flatten (rs t) ≠ 0 := by
    rw [Fintype.sum_sum_type]
    simp only [hrs, Sum.elim_inl, Sum.elim_inr]
    rw [e3, g3, ← obsValue_add hv hs hd hrec.sample h3, ne_eq, obsValue_zero hv hs hd (hrec.sample.sum h3), ← sameObservables hv hs hd hrec.sample h3]
    rw [h5] at hf
    exact fun e => hf e.symm
  obtain ⟨K, -, ⟨w, w1, w2, w3⟩, k1, k2⟩ := exists_cluster (R := fun a b : Nat × Bool => R a.1 b.1) (lab := lab) (fun a b h => hR _ _ h)
    (fun t => fired d.flatten (rs t)) (fun t => obsValue lay.obsI d.flatten (rs t)) (fun x y i hx hy => hadj _ _ _ _ i (hat x) (hat y) hx hy) _
    Finset.univ rfl hval hobs
  obtain ⟨rK, q1, q2, q3⟩ := gather hv hs hd rs hone K
  have hDK : D ≤ K.card := by
    refine hdist _ rK q1 ((fired_zero hv hs hd q1).1 (q2.trans k1)) ?_
    rw [ne_eq, ← obsValue_zero hv hs hd q1, q3]
    exact k2
  -- exchanging the explanation inside the cluster
  set KE := K.filter fun t => t.isLeft with hKE
  set KG := K.filter fun t => ¬ t.isLeft with hKG
  set U := (Finset.univ : Finset (Fin H.length ⊕ Fin G.length)).filter fun t => ¬ t.isLeft with hU
  have hc1 : KE.card + KG.card = K.card := Finset.card_filter_add_card_filter_not _
  have hs1 : ∑ t ∈ KE, fired d.flatten (rs t) + ∑ t ∈ KG, fired d.flatten (rs t) = 0 := by
    rw [Finset.sum_filter_add_sum_filter_not, k1]
  have hsub : KG ⊆ U := fun t ht => by
    rw [hKG, Finset.mem_filter] at ht
    rw [hU, Finset.mem_filter]
    exact ⟨Finset.mem_univ _, ht.2⟩
  have hUsum : ∑ t ∈ U, fired d.flatten (rs t) = fired d.flatten rec' := by
    rw [hU, Finset.sum_filter, Fintype.sum_sum_type]
    simp [hrs, g2]
  have hUcard : U.card = G.length := by
    rw [hU, Finset.card_filter, Fintype.sum_sum_type]
    simp
  have hdis : Disjoint (U \ KG) KE := by
    rw [Finset.disjoint_left]
    intro t ht ht'
    rw [Finset.mem_sdiff, hU, Finset.mem_filter] at ht
    rw [hKE, Finset.mem_filter] at ht'
    exact ht.1.2 ht'.2
  obtain ⟨rS, s1, s2, -⟩ := gather hv hs hd rs hone ((U \ KG) ∪ KE)
  have hle : G.length ≤ ((U \ KG) ∪ KE).card := by
    refine hmin _ rS s1 ?_
    rw [← h4, sameDetection hv hs hd s1 h3, ← fired_zero hv hs hd (s1.sum h3), fired_add hv hs hd s1 h3, s2, Finset.sum_union hdis, ← hUsum,
      ← Finset.sum_sdiff hsub]
    have : ∑ t ∈ KE, fired d.flatten (rs t) = ∑ t ∈ KG, fired d.flatten (rs t) := by
      have h := hs1
      calc _ = (∑ t ∈ KE, fired d.flatten (rs t) + ∑ t ∈ KG, fired d.flatten (rs t)) + ∑ t ∈ KG, fired d.flatten (rs t) := by
            rw [add_assoc, self_add, add_zero]
        _ = _ := by rw [h, zero_add]
    rw [this]
    exact self_add _
  rw [Finset.card_union_of_disjoint hdis, Finset.card_sdiff_of_subset hsub, hUcard] at hle
  have hKGle := Finset.card_le_card hsub
  rw [hUcard] at hKGle
  -- the errors that really happened have different places
  have hinj : KE.card ≤ (hitsOf w).card := by
    have : (KE.image fun t => (lab t).1) ⊆ hitsOf w := by
      intro a ha
      obtain ⟨t, ht, rfl⟩ := Finset.mem_image.1 ha
      rw [hKE, Finset.mem_filter] at ht
      rw [mem_hitsOf, w3]
      refine ⟨t, ht.1, ?_⟩
      rcases t with i | i
      · rfl
      · simp at ht
    refine le_trans (le_of_eq ?_) (Finset.card_le_card this)
    rw [Finset.card_image_of_injOn]
    intro t ht t' ht' e
    have ht := (Finset.mem_filter.1 (Finset.mem_coe.1 ht)).2
    have ht' := (Finset.mem_filter.1 (Finset.mem_coe.1 ht')).2
    rcases t with i | i <;> rcases t' with j | j <;> simp at ht ht'
    have := hnd.injective_get e
    exact congrArg Sum.inl this
  refine ⟨K.card, hDK, w, w1, w2, fun a ha => ?_, fun a ha => ?_, by omega⟩
  · obtain ⟨t, -, rfl⟩ := (w3 a).1 ha
    obtain ⟨F, F', -, h⟩ := hat t
    exact h.lt _ (by simp)
  · obtain ⟨t, -, e⟩ := (w3 _).1 (mem_hitsOf.1 ha)
    rcases t with i | i
    · simp only [hlab, Sum.elim_inl, Prod.mk.injEq] at e
      rw [← e.1]
      exact List.getElem_mem _
    · simp [hlab] at e

/-! ## The union bound -/

variable {α : Type} {q : ℝ≥0∞} {P : PMF α} {f : α → List Bool}

theorem union_walks (hcov : Cover q P f) {nb : Nat → Finset Nat} {Δ M D : Nat} (h1 : 1 ≤ Δ) (hΔ : ∀ a, (nb a).card ≤ Δ)
    (hy : (2 * Δ : ℝ≥0∞) ^ 4 * q ≤ 1 / 2) {S : Set α} (hS : ∀ x ∈ S, x ∈ P.support → ∃ c, D ≤ c ∧ ∃ w : List (Nat × Bool),
      w.IsChain (fun a b => b.1 ∈ nb a.1) ∧ w.length + 1 = 2 * c ∧ (∀ a ∈ w, a.1 < M) ∧ (∀ a ∈ hitsOf w, (f x)[a]? = some true) ∧ c ≤ 2 * (hitsOf w).card) :
    P.toOuterMeasure S ≤ 8 * M * ((2 * Δ : ℝ≥0∞) ^ 4 * q) ^ ((D + 1) / 2) := by
  classical
  set nb' : Nat × Bool → Finset (Nat × Bool) := fun a => nb a.1 ×ˢ Finset.univ with hnb
  have hΔ' : ∀ a, (nb' a).card ≤ 2 * Δ := fun a => by
    rw [hnb, Finset.card_product, Finset.card_univ, Fintype.card_bool, Nat.mul_comm]
    exact Nat.mul_le_mul le_rfl (hΔ _)
  set W : Nat → Finset (List (Nat × Bool)) := fun c => ((Finset.range M ×ˢ Finset.univ).biUnion fun a => walksFrom nb' (2 * c - 2) a).filter
    fun w => c ≤ 2 * (hitsOf w).card with hW
  have hWc : ∀ c, (W c).card ≤ 2 * M * (2 * Δ) ^ (2 * c - 2) := fun c => by
    refine (Finset.card_filter_le _ _).trans (Finset.card_biUnion_le.trans ?_)
    calc _ ≤ ∑ _a ∈ Finset.range M ×ˢ (Finset.univ : Finset Bool), (2 * Δ) ^ (2 * c - 2) := Finset.sum_le_sum fun a _ => walksFrom_card hΔ' _ _
      _ = 2 * M * (2 * Δ) ^ (2 * c - 2) := by
        rw [Finset.sum_const, Finset.card_product, Finset.card_range, Finset.card_univ, Fintype.card_bool, smul_eq_mul, Nat.mul_comm M]
  have hq1 : q ≤ 1 := by
    have h4 : (1 : ℝ≥0∞) ≤ (2 * Δ : ℝ≥0∞) ^ 4 := one_le_pow₀ (by exact_mod_cast (by omega : 1 ≤ 2 * Δ))
    calc q = 1 * q := (one_mul q).symm
      _ ≤ (2 * Δ : ℝ≥0∞) ^ 4 * q := mul_le_mul' h4 le_rfl
      _ ≤ 1 / 2 := hy
      _ ≤ 1 := by simp
  have hterm : ∀ c, ∑ w ∈ W c, P.toOuterMeasure {x | ∀ j ∈ hitsOf w, (f x)[j]? = some true} ≤
      2 * M * ((2 * Δ : ℝ≥0∞) ^ 4 * q) ^ ((c + 1) / 2) := fun c => by
    calc _ ≤ ∑ _w ∈ W c, q ^ ((c + 1) / 2) := Finset.sum_le_sum fun w hw => by
          refine (hcov.prob _).trans (pow_le_pow_right_of_le_one' hq1 ?_)
          have := (Finset.mem_filter.1 hw).2
          omega
      _ = (W c).card * q ^ ((c + 1) / 2) := by rw [Finset.sum_const, nsmul_eq_mul]
      _ ≤ (2 * M * (2 * Δ) ^ (2 * c - 2) : Nat) * q ^ ((c + 1) / 2) := mul_le_mul' (by exact_mod_cast hWc c) le_rfl
      _ ≤ (2 * M * (2 * Δ) ^ (4 * ((c + 1) / 2)) : Nat) * q ^ ((c + 1) / 2) := by
        refine mul_le_mul' ?_ le_rfl
        exact_mod_cast Nat.mul_le_mul le_rfl (Nat.pow_le_pow_right (by omega) (by omega))
      _ = _ := by
        rw [mul_pow ((2 * Δ : ℝ≥0∞) ^ 4), ← pow_mul]
        push_cast
        ring
  calc P.toOuterMeasure S ≤ P.toOuterMeasure (⋃ m ∈ Finset.range (2 * M + 1), ⋃ w ∈ W (D + m), {x | ∀ j ∈ hitsOf w, (f x)[j]? = some true}) := by
        refine PMF.toOuterMeasure_mono _ ?_
        rintro x ⟨hx, hxs⟩
        obtain ⟨c, hc, w, w1, w2, w3, w4, w5⟩ := hS x hx hxs
        have hcM : c ≤ 2 * M := by
          refine w5.trans (Nat.mul_le_mul le_rfl ?_)
          rw [← Finset.card_range M]
          refine Finset.card_le_card fun a ha => ?_
          rw [Finset.mem_range]
          exact w3 _ (mem_hitsOf.1 ha)
        rw [Set.mem_iUnion₂]
        refine ⟨c - D, Finset.mem_range.2 (by omega), ?_⟩
        rw [Set.mem_iUnion₂, show D + (c - D) = c by omega]
        refine ⟨w, ?_, w4⟩
        rw [hW]
        refine Finset.mem_filter.2 ⟨?_, w5⟩
        cases w with
        | nil => simp at w2; omega
        | cons a w =>
          rw [Finset.mem_biUnion]
          refine ⟨a, Finset.mem_product.2 ⟨Finset.mem_range.2 (w3 a (by simp)), Finset.mem_univ _⟩,
            mem_walksFrom (R := fun a b : Nat × Bool => b.1 ∈ nb a.1) (fun a b h => Finset.mem_product.2 ⟨h, Finset.mem_univ _⟩) w1 ?_⟩
          simp only [List.length_cons] at w2
          omega
    _ ≤ ∑ m ∈ Finset.range (2 * M + 1), P.toOuterMeasure (⋃ w ∈ W (D + m), {x | ∀ j ∈ hitsOf w, (f x)[j]? = some true}) :=
        MeasureTheory.measure_biUnion_finset_le _ _
    _ ≤ ∑ m ∈ Finset.range (2 * M + 1), 2 * M * ((2 * Δ : ℝ≥0∞) ^ 4 * q) ^ ((D + m + 1) / 2) := Finset.sum_le_sum fun m _ =>
        (MeasureTheory.measure_biUnion_finset_le _ _).trans (hterm _)
    _ = 2 * M * ∑ m ∈ Finset.range (2 * M + 1), ((2 * Δ : ℝ≥0∞) ^ 4 * q) ^ ((D + m + 1) / 2) := by rw [Finset.mul_sum]
    _ ≤ 2 * M * (4 * ((2 * Δ : ℝ≥0∞) ^ 4 * q) ^ ((D + 1) / 2)) := mul_le_mul' le_rfl (double_geometric hy _ _)
    _ = _ := by ring

end Honeycomb
