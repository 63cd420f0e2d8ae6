import Verif.Lemmas.Correct
import Verif.Lemmas.Superpose
import Verif.Props.Charged
import Verif.Props.Likelihood
import Verif.Spec.ErrorModel

/-! # Samples made of the components of an error model -/

namespace Honeycomb
open HoneycombLayout
variable {lay : HoneycombLayout} {d : Circuit} {n k : Nat} {r s : List (ZMod 2)}

/-- Fewer errors than `circuitDistance` do not flip the observable undetected. -/
theorem circuitDistance_le (hv : lay.Valid) (hs : lay.Supported) (hd : lay.makeCircuit = .ok d) (h : CanSample n d.flatten r)
    (hdet : ∀ v ∈ detectorValues d.flatten r, v = some 0) (hobs : observableValue lay.obsI d.flatten r ≠ some 0) : lay.circuitDistance ≤ n := by
  have h2 : lay.data_width % 2 = 0 := hv.width_even
  unfold circuitDistance
  split_ifs with hst hV hV
  · obtain ⟨d', hd', hh⟩ := c85_observable_distance lay hv hs hst
    obtain rfl := Except.ok.inj (hd.symm.trans hd')
    have := hh n r h hdet hobs
    rwa [if_pos hV] at this
  · obtain ⟨d', hd', hh⟩ := c85_observable_distance lay hv hs hst
    obtain rfl := Except.ok.inj (hd.symm.trans hd')
    have := hh n r h hdet hobs
    rw [if_neg hV] at this
    omega
  · obtain ⟨d', hd', hh⟩ := c76_observable_distance lay hv hs
    obtain rfl := Except.ok.inj (hd.symm.trans hd')
    have := hh n r h hdet hobs
    rw [if_pos hV] at this
    omega
  · obtain ⟨d', hd', hh⟩ := c76_observable_distance lay hv hs
    obtain rfl := Except.ok.inj (hd.symm.trans hd')
    have := hh n r h hdet hobs
    rw [if_neg hV] at this
    omega

/-- Two samples with the same detector bits and few errors have the same observable bits. -/
theorem few_same (hv : lay.Valid) (hs : lay.Supported) (hd : lay.makeCircuit = .ok d) (h : CanSample n d.flatten r) (h' : CanSample k d.flatten s)
    (hlt : ((n + k : Nat) : Int) < lay.circuitDistance) (he : detectionBits d r = detectionBits d s) : observableBits d r = observableBits d s := by
  rw [sameObservables hv hs hd h h']
  by_contra hobs
  have := circuitDistance_le hv hs hd (h.sum h') ((sameDetection hv hs hd h h').1 he) hobs
  omega

/-- A sample without errors fires no detector and flips no observable. -/
theorem quiet_sample (hv : lay.Valid) (hs : lay.Supported) (hd : lay.makeCircuit = .ok d) :
    ∃ rec, CanSample 0 d.flatten rec ∧ (∀ x : Nat, (detectionBits d rec)[x]? ≠ some true) ∧ ∀ j : Nat, (observableBits d rec)[j]? ≠ some true := by
  obtain ⟨s, hr⟩ := canRecord_exists d.flatten
  obtain ⟨d', hd', h18⟩ := c18_no_detector_fires lay hv hs
  obtain rfl := Except.ok.inj (hd.symm.trans hd')
  obtain ⟨d', hd', h19⟩ := c19_observable_not_flipped lay hv hs
  obtain rfl := Except.ok.inj (hd.symm.trans hd')
  obtain ⟨F, F', h0, hrun⟩ := id hr
  refine ⟨s, ⟨F, F', h0, noisy_of_runs hrun⟩, fun x hx => ?_, fun j hj => ?_⟩
  · have := List.mem_of_getElem? hx
    obtain ⟨v, hv', e⟩ := List.mem_map.1 this
    rw [h18 s hr v hv'] at e
    revert e
    decide
  · have := List.mem_of_getElem? hj
    obtain ⟨i, -, e⟩ := List.mem_map.1 this
    by_cases hi : i = lay.obsI
    · rw [hi, show observableValue lay.obsI d.flatten s = some 0 from h19 s hr] at e
      revert e
      decide
    · rw [other_observable hv hs hd i hi] at e
      revert e
      decide

theorem addOpt_iff {v w : Option (ZMod 2)} (hv : v.isSome) (hw : w.isSome) : addOpt v w = some 1 ↔ ¬(v = some 1 ↔ w = some 1) := by
  obtain ⟨x, rfl⟩ := Option.isSome_iff_exists.1 hv
  obtain ⟨y, rfl⟩ := Option.isSome_iff_exists.1 hw
  revert x y
  decide

theorem detectionBits_get (d : Circuit) (r : List (ZMod 2)) (x : Nat) : (detectionBits d r)[x]? = some true ↔ (detectorValues d.flatten r)[x]? = some (some 1) := by
  rw [detectionBits, List.getElem?_map]
  cases (detectorValues d.flatten r)[x]? <;> simp

theorem observableBits_get (d : Circuit) (r : List (ZMod 2)) (j : Nat) :
    (observableBits d r)[j]? = some true ↔ j < d.num_observables ∧ observableValue j d.flatten r = some 1 := by
  rw [observableBits, List.getElem?_map]
  by_cases hj : j < d.num_observables
  · rw [List.getElem?_range hj]
    simp [hj]
  · rw [List.getElem?_eq_none (by simpa using hj)]
    simp [hj]

theorem detection_add (hv : lay.Valid) (hs : lay.Supported) (hd : lay.makeCircuit = .ok d) (h : CanSample n d.flatten r) (h' : CanSample k d.flatten s)
    (x : Nat) : (detectionBits d (addRec r s))[x]? = some true ↔ ¬((detectionBits d r)[x]? = some true ↔ (detectionBits d s)[x]? = some true) := by
  rw [detectionBits_get, detectionBits_get, detectionBits_get, detectorValues_add, List.getElem?_zipWith]
  by_cases hx : x < d.num_detectors
  · have h1 : x < (detectorValues d.flatten r).length := by rwa [detectorValues_length]
    have h2 : x < (detectorValues d.flatten s).length := by rwa [detectorValues_length]
    rw [List.getElem?_eq_getElem h1, List.getElem?_eq_getElem h2]
    simp only [Option.some.injEq]
    exact addOpt_iff ((sample_defined hv hs hd h).1 _ (List.getElem_mem h1)) ((sample_defined hv hs hd h').1 _ (List.getElem_mem h2))
  · rw [List.getElem?_eq_none (l := detectorValues d.flatten r) (by rw [detectorValues_length]; omega),
      List.getElem?_eq_none (l := detectorValues d.flatten s) (by rw [detectorValues_length]; omega)]
    simp

theorem observable_add (hv : lay.Valid) (hs : lay.Supported) (hd : lay.makeCircuit = .ok d) (h : CanSample n d.flatten r) (h' : CanSample k d.flatten s)
    (j : Nat) : (observableBits d (addRec r s))[j]? = some true ↔ ¬((observableBits d r)[j]? = some true ↔ (observableBits d s)[j]? = some true) := by
  rw [observableBits_get, observableBits_get, observableBits_get, observableValue_add]
  by_cases hj : j < d.num_observables
  · simp only [hj, true_and]
    by_cases hk : j = lay.obsI
    · rw [hk]
      exact addOpt_iff (sample_defined hv hs hd h).2 (sample_defined hv hs hd h').2
    · rw [other_observable hv hs hd j hk, other_observable hv hs hd j hk]
      decide
  · simp [hj]

/-- Components of the error model together do what some sample does that has as many errors. -/
theorem components_sample (hv : lay.Valid) (hs : lay.Supported) (hd : lay.makeCircuit = .ok d) {m : Dem} (hm : ErrorModelOf d m) :
    ∀ l : List Mechanism, (∀ e ∈ l, e ∈ m.mechanisms ∧ e.p ≠ 0) → ∃ rec, CanSample l.length d.flatten rec ∧
      (∀ x, (detectionBits d rec)[x]? = some true ↔ Fires l x) ∧ ∀ j, (observableBits d rec)[j]? = some true ↔ Flips l j
  | [], _ => by
    obtain ⟨rec, h1, h2, h3⟩ := quiet_sample hv hs hd
    exact ⟨rec, h1, fun x => by simp [Fires, h2], fun j => by simp [Flips, h3]⟩
  | e :: l, hl => by
    obtain ⟨r, h1, h2, h3⟩ := components_sample hv hs hd hm l fun e he => hl e (List.mem_cons_of_mem _ he)
    obtain ⟨he, he0⟩ := hl e List.mem_cons_self
    obtain ⟨s, g1, g2, g3⟩ := hm.sound e he he0
    refine ⟨addRec r s, h1.sum g1, fun x => ?_, fun j => ?_⟩
    · rw [detection_add hv hs hd h1 g1, h2, ← g2, Fires, Fires, List.map_cons, List.sum_cons, Nat.odd_add, ← Nat.not_odd_iff_even]
      by_cases hx : x ∈ e.dets
      · rw [List.count_eq_one_of_mem (hm.two e he he0).1 hx]
        simp [hx]
      · rw [List.count_eq_zero_of_not_mem hx]
        simp [hx]
    · rw [observable_add hv hs hd h1 g1, h3, ← g3, Flips, Flips, List.countP_cons, Nat.odd_add, ← Nat.not_odd_iff_even]
      by_cases hj : j ∈ e.frames <;> simp [hj]

theorem bits_ext {a b : List Bool} (hl : a.length = b.length) (h : ∀ x : Nat, a[x]? = some true ↔ b[x]? = some true) : a = b := by
  refine List.ext_getElem hl fun x h1 h2 => ?_
  have := h x
  rw [List.getElem?_eq_getElem h1, List.getElem?_eq_getElem h2] at this
  simpa [← Bool.eq_iff_iff] using this

/-- Components with no detector flip nothing. -/
theorem component_silent (hv : lay.Valid) (hs : lay.Supported) (hd : lay.makeCircuit = .ok d) {m : Dem} (hm : ErrorModelOf d m)
    (hD : 1 < lay.circuitDistance) : ∀ e ∈ m.mechanisms, e.p ≠ 0 → e.dets = [] → e.frames = [] := by
  intro e he he0 hnil
  obtain ⟨r, h1, h2, h3⟩ := hm.sound e he he0
  obtain ⟨s, g1, g2, g3⟩ := quiet_sample hv hs hd
  have heq : detectionBits d r = detectionBits d s :=
    bits_ext (by rw [detectionBits_length, detectionBits_length]) fun x => by rw [← h2, hnil]; simp [g2 x]
  have := few_same hv hs hd h1 g1 (by simpa using hD) heq
  refine List.eq_nil_iff_forall_not_mem.2 fun j hj => ?_
  rw [h3, this] at hj
  exact g3 j hj

/-- The error model satisfies the hypotheses of C102. -/
theorem errorModel_graphlike (hv : lay.Valid) (hs : lay.Supported) (hd : lay.makeCircuit = .ok d) {m : Dem} (hm : ErrorModelOf d m)
    (hD : 2 < lay.circuitDistance) : Graphlike m where
  coords := hm.coords
  prob := hm.prob
  two := fun e he h0 => (hm.two e he h0).2
  agree := fun u v e he e' he' => by
    rw [Dem.between, List.mem_filter, decide_eq_true_iff] at he he'
    obtain ⟨hm1, h0, hc⟩ := he
    obtain ⟨hm2, h0', hc'⟩ := he'
    have hids := mechanisms_ids m e hm1
    have hids' := mechanisms_ids m e' hm2
    have hsame : ∀ x, x ∈ e.dets ↔ x ∈ e'.dets := by
      intro x
      rcases hc with hc | hc | ⟨hc, rfl⟩ | ⟨hc, rfl⟩ <;> rcases hc' with hc' | hc' | ⟨hc', hb⟩ | ⟨hc', hb⟩ <;> rw [hc] at hids <;>
        rw [hc'] at hids' <;> simp only [List.mem_cons, List.not_mem_nil, or_false, forall_eq_or_imp, forall_eq] at hids hids' <;> rw [hc, hc'] <;>
        simp only [List.mem_cons, List.not_mem_nil, or_false] <;> omega
    obtain ⟨r, h1, h2, h3⟩ := hm.sound e hm1 h0
    obtain ⟨s, g1, g2, g3⟩ := hm.sound e' hm2 h0'
    have heq : detectionBits d r = detectionBits d s :=
      bits_ext (by rw [detectionBits_length, detectionBits_length]) fun x => by rw [← h2, ← g2, hsame]
    have := few_same hv hs hd h1 g1 (by simpa using hD) heq
    ext j
    rw [List.mem_toFinset, List.mem_toFinset, h3, g3, this]

end Honeycomb
