import Verif.Spec.Detections
import Verif.Props.LowerBound

/-!
# C114: the detection fraction is proportional to the noise

How likely it is that a given detector fires. The probabilities of records are those of `Spec/Sampling.lean`; `firingProb`, `meanDetections`: `Spec/Detections.lean`.
-/

namespace Honeycomb
open scoped ENNReal
open HoneycombLayout

variable {lay : HoneycombLayout} {d : Circuit} {N : Nat}

theorem fires_iff {rec : List (ZMod 2)} {j : Nat} : (detectionBits d rec)[j]? = some true ↔ fired d.flatten rec j ≠ 0 := by
  rw [detectionBits_get]
  refine ⟨fun h => ?_, fired_some⟩
  rw [fired, h]
  decide

/-- The probability of firing is at most the number of places that can fire the detector, times the probability of an error. -/
theorem firing_upper (hv : lay.Valid) (hs : lay.Supported) (hN : lay.sub_rounds = N) (hd : lay.makeCircuit = .ok d) (hp : lay.noise ≤ 1) {r Δ : Nat} (hr : r = 48)
    (hΔ : Δ = 2 * ((2 * r + 1) ^ 2 * 25920)) {F : Frame} (hF : StartFrame F) (j : Nat) : firingProb d F j ≤ Δ * ENNReal.ofReal lay.worst := by
  obtain ⟨X, hX, hXm⟩ := firing_places hv hs hN hd hr hΔ j
  have hcov := cover_circuit d.flatten F fun i hi h => (chance_le hv hs hp hd i hi h).2
  rw [firingProb, recordProb, PMF.toOuterMeasure_map_apply]
  calc _ ≤ (sampleCircuit d.flatten F).toOuterMeasure (⋃ a ∈ X, {x | ∀ b ∈ ({a} : Finset Nat), x.2[b]? = some true}) := by
        refine PMF.toOuterMeasure_mono _ ?_
        rintro x ⟨hx, hsup⟩
        obtain ⟨G, hG⟩ := sampleCircuit_placed _ hsup
        have hf : fired d.flatten x.1 j ≠ 0 := fires_iff.1 hx
        obtain ⟨rs, h1, h2, -⟩ := SampleAt.parts hv hs hd ⟨F, G, hF, hG⟩
        rw [← h2, Finset.sum_apply] at hf
        obtain ⟨i, -, hi⟩ := Finset.exists_ne_zero_of_sum_ne_zero hf
        rw [Set.mem_iUnion₂]
        refine ⟨_, hXm _ _ (h1 i) hi, fun b hb => ?_⟩
        rw [Finset.mem_singleton] at hb
        subst hb
        exact mem_trues.1 (List.getElem_mem _)
    _ ≤ ∑ a ∈ X, (sampleCircuit d.flatten F).toOuterMeasure {x | ∀ b ∈ ({a} : Finset Nat), x.2[b]? = some true} :=
        MeasureTheory.measure_biUnion_finset_le _ _
    _ ≤ ∑ _a ∈ X, ENNReal.ofReal lay.worst := Finset.sum_le_sum fun a _ => by simpa using hcov.prob {a}
    _ = X.card * ENNReal.ofReal lay.worst := by rw [Finset.sum_const, nsmul_eq_mul]
    _ ≤ Δ * ENNReal.ofReal lay.worst := mul_le_mul' (by exact_mod_cast hX) le_rfl

/-- The probability of firing is at least half the probability of an error of the least likely kind. -/
theorem firing_lower (hv : lay.Valid) (hs : lay.Supported) (hd : lay.makeCircuit = .ok d) (hp0 : 0 < lay.noise) (hw : lay.worst ≤ 1 / 2)
    {F : Frame} (hF : StartFrame F) {j : Nat} (hj : j < d.num_detectors) : 1 / 2 * ENNReal.ofReal (lay.worst / 750) ≤ firingProb d F j := by
  have hp : lay.noise ≤ 1 := by
    rw [worst] at hw
    split_ifs at hw <;> linarith
  have hw0 : (0 : ℝ) < lay.worst := by
    have : 0 < lay.worst := by rw [worst]; split_ifs <;> linarith
    exact_mod_cast this
  have hw' : (lay.worst : ℝ) ≤ 1 / 2 := by
    have h2 : (lay.worst : ℝ) ≤ ((1 / 2 : Rat) : ℝ) := by exact_mod_cast hw
    push_cast at h2
    exact h2
  have hch := places_cheap hv hs hp hd hw0 hw'
  set ρ : ℝ≥0∞ := ENNReal.ofReal (lay.worst / 750) with hρ
  have hρ1 : ρ ≤ 1 := by
    rw [hρ, ← ENNReal.ofReal_one]
    exact ENNReal.ofReal_le_ofReal (by linarith)
  obtain ⟨d', hd', hw⟩ := c101_watches lay hv hs hp0
  obtain rfl := Except.ok.inj (hd.symm.trans hd')
  obtain ⟨rec, ⟨G, G', hG, hrun⟩, hfire, -⟩ := hw j hj
  obtain ⟨H, hH, hrun⟩ := hrun.placed
  -- the same error from the frame without errors
  obtain ⟨ra, r0, A', B', h1, h2, h3, -⟩ := hrun.split (A := 0) (B := G) (Ha := H) (Hb := []) (by rw [zero_add]) (by simp)
  have c0 : CanSample 0 d.flatten r0 := ⟨G, B', hG, h2.noisy⟩
  have ca : CanSample _ d.flatten ra := ⟨0, A', fun q => rfl, h1.noisy⟩
  have fa : fired d.flatten ra j = 1 := by
    have e : fired d.flatten rec j = 1 := by rw [fired, hfire]; rfl
    rw [h3, fired_add hv hs hd ca c0, fired_none hv hs hd c0, add_zero] at e
    exact e
  set S := {rec | (detectionBits d rec)[j]? = some true} with hS
  have hone : ∀ x ∈ (sampleCircuit d.flatten F).support, (1 : ℝ≥0∞) ≤ S.indicator 1 x.1 + S.indicator 1 (addRec x.1 ra) := fun x hx => by
    obtain ⟨X, hX⟩ := sampleCircuit_runs _ hx
    have cx : CanSample _ d.flatten x.1 := ⟨F, X, hF, hX⟩
    by_cases m1 : x.1 ∈ S
    · rw [Set.indicator_of_mem m1]
      exact le_self_add
    have m2 : addRec x.1 ra ∈ S := by
      have m1 : fired d.flatten x.1 j = 0 := not_not.1 fun h => m1 (fires_iff.2 h)
      refine fires_iff.2 ?_
      rw [fired_add hv hs hd cx ca, Pi.add_apply, m1, fa]
      decide
    rw [Set.indicator_of_mem m2]
    exact le_add_self
  have htot : (1 : ℝ≥0∞) ≤ firingProb d F j + mean (sampleCircuit d.flatten F) (fun x => S.indicator 1 (addRec x.1 ra)) := by
    rw [firingProb, recordProb_mean, ← mean_add, ← mean_const (sampleCircuit d.flatten F) 1]
    exact mean_le hone
  have b1 := h1.mean hch F (S.indicator 1)
  rw [add_zero, ← recordProb_mean, hH, pow_one] at b1
  have hsum : ρ ≤ 2 * firingProb d F j := by
    calc ρ = ρ * 1 := (mul_one _).symm
      _ ≤ ρ * _ := mul_le_mul' le_rfl htot
      _ = _ := _root_.mul_add _ _ _
      _ ≤ 1 * firingProb d F j + firingProb d F j := add_le_add (mul_le_mul' hρ1 le_rfl) b1
      _ = 2 * firingProb d F j := by rw [one_mul, ← two_mul]
  calc 1 / 2 * ρ ≤ 1 / 2 * (2 * firingProb d F j) := mul_le_mul' le_rfl hsum
    _ = firingProb d F j := by rw [← mul_assoc, one_div, ENNReal.inv_mul_cancel (by norm_num) (by norm_num), one_mul]

/-- The mean number of detections is the sum of the probabilities. -/
theorem meanDetections_sum (d : Circuit) (F : Frame) : meanDetections d F = ∑ j ∈ Finset.range d.num_detectors, firingProb d F j := by
  classical
  have hc : ∀ rec : List (ZMod 2), ((detectionBits d rec).count true : ℝ≥0∞) = ∑ j ∈ Finset.range d.num_detectors,
      Set.indicator {rec | (detectionBits d rec)[j]? = some true} 1 rec := fun rec => by
    have e : ∀ l : List Bool, l.count true = ((Finset.range l.length).filter fun j => l[j]? = some true).card := fun l => by
      induction l with
      | nil => rfl
      | cons b l ih =>
        rw [List.length_cons, Finset.range_eq_Ico, Finset.card_filter, ← Finset.range_eq_Ico, Finset.sum_range_succ']
        simp only [List.getElem?_cons_succ, List.getElem?_cons_zero]
        rw [← Finset.card_filter, ← ih, List.count_cons]
        cases b <;> simp
    rw [e, detectionBits_length, Finset.card_filter, Nat.cast_sum]
    refine Finset.sum_congr rfl fun j _ => ?_
    by_cases h : (detectionBits d rec)[j]? = some true
    · rw [if_pos h, Set.indicator_of_mem (by exact h)]; simp
    · rw [if_neg h, Set.indicator_of_notMem (by exact h)]; simp
  rw [meanDetections]
  simp only [hc, Finset.mul_sum]
  rw [Summable.tsum_finsetSum fun _ _ => ENNReal.summable]
  refine Finset.sum_congr rfl fun j _ => ?_
  rw [firingProb, recordProb, PMF.toOuterMeasure_apply]
  refine tsum_congr fun rec => ?_
  by_cases h : rec ∈ {rec | (detectionBits d rec)[j]? = some true}
  · rw [Set.indicator_of_mem h, Set.indicator_of_mem h, Pi.one_apply, mul_one]
  · rw [Set.indicator_of_notMem h, Set.indicator_of_notMem h, mul_zero]

/-- C114: there is a constant, the same for all patches, durations, observables and styles, such that every detector fires with a probability of at most the constant
times the largest probability of an error. -/
theorem c114_upper : ∃ C : Nat, ∀ lay : HoneycombLayout, lay.Valid → lay.Supported → lay.noise ≤ 1 → ∃ d, lay.makeCircuit = .ok d ∧
    ∀ F, StartFrame F → ∀ j, firingProb d F j ≤ C * ENNReal.ofReal lay.worst := by
  obtain ⟨r, hr⟩ : ∃ r, r = 48 := ⟨_, rfl⟩
  refine ⟨2 * ((2 * r + 1) ^ 2 * 25920), fun lay hv hs hp => ?_⟩
  obtain ⟨N, hN⟩ := Int.eq_ofNat_of_zero_le (show 0 ≤ lay.sub_rounds by have := hs.2.2.1; omega)
  obtain ⟨_, _, d, _, _, _, _, _, _, _, _, _, _, _, _, hd⟩ := makeCircuit_ok hv hs hN
  exact ⟨d, hd, fun F hF j => firing_upper hv hs hN hd hp hr rfl hF j⟩

/-- C114: with noise, every detector fires with a probability of at least a fifteen-hundredth of the largest probability of an error. -/
theorem c114_lower (lay : HoneycombLayout) (hv : lay.Valid) (hs : lay.Supported) (hp0 : 0 < lay.noise) (hw : lay.worst ≤ 1 / 2) :
    ∃ d, lay.makeCircuit = .ok d ∧ ∀ F, StartFrame F → ∀ j < d.num_detectors, ENNReal.ofReal (lay.worst / 1500) ≤ firingProb d F j := by
  obtain ⟨N, hN⟩ := Int.eq_ofNat_of_zero_le (show 0 ≤ lay.sub_rounds by have := hs.2.2.1; omega)
  obtain ⟨_, _, d, _, _, _, _, _, _, _, _, _, _, _, _, hd⟩ := makeCircuit_ok hv hs hN
  refine ⟨d, hd, fun F hF j hj => le_trans (le_of_eq ?_) (firing_lower hv hs hd hp0 hw hF hj)⟩
  rw [show (1 / 2 : ℝ≥0∞) = ENNReal.ofReal (1 / 2) by rw [ENNReal.ofReal_div_of_pos two_pos]; simp, ← ENNReal.ofReal_mul (by norm_num)]
  congr 1
  ring

/-- C114: the mean number of detectors that fire in a shot, per detector, is between these bounds: it neither grows nor falls with the size of the patch or the
duration of the experiment. -/
theorem c114_fraction : ∃ C : Nat, ∀ lay : HoneycombLayout, lay.Valid → lay.Supported → 0 < lay.noise → lay.worst ≤ 1 / 2 → ∃ d, lay.makeCircuit = .ok d ∧
    ∀ F, StartFrame F → d.num_detectors * ENNReal.ofReal (lay.worst / 1500) ≤ meanDetections d F ∧
      meanDetections d F ≤ d.num_detectors * (C * ENNReal.ofReal lay.worst) := by
  obtain ⟨C, h⟩ := c114_upper
  refine ⟨C, fun lay hv hs hp0 hw => ?_⟩
  obtain ⟨d, hd, hlow⟩ := c114_lower lay hv hs hp0 hw
  obtain ⟨d', hd', hup⟩ := h lay hv hs (by rw [worst] at hw; split_ifs at hw <;> linarith)
  obtain rfl := Except.ok.inj (hd.symm.trans hd')
  refine ⟨d, hd, fun F hF => ?_⟩
  rw [meanDetections_sum]
  constructor
  · calc _ = ∑ _j ∈ Finset.range d.num_detectors, ENNReal.ofReal (lay.worst / 1500) := by rw [Finset.sum_const, Finset.card_range, nsmul_eq_mul]
      _ ≤ _ := Finset.sum_le_sum fun j hj => hlow F hF j (Finset.mem_range.1 hj)
  · calc _ ≤ ∑ _j ∈ Finset.range d.num_detectors, (C : ℝ≥0∞) * ENNReal.ofReal lay.worst := Finset.sum_le_sum fun j _ => hup F hF j
      _ = _ := by rw [Finset.sum_const, Finset.card_range, nsmul_eq_mul]

/-- C114: without noise no detector ever fires. -/
theorem c114_silent (lay : HoneycombLayout) (hv : lay.Valid) (hs : lay.Supported) (hp0 : lay.noise = 0) :
    ∃ d, lay.makeCircuit = .ok d ∧ ∀ F, StartFrame F → meanDetections d F = 0 := by
  obtain ⟨C, h⟩ := c114_upper
  obtain ⟨d, hd, h⟩ := h lay hv hs (by rw [hp0]; norm_num)
  refine ⟨d, hd, fun F hF => ?_⟩
  rw [meanDetections_sum]
  refine Finset.sum_eq_zero fun j _ => le_antisymm ((h F hF j).trans (le_of_eq ?_)) bot_le
  have : lay.worst = 0 := by rw [worst, hp0]; simp
  rw [this]
  simp

/-! ## Examples -/

/-- The hypotheses of C114: at noise `1 / 1000` every detector of an "SD6" patch fires, on average, at least once in one and a half million shots. -/
example : ∃ d, HoneycombLayout.makeCircuit ⟨8, 12, 40, "SD6", "V", 1/1000⟩ = .ok d ∧ ∀ j < d.num_detectors,
    ENNReal.ofReal (((1 / 1000 : Rat) : ℝ) / 1500) ≤ firingProb d 0 j := by
  have hv : HoneycombLayout.Valid ⟨8, 12, 40, "SD6", "V", 1/1000⟩ := by constructor <;> decide
  have hs : HoneycombLayout.Supported ⟨8, 12, 40, "SD6", "V", 1/1000⟩ := by refine ⟨?_, ?_, ?_, ?_⟩ <;> simp
  have hw : HoneycombLayout.worst ⟨8, 12, 40, "SD6", "V", 1/1000⟩ = 1 / 1000 := by rw [worst, if_neg (by decide)]
  obtain ⟨d, hd, h⟩ := c114_lower _ hv hs (by norm_num) (by rw [hw]; norm_num)
  refine ⟨d, hd, fun j hj => ?_⟩
  have := h 0 (fun q => rfl) j hj
  rw [hw] at this
  exact this

/-- The same constant serves patches of all sizes. -/
example : ∃ C : Nat, ∀ k : Nat, 0 < k → ∃ d, HoneycombLayout.makeCircuit ⟨4 * k, 6 * k, 40 * k, "EM3", "H", 1/1000⟩ = .ok d ∧
    meanDetections d 0 ≤ d.num_detectors * (C * ENNReal.ofReal ((1 / 1000 : Rat) : ℝ)) := by
  obtain ⟨C, h⟩ := c114_fraction
  refine ⟨C, fun k hk => ?_⟩
  have hv : HoneycombLayout.Valid ⟨4 * k, 6 * k, 40 * k, "EM3", "H", 1/1000⟩ := by constructor <;> simp <;> omega
  have hs : HoneycombLayout.Supported ⟨4 * k, 6 * k, 40 * k, "EM3", "H", 1/1000⟩ := by
    refine ⟨?_, ?_, ?_, ?_⟩ <;> simp <;> omega
  have hw : HoneycombLayout.worst ⟨4 * k, 6 * k, 40 * k, "EM3", "H", 1/1000⟩ = 1 / 1000 := by rw [worst, if_neg (by simp)]
  obtain ⟨d, hd, h⟩ := h _ hv hs (by norm_num) (by rw [hw]; norm_num)
  refine ⟨d, hd, ?_⟩
  have := (h 0 fun q => rfl).2
  rw [hw] at this
  exact this

end Honeycomb
