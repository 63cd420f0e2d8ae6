import Verif.Lemmas.Toggle
import Verif.Lemmas.ExistsAnalysis
import Verif.Props.Horizontal
import Verif.Props.EdgeChance

/-!
# C113: no decoder is better than the distance allows

A lower bound for the logical error rate of every decoder, whatever it does with the detectors. The probabilities of records are those of `Spec/Sampling.lean`;
`circuitDistance`: `Spec/ErrorModel.lean`.
-/

namespace Honeycomb
open scoped ENNReal
open HoneycombLayout

variable {lay : HoneycombLayout} {d : Circuit} {n : Nat} {r : List (ZMod 2)}

theorem recordProb_mean (l : List Instr) (F : Frame) (S : Set (List (ZMod 2))) : recordProb l F S = mean (sampleCircuit l F) fun x => S.indicator 1 x.1 := by
  rw [recordProb, PMF.toOuterMeasure_map_apply, PMF.toOuterMeasure_apply, mean]
  refine tsum_congr fun x => ?_
  by_cases h : x.1 ∈ S
  · rw [Set.indicator_of_mem (by exact h), Set.indicator_of_mem h, Pi.one_apply, mul_one]
  · rw [Set.indicator_of_notMem (by exact h), Set.indicator_of_notMem h, mul_zero]

theorem mean_add {α : Type} (D : PMF α) (g g' : α → ℝ≥0∞) : mean D (fun x => g x + g' x) = mean D g + mean D g' := by
  unfold mean
  rw [← ENNReal.tsum_add]
  simp only [_root_.mul_add]

theorem obsValue_none (hv : lay.Valid) (hs : lay.Supported) (hd : lay.makeCircuit = .ok d) (h : CanSample 0 d.flatten r) : obsValue lay.obsI d.flatten r = 0 := by
  obtain ⟨d', hd', hdist⟩ := c76_observable_distance lay hv hs
  obtain rfl := Except.ok.inj (hd.symm.trans hd')
  by_contra hne
  have h1 := hdist 0 r h ((fired_zero hv hs hd h).1 (fired_none hv hs hd h)) (fun e => hne (by rw [obsValue, show observableValue lay.obsI d.flatten r = some 0 from e]; rfl))
  have := hv.width_pos
  have := hv.height_pos
  split_ifs at h1 <;> simp at h1 <;> omega

/-- No error is much less likely than any other, and none is certain. -/
theorem places_cheap (hv : lay.Valid) (hs : lay.Supported) (hp : lay.noise ≤ 1) (hd : lay.makeCircuit = .ok d) (hw0 : (0 : ℝ) < lay.worst)
    (hw : (lay.worst : ℝ) ≤ 1 / 2) : ∀ i ∈ d.flatten, 0 < i.places →
      ENNReal.ofReal (lay.worst / 750) * 15 ≤ min i.chance 1 ∧ ENNReal.ofReal (lay.worst / 750) ≤ 1 - min i.chance 1 := fun i hi hpl => by
  obtain ⟨-, h1, h2⟩ := chance_between hv hs hp hd i hi hpl
  have e : ENNReal.ofReal (lay.worst / 750) * 15 = ENNReal.ofReal (lay.worst / 50) := by
    rw [show (15 : ℝ≥0∞) = ENNReal.ofReal 15 by simp, ← ENNReal.ofReal_mul (by positivity)]
    congr 1
    ring
  refine ⟨le_min (e ▸ h2) ?_, ?_⟩
  · rw [e, ← ENNReal.ofReal_one]
    exact ENNReal.ofReal_le_ofReal (by linarith)
  · refine le_trans ?_ (tsub_le_tsub_left ((min_le_left _ _).trans h1) 1)
    rw [← ENNReal.ofReal_one, ← ENNReal.ofReal_sub _ hw0.le]
    exact ENNReal.ofReal_le_ofReal (by linarith)

/-- C113: if `n` errors can flip the observable with no detector firing, then every decoder is wrong with at least half the probability that half as many errors
(rounded up) of the least likely kind happen: with `worst` the largest error probability, no single error has a probability below `worst / 750`. -/
theorem c113_undetected (lay : HoneycombLayout) (hv : lay.Valid) (hs : lay.Supported) (hp0 : 0 < lay.noise) (hw : lay.worst ≤ 1 / 2) :
    ∃ d, lay.makeCircuit = .ok d ∧ ∀ n rec, CanSample n d.flatten rec → (∀ v ∈ detectorValues d.flatten rec, v = some 0) →
      observableValue (if lay.obs = "V" then 0 else 1) d.flatten rec ≠ some 0 → ∀ (guess : List Bool → List Bool) (F : Frame), StartFrame F →
        1 / 2 * ENNReal.ofReal (lay.worst / 750) ^ ((n + 1) / 2) ≤ recordProb d.flatten F {rec | guess (detectionBits d rec) ≠ observableBits d rec} := by
  obtain ⟨N, hN⟩ := Int.eq_ofNat_of_zero_le (show 0 ≤ lay.sub_rounds by have := hs.2.2.1; omega)
  obtain ⟨_, _, d, _, _, _, _, _, _, _, _, _, _, _, _, hd⟩ := makeCircuit_ok hv hs hN
  refine ⟨d, hd, fun n rec hrec hdet hobs guess F hF => ?_⟩
  have hp : lay.noise ≤ 1 := by
    rw [worst] at hw
    split_ifs at hw <;> linarith
  have hw0 : (0 : ℝ) < lay.worst := by
    have : 0 < lay.worst := by rw [worst]; split_ifs <;> linarith
    exact_mod_cast this
  have hw' : (lay.worst : ℝ) ≤ 1 / 2 := by
    have h2 : (lay.worst : ℝ) ≤ ((1 / 2 : Rat) : ℝ) := by exact_mod_cast hw
    push_cast at h2
    exact h2
  set ρ : ℝ≥0∞ := ENNReal.ofReal (lay.worst / 750) with hρ
  have hρ1 : ρ ≤ 1 := by
    rw [hρ, ← ENNReal.ofReal_one]
    exact ENNReal.ofReal_le_ofReal (by linarith)
  have hch := places_cheap hv hs hp hd hw0 hw'
  -- the same errors from the frame without errors, in two parts
  obtain ⟨G, G', hG, hrun⟩ := hrec
  obtain ⟨H, hH, hrun⟩ := hrun.placed
  obtain ⟨ra, r0, A', B', h1, h2, h3, -⟩ := hrun.split (A := 0) (B := G) (Ha := H) (Hb := []) (by rw [zero_add]) (by simp)
  obtain ⟨s1, s2, A1, A2, k1, k2, k3, -⟩ := h1.split (A := 0) (B := 0) (Ha := H.take (n / 2)) (Hb := H.drop (n / 2)) (by rw [zero_add]) (by simp)
  have c0 : CanSample 0 d.flatten r0 := ⟨G, B', hG, h2.noisy⟩
  have c1 : CanSample _ d.flatten s1 := ⟨0, A1, fun q => rfl, k1.noisy⟩
  have c2 : CanSample _ d.flatten s2 := ⟨0, A2, fun q => rfl, k2.noisy⟩
  have ca : CanSample _ d.flatten ra := ⟨0, A', fun q => rfl, h1.noisy⟩
  have cr : CanSample _ d.flatten rec := ⟨G, G', hG, hrun.noisy⟩
  have f12 : fired d.flatten s1 + fired d.flatten s2 = 0 := by
    have e := (fired_zero hv hs hd cr).2 hdet
    rw [h3, fired_add hv hs hd ca c0, fired_none hv hs hd c0, add_zero, k3, fired_add hv hs hd c1 c2] at e
    exact e
  have o12 : obsValue lay.obsI d.flatten s1 + obsValue lay.obsI d.flatten s2 ≠ 0 := by
    intro e
    have e' : obsValue lay.obsI d.flatten rec = 0 := by
      rw [h3, obsValue_add hv hs hd ca c0, obsValue_none hv hs hd c0, add_zero, k3, obsValue_add hv hs hd c1 c2, e]
    obtain ⟨x, hx⟩ := Option.isSome_iff_exists.1 (sample_defined hv hs hd cr).2
    rw [obsValue, hx] at e'
    exact hobs (hx.trans (congrArg some e'))
  set S := {rec | guess (detectionBits d rec) ≠ observableBits d rec} with hS
  -- one of the two parts defeats the decoder
  have hone : ∀ x ∈ (sampleCircuit d.flatten F).support, (1 : ℝ≥0∞) ≤ S.indicator 1 (addRec x.1 s1) + S.indicator 1 (addRec x.1 s2) := fun x hx => by
    obtain ⟨X, hX⟩ := sampleCircuit_runs _ hx
    have cx : CanSample _ d.flatten x.1 := ⟨F, X, hF, hX⟩
    have d1 := cx.sum c1
    have d2 := cx.sum c2
    by_cases m1 : addRec x.1 s1 ∈ S
    · rw [Set.indicator_of_mem m1]
      exact le_self_add
    by_cases m2 : addRec x.1 s2 ∈ S
    · rw [Set.indicator_of_mem m2]
      exact le_add_self
    exfalso
    have e1 : guess (detectionBits d (addRec x.1 s1)) = observableBits d (addRec x.1 s1) := not_not.1 m1
    have e2 : guess (detectionBits d (addRec x.1 s2)) = observableBits d (addRec x.1 s2) := not_not.1 m2
    have e3 : detectionBits d (addRec x.1 s1) = detectionBits d (addRec x.1 s2) := by
      rw [sameDetection hv hs hd d1 d2, ← fired_zero hv hs hd (d1.sum d2), fired_add hv hs hd d1 d2, fired_add hv hs hd cx c1, fired_add hv hs hd cx c2,
        add_add_add_comm, f12, add_zero]
      funext j
      exact (by decide : ∀ a : ZMod 2, a + a = 0) _
    rw [e3, e2] at e1
    have e4 := (sameObservables hv hs hd d2 d1).1 e1
    have e5 : obsValue lay.obsI d.flatten (addRec (addRec x.1 s2) (addRec x.1 s1)) = 0 := by rw [obsValue, e4]; rfl
    rw [obsValue_add hv hs hd d2 d1, obsValue_add hv hs hd cx c1, obsValue_add hv hs hd cx c2, add_add_add_comm,
      (by decide : ∀ a : ZMod 2, a + a = 0), zero_add, add_comm] at e5
    exact o12 e5
  have htot : (1 : ℝ≥0∞) ≤ mean (sampleCircuit d.flatten F) (fun x => S.indicator 1 (addRec x.1 s1)) +
      mean (sampleCircuit d.flatten F) (fun x => S.indicator 1 (addRec x.1 s2)) := by
    rw [← mean_add, ← mean_const (sampleCircuit d.flatten F) 1]
    exact mean_le hone
  have b1 := k1.mean hch F (S.indicator 1)
  have b2 := k2.mean hch F (S.indicator 1)
  rw [add_zero, ← recordProb_mean] at b1 b2
  rw [List.length_take] at b1
  rw [List.length_drop] at b2
  have q1 : ρ ^ ((n + 1) / 2) ≤ ρ ^ (min (n / 2) H.length) := pow_le_pow_right_of_le_one' hρ1 (by omega)
  have q2 : ρ ^ ((n + 1) / 2) ≤ ρ ^ (H.length - n / 2) := pow_le_pow_right_of_le_one' hρ1 (by omega)
  have hsum : ρ ^ ((n + 1) / 2) ≤ 2 * recordProb d.flatten F S := by
    calc ρ ^ ((n + 1) / 2) = ρ ^ ((n + 1) / 2) * 1 := (mul_one _).symm
      _ ≤ ρ ^ ((n + 1) / 2) * _ := mul_le_mul' le_rfl htot
      _ = _ := _root_.mul_add _ _ _
      _ ≤ recordProb d.flatten F S + recordProb d.flatten F S := add_le_add ((mul_le_mul' q1 le_rfl).trans b1) ((mul_le_mul' q2 le_rfl).trans b2)
      _ = 2 * recordProb d.flatten F S := (two_mul _).symm
  calc 1 / 2 * ρ ^ ((n + 1) / 2) ≤ 1 / 2 * (2 * recordProb d.flatten F S) := mul_le_mul' le_rfl hsum
    _ = recordProb d.flatten F S := by
      rw [← mul_assoc, one_div, ENNReal.inv_mul_cancel (by norm_num) (by norm_num), one_mul]

/-- C113: with at least six sub-rounds, every decoder is wrong with a probability of at least half of `(worst / 750) ^ k`, where `k` is half of the circuit distance,
rounded up. -/
theorem c113_distance (lay : HoneycombLayout) (hv : lay.Valid) (hs : lay.Supported) (hp0 : 0 < lay.noise) (hw : lay.worst ≤ 1 / 2) (h6 : 6 ≤ lay.sub_rounds) :
    ∃ d, lay.makeCircuit = .ok d ∧ ∀ (guess : List Bool → List Bool) (F : Frame), StartFrame F → ∀ k : Nat, lay.circuitDistance ≤ 2 * k →
      1 / 2 * ENNReal.ofReal (lay.worst / 750) ^ k ≤ recordProb d.flatten F {rec | guess (detectionBits d rec) ≠ observableBits d rec} := by
  obtain ⟨d, hd, h⟩ := c113_undetected lay hv hs hp0 hw
  refine ⟨d, hd, fun guess F hF k hk => ?_⟩
  have hw' : (lay.worst : ℝ) ≤ 1 / 2 := by
    have h2 : (lay.worst : ℝ) ≤ ((1 / 2 : Rat) : ℝ) := by exact_mod_cast hw
    push_cast at h2
    exact h2
  have hρ1 : ENNReal.ofReal (lay.worst / 750) ≤ 1 := by
    rw [← ENNReal.ofReal_one]
    exact ENNReal.ofReal_le_ofReal (by linarith)
  obtain ⟨n, rec, hn, h1, h2, h3⟩ : ∃ (n : Nat) (rec : List (ZMod 2)), (n : Int) = lay.circuitDistance ∧ CanSample n d.flatten rec ∧ (∀ v ∈ detectorValues d.flatten rec, v = some 0) ∧
      observableValue (if lay.obs = "V" then 0 else 1) d.flatten rec ≠ some 0 := by
    by_cases hst : lay.style ∈ ["SD6", "PC3", "SI1000"]
    · rw [circuitDistance, if_pos hst]
      by_cases hV : lay.obs = "V"
      · obtain ⟨d', hd', n, hn, ⟨⟨rec, h1, h2, h3⟩, -⟩⟩ := c85_vertical_exact lay hv hs hst hp0 hV
        obtain rfl := Except.ok.inj (hd.symm.trans hd')
        exact ⟨n, rec, by rw [if_pos hV]; exact hn, h1, h2, by rw [if_pos hV]; exact h3⟩
      · have hH : lay.obs = "H" := by have := hs.2.1; tauto
        obtain ⟨d', hd', n, hn, ⟨⟨rec, h1, h2, h3⟩, -⟩⟩ := c96_horizontal_exact lay hv hs hst hp0 hH h6
        obtain rfl := Except.ok.inj (hd.symm.trans hd')
        exact ⟨n, rec, by rw [if_neg hV]; omega, h1, h2, by rw [if_neg hV]; exact h3⟩
    · have hst' : lay.style = "EM3" ∨ lay.style = "EM3_v2" := by
        have := hs.1
        simp only [List.mem_cons, List.not_mem_nil, or_false] at this hst
        tauto
      obtain ⟨d', hd', n, hn, ⟨⟨rec, h1, h2, h3⟩, -⟩⟩ := c78_observable_distance_exact lay hv hs hst' hp0 (fun _ => by omega)
      obtain rfl := Except.ok.inj (hd.symm.trans hd')
      refine ⟨n, rec, ?_, h1, h2, h3⟩
      rw [circuitDistance, if_neg hst]
      split_ifs at hn ⊢ <;> omega
  refine le_trans (mul_le_mul' le_rfl (pow_le_pow_right_of_le_one' hρ1 ?_)) (h n rec h1 h2 h3 guess F hF)
  omega

/-- C113: for any number of sub-rounds, with `k` half of `data_width` ("V"), a third of `data_height` ("H"). -/
theorem c113_any (lay : HoneycombLayout) (hv : lay.Valid) (hs : lay.Supported) (hp0 : 0 < lay.noise) (hw : lay.worst ≤ 1 / 2) :
    ∃ d, lay.makeCircuit = .ok d ∧ ∀ (guess : List Bool → List Bool) (F : Frame), StartFrame F → ∀ k : Nat,
      (if lay.obs = "V" then lay.data_width ≤ 2 * k else lay.data_height ≤ 3 * k) →
      1 / 2 * ENNReal.ofReal (lay.worst / 750) ^ k ≤ recordProb d.flatten F {rec | guess (detectionBits d rec) ≠ observableBits d rec} := by
  obtain ⟨d, hd, h⟩ := c113_undetected lay hv hs hp0 hw
  obtain ⟨d', hd', n, rec, hn, h1, h2, h3⟩ := c77_undetected_flip lay hv hs hp0
  obtain rfl := Except.ok.inj (hd.symm.trans hd')
  refine ⟨d, hd, fun guess F hF k hk => ?_⟩
  have hw' : (lay.worst : ℝ) ≤ 1 / 2 := by
    have h2 : (lay.worst : ℝ) ≤ ((1 / 2 : Rat) : ℝ) := by exact_mod_cast hw
    push_cast at h2
    exact h2
  have hρ1 : ENNReal.ofReal (lay.worst / 750) ≤ 1 := by
    rw [← ENNReal.ofReal_one]
    exact ENNReal.ofReal_le_ofReal (by linarith)
  refine le_trans (mul_le_mul' le_rfl (pow_le_pow_right_of_le_one' hρ1 ?_)) (h n rec h1 h2 (by rw [h3]; decide) guess F hF)
  split_ifs at hn hk <;> omega

/-- C113: below the threshold the logical error rate of minimum weight matching falls exponentially with the circuit distance, and no faster. -/
theorem c113_scaling : ∃ p₀ : ℝ, 0 < p₀ ∧ ∃ A C : Nat, 0 < A ∧ ∀ lay : HoneycombLayout, lay.Valid → lay.Supported →
    0 < lay.noise → 2 * (lay.worst : ℝ) ≤ p₀ → 2 < lay.circuitDistance → 6 ≤ lay.sub_rounds →
    ∃ d, lay.makeCircuit = .ok d ∧ ∀ m lines, AnalysisOf d m lines → ∃ g, demToNxGraph m = .ok g ∧
      ∀ matching, MinimumWeight g d.num_detectors d.num_observables matching → ∀ F, StartFrame F →
        ∀ k k' : Nat, (k * A : Int) ≤ lay.circuitDistance → lay.circuitDistance ≤ 2 * k' →
          1 / 2 * ENNReal.ofReal (lay.worst / 750) ^ k' ≤ recordProb d.flatten F {rec | matching (detectionBits d rec) ≠ observableBits d rec} ∧
          recordProb d.flatten F {rec | matching (detectionBits d rec) ≠ observableBits d rec} ≤
            C * lay.sub_rounds.toNat * lay.num_qubits.toNat * ENNReal.ofReal (lay.worst / p₀) ^ k := by
  obtain ⟨p₀, hp₀, A, C, hA, h⟩ := c112_threshold
  refine ⟨min p₀ 1, by positivity, A, C, hA, fun lay hv hs hp0 hw hD h6 => ?_⟩
  have hw0 : (0 : ℝ) < lay.worst := by
    have : 0 < lay.worst := by rw [worst]; split_ifs <;> linarith
    exact_mod_cast this
  have hw2 : lay.worst ≤ 1 / 2 := by
    have h1 : 2 * (lay.worst : ℝ) ≤ 1 := hw.trans (min_le_right _ _)
    have h2 : (lay.worst : ℝ) ≤ ((1 / 2 : Rat) : ℝ) := by push_cast; linarith
    exact_mod_cast h2
  obtain ⟨d, hd, h⟩ := h lay hv hs hp0 (hw.trans (min_le_left _ _)) hD
  obtain ⟨d', hd', h'⟩ := c113_distance lay hv hs hp0 hw2 h6
  obtain rfl := Except.ok.inj (hd.symm.trans hd')
  refine ⟨d, hd, fun m lines hL => ?_⟩
  obtain ⟨g, hg, h⟩ := h m lines hL
  refine ⟨g, hg, fun matching hmin F hF k k' hk hk' => ⟨h' matching F hF k' hk', (h matching hmin F hF k hk).trans ?_⟩⟩
  refine mul_le_mul_right (pow_le_pow_left' (ENNReal.ofReal_le_ofReal ?_) _) _
  exact div_le_div_of_nonneg_left hw0.le (by positivity) (min_le_left _ _)

/-! ## Examples -/

/-- The hypotheses of C113: an "SD6" patch of width 8 has circuit distance 8, so no decoder is wrong with a probability below a half of the fourth power of
`1 / 750000`. -/
example : ∃ d, HoneycombLayout.makeCircuit ⟨8, 12, 40, "SD6", "V", 1/1000⟩ = .ok d ∧ ∀ guess : List Bool → List Bool,
    1 / 2 * ENNReal.ofReal (((1 / 1000 : Rat) : ℝ) / 750) ^ 4 ≤ recordProb d.flatten 0 {rec | guess (detectionBits d rec) ≠ observableBits d rec} := by
  have hv : HoneycombLayout.Valid ⟨8, 12, 40, "SD6", "V", 1/1000⟩ := by constructor <;> decide
  have hs : HoneycombLayout.Supported ⟨8, 12, 40, "SD6", "V", 1/1000⟩ := by refine ⟨?_, ?_, ?_, ?_⟩ <;> simp
  have hw : HoneycombLayout.worst ⟨8, 12, 40, "SD6", "V", 1/1000⟩ = 1 / 1000 := by rw [worst, if_neg (by decide)]
  obtain ⟨d, hd, h⟩ := c113_distance _ hv hs (by norm_num) (by rw [hw]; norm_num) (by decide)
  refine ⟨d, hd, fun guess => ?_⟩
  have := h guess 0 (fun q => rfl) 4 (by decide)
  rw [hw] at this
  exact this

/-- In "EM3" the distance of the same patch is 4. -/
example : ∃ d, HoneycombLayout.makeCircuit ⟨8, 12, 40, "EM3", "V", 1/1000⟩ = .ok d ∧ ∀ guess : List Bool → List Bool,
    1 / 2 * ENNReal.ofReal (((1 / 1000 : Rat) : ℝ) / 750) ^ 2 ≤ recordProb d.flatten 0 {rec | guess (detectionBits d rec) ≠ observableBits d rec} := by
  have hv : HoneycombLayout.Valid ⟨8, 12, 40, "EM3", "V", 1/1000⟩ := by constructor <;> decide
  have hs : HoneycombLayout.Supported ⟨8, 12, 40, "EM3", "V", 1/1000⟩ := by refine ⟨?_, ?_, ?_, ?_⟩ <;> simp
  have hw : HoneycombLayout.worst ⟨8, 12, 40, "EM3", "V", 1/1000⟩ = 1 / 1000 := by rw [worst, if_neg (by decide)]
  obtain ⟨d, hd, h⟩ := c113_distance _ hv hs (by norm_num) (by rw [hw]; norm_num) (by decide)
  refine ⟨d, hd, fun guess => ?_⟩
  have := h guess 0 (fun q => rfl) 2 (by decide)
  rw [hw] at this
  exact this

end Honeycomb
