import Verif.Props.DetectionData

/-!
# C125: the recorded detection fractions converge

`meanDetections` (`Spec/Detections.lean`), `independent` (`Spec/Repeat.lean`).
-/

namespace Honeycomb
open scoped ENNReal

theorem mean_smul {α : Type} (D : PMF α) (c : ℝ≥0∞) (f : α → ℝ≥0∞) : mean D (fun x => c * f x) = c * mean D f := by
  rw [mul_comm, ← mean_mul_const]
  exact congrArg _ (funext fun x => mul_comm _ _)

/-- The second moment of a sum over independent samples. -/
theorem mean_square {α : Type} (D : PMF α) (f : α → Nat) : ∀ n : Nat,
    mean (independent D n) (fun l => ((l.map f).sum : ℝ≥0∞) ^ 2) + n * (mean D fun x => (f x : ℝ≥0∞)) ^ 2 =
      n * (mean D fun x => (f x : ℝ≥0∞) ^ 2) + n ^ 2 * (mean D fun x => (f x : ℝ≥0∞)) ^ 2
  | 0 => by
    rw [independent, mean_pure]
    simp
  | n + 1 => by
    have ih := mean_square D f n
    set μ := mean D fun x => (f x : ℝ≥0∞) with hμ
    set m := mean D fun x => (f x : ℝ≥0∞) ^ 2 with hm
    set E := mean (independent D n) (fun l => ((l.map f).sum : ℝ≥0∞) ^ 2) with hE
    have e : ∀ x, mean ((independent D n).map (x :: ·)) (fun l => ((l.map f).sum : ℝ≥0∞) ^ 2) = (f x : ℝ≥0∞) ^ 2 + (2 * (n * μ) * (f x : ℝ≥0∞) + E) := fun x => by
      rw [mean_map]
      have e2 : (fun l : List α => (((x :: l).map f).sum : ℝ≥0∞) ^ 2) = fun l => (f x : ℝ≥0∞) ^ 2 + (2 * (f x : ℝ≥0∞) * ((l.map f).sum : ℝ≥0∞) + ((l.map f).sum : ℝ≥0∞) ^ 2) :=
        funext fun l => by
          rw [List.map_cons, List.sum_cons, Nat.cast_add]
          ring
      rw [e2, mean_add, mean_const, mean_add, mean_smul, mean_total]
      ring
    rw [independent, mean_bind]
    simp only [e]
    rw [mean_add, mean_add, mean_smul, mean_const, ← hm, ← hμ]
    calc m + (2 * (n * μ) * μ + E) + ((n + 1 : Nat) : ℝ≥0∞) * μ ^ 2 = m + 2 * n * μ ^ 2 + μ ^ 2 + (E + n * μ ^ 2) := by
          push_cast
          ring
      _ = _ := by
          rw [ih]
          push_cast
          ring

/-- Markov's inequality. -/
theorem prob_mul_le_mean {α : Type} (D : PMF α) (s : Set α) (c : ℝ≥0∞) (g : α → ℝ≥0∞) (h : ∀ x ∈ D.support, x ∈ s → c ≤ g x) : D.toOuterMeasure s * c ≤ mean D g := by
  classical
  rw [PMF.toOuterMeasure_apply, ← ENNReal.tsum_mul_right]
  refine ENNReal.tsum_le_tsum fun x => ?_
  by_cases hx : x ∈ s
  · rw [Set.indicator_of_mem hx]
    by_cases h0 : D x = 0
    · simp [h0]
    · gcongr
      exact h x ((PMF.mem_support_iff _ _).2 h0) hx
  · simp [Set.indicator_of_notMem hx]

/-- The mean squared deviation of a sum over independent samples. -/
theorem mean_deviation {α : Type} (D : PMF α) (f : α → Nat) (B : Nat) (hB : ∀ x, f x ≤ B) (n : Nat) :
    mean (independent D n) (fun l => ENNReal.ofReal ((((l.map f).sum : ℝ) - n * (mean D fun x => (f x : ℝ≥0∞)).toReal) ^ 2)) ≤ n * (B : ℝ≥0∞) ^ 2 := by
  set μ := mean D fun x => (f x : ℝ≥0∞) with hμ
  have hle : μ ≤ B := by
    rw [← mean_const D (B : ℝ≥0∞)]
    exact mean_le fun x _ => by exact_mod_cast hB x
  have htop : μ ≠ ⊤ := (hle.trans_lt (ENNReal.natCast_lt_top B)).ne
  have hm : (mean D fun x => (f x : ℝ≥0∞) ^ 2) ≤ (B : ℝ≥0∞) ^ 2 := by
    rw [← mean_const D ((B : ℝ≥0∞) ^ 2)]
    refine mean_le fun x _ => ?_
    gcongr
    exact hB x
  have pt : ∀ l : List α, ENNReal.ofReal ((((l.map f).sum : ℝ) - n * μ.toReal) ^ 2) + 2 * (n * μ) * ((l.map f).sum : ℝ≥0∞) = ((l.map f).sum : ℝ≥0∞) ^ 2 + n ^ 2 * μ ^ 2 := fun l => by
    generalize (l.map f).sum = S
    have h0 : 0 ≤ μ.toReal := ENNReal.toReal_nonneg
    obtain ⟨r, hr⟩ : ∃ r, r = μ.toReal := ⟨_, rfl⟩
    have e : μ = ENNReal.ofReal r := by rw [hr, ENNReal.ofReal_toReal htop]
    rw [← hr] at h0 ⊢
    rw [e, ← ENNReal.ofReal_natCast S, ← ENNReal.ofReal_natCast n, show (2 : ℝ≥0∞) = ENNReal.ofReal 2 by simp]
    rw [← ENNReal.ofReal_mul (by positivity), ← ENNReal.ofReal_mul (by positivity), ← ENNReal.ofReal_mul (by positivity), ← ENNReal.ofReal_add (by positivity) (by positivity),
      ← ENNReal.ofReal_pow (by positivity), ← ENNReal.ofReal_pow (by positivity), ← ENNReal.ofReal_pow (by positivity), ← ENNReal.ofReal_mul (by positivity),
      ← ENNReal.ofReal_add (by positivity) (by positivity)]
    congr 1
    ring
  have hs := congrArg (mean (independent D n)) (funext pt)
  rw [mean_add, mean_smul, mean_total, mean_add, mean_const, ← hμ] at hs
  have h2 := mean_square D f n
  rw [← hμ] at h2
  set E := mean (independent D n) fun l => ENNReal.ofReal ((((l.map f).sum : ℝ) - n * μ.toReal) ^ 2)
  set Q := mean (independent D n) fun l => ((l.map f).sum : ℝ≥0∞) ^ 2
  set m := mean D fun x => (f x : ℝ≥0∞) ^ 2
  have hfin : 2 * (n * μ) * (n * μ) ≠ ⊤ :=
    ENNReal.mul_ne_top (ENNReal.mul_ne_top (by simp) (ENNReal.mul_ne_top (ENNReal.natCast_ne_top n) htop)) (ENNReal.mul_ne_top (ENNReal.natCast_ne_top n) htop)
  have key : E + n * μ ^ 2 + 2 * (n * μ) * (n * μ) = n * m + 2 * (n * μ) * (n * μ) := by
    calc E + n * μ ^ 2 + 2 * (n * μ) * (n * μ) = (E + 2 * (n * μ) * (n * μ)) + n * μ ^ 2 := by ring
      _ = (Q + n * μ ^ 2) + n ^ 2 * μ ^ 2 := by
          rw [hs]
          ring
      _ = _ := by
          rw [h2]
          ring
  have key2 := (ENNReal.add_left_inj hfin).1 key
  calc E ≤ E + n * μ ^ 2 := le_self_add
    _ = n * m := key2
    _ ≤ _ := by gcongr

/-- C125: the fraction that `collect_detection_fraction_data` records for `n` independent shots differs from the true one by `ε` or more with probability at most `1 / (n ε^2)`. -/
theorem c125_converges (desc : DecodingProblemDesc) (d : Circuit) (hd : 0 < d.num_detectors) (F : Frame) (n : Nat) (hn : 0 < n) (seconds : Rat) (ε : ℝ) (hε : 0 < ε) :
    (independent ((sampleCircuit d.flatten F).map Prod.fst) n).toOuterMeasure {recs |
      ε ≤ |(((detectionRecord desc ⟨d.num_detectors, recs.map (detectionBits d), seconds⟩).2.logical_error_rate : Rat) : ℝ) - (meanDetections d F).toReal / d.num_detectors|} ≤
      ENNReal.ofReal (1 / (n * ε ^ 2)) := by
  set P := (sampleCircuit d.flatten F).map Prod.fst with hP
  set f : List (ZMod 2) → Nat := fun rec => (detectionBits d rec).count true with hf
  have hmean : meanDetections d F = mean P fun rec => (f rec : ℝ≥0∞) := rfl
  have hn' : (0 : ℝ) < n := by exact_mod_cast hn
  have hd' : (0 : ℝ) < d.num_detectors := by exact_mod_cast hd
  have hdev := mean_deviation P f d.num_detectors (fun rec => (List.count_le_length).trans (detectionBits_length d rec).le) n
  rw [← hmean] at hdev
  have hc : (0 : ℝ) < (n * d.num_detectors * ε) ^ 2 := by positivity
  have h := prob_mul_le_mean (independent P n) {recs |
      ε ≤ |(((detectionRecord desc ⟨d.num_detectors, recs.map (detectionBits d), seconds⟩).2.logical_error_rate : Rat) : ℝ) - (meanDetections d F).toReal / d.num_detectors|}
      (ENNReal.ofReal ((n * d.num_detectors * ε) ^ 2)) (fun l => ENNReal.ofReal ((((l.map f).sum : ℝ) - n * (meanDetections d F).toReal) ^ 2)) fun recs hr hbad => by
    have hlen := independent_length _ n hr
    have hpos : 0 < (recs.map (detectionBits d)).length * d.num_detectors := by
      rw [List.length_map, hlen]
      exact Nat.mul_pos hn hd
    rw [Set.mem_setOf_eq, (c56_record desc ⟨d.num_detectors, recs.map (detectionBits d), seconds⟩ fun r hr => by
      obtain ⟨rec, -, rfl⟩ := List.mem_map.1 hr
      exact detectionBits_length d rec).2.2.2 hpos] at hbad
    rw [List.length_map, hlen] at hbad
    simp only [List.map_map, Function.comp_def] at hbad
    refine ENNReal.ofReal_le_ofReal ?_
    rw [← sq_abs ((((recs.map f).sum : Nat) : ℝ) - _)]
    refine pow_le_pow_left₀ (by positivity) ?_ 2
    have e : (((recs.map f).sum : Nat) : ℝ) - n * (meanDetections d F).toReal =
        n * d.num_detectors * ((((((recs.map f).sum : Nat) : Rat) / ((n * d.num_detectors : Nat) : Rat) : Rat) : ℝ) - (meanDetections d F).toReal / d.num_detectors) := by
      generalize (recs.map f).sum = S
      push_cast
      field_simp
    rw [e, abs_mul, abs_of_pos (show (0 : ℝ) < n * d.num_detectors by positivity)]
    exact mul_le_mul_of_nonneg_left hbad (by positivity)
  have h2 := h.trans hdev
  have e : ENNReal.ofReal (1 / (n * ε ^ 2)) = n * (d.num_detectors : ℝ≥0∞) ^ 2 / ENNReal.ofReal ((n * d.num_detectors * ε) ^ 2) := by
    rw [← ENNReal.ofReal_natCast n, ← ENNReal.ofReal_natCast d.num_detectors, ← ENNReal.ofReal_pow hd'.le, ← ENNReal.ofReal_mul hn'.le, ← ENNReal.ofReal_div_of_pos hc]
    congr 1
    field_simp
  rw [e]
  exact (ENNReal.le_div_iff_mul_le (.inl (ENNReal.ofReal_pos.2 hc).ne') (.inl ENNReal.ofReal_ne_top)).2 h2

/-! ## Examples -/

/-- The hypotheses of C125: in a million shots of a "PC3" patch the recorded fraction is off by `1 / 100` with probability at most `1 / 100`. -/
example : ∃ d, HoneycombLayout.makeCircuit ⟨4, 6, 40, "PC3", "H", 1/1000⟩ = .ok d ∧ ∀ desc : DecodingProblemDesc,
    (independent ((sampleCircuit d.flatten 0).map Prod.fst) 1000000).toOuterMeasure {recs |
      1 / 100 ≤ |(((detectionRecord desc ⟨d.num_detectors, recs.map (detectionBits d), 1⟩).2.logical_error_rate : Rat) : ℝ) - (meanDetections d 0).toReal / d.num_detectors|} ≤
      ENNReal.ofReal (1 / 100) := by
  obtain ⟨d, hd, hnum⟩ := c22_detectors ⟨4, 6, 40, "PC3", "H", 1/1000⟩ (by constructor <;> decide) (by refine ⟨?_, ?_, ?_, ?_⟩ <;> simp)
  have hpos : 0 < d.num_detectors := by
    norm_num at hnum
    omega
  refine ⟨d, hd, fun desc => (c125_converges desc d hpos 0 1000000 (by norm_num) 1 (1 / 100) (by norm_num)).trans (ENNReal.ofReal_le_ofReal ?_)⟩
  norm_num

end Honeycomb
