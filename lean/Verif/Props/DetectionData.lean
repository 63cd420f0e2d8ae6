import Verif.Props.DetectionFraction
import Verif.Props.Coverage
import Verif.Props.ShotData
import Verif.Lemmas.Adaptive

/-!
# C118: the recorded detection fractions

`meanDetections` (`Spec/Detections.lean`), `independent` (`Spec/Repeat.lean`).
-/

namespace Honeycomb
open HoneycombLayout
open scoped ENNReal

/-- The mean of a sum over independent samples. -/
theorem mean_total {α : Type} (D : PMF α) (f : α → Nat) : ∀ n, mean (independent D n) (fun l => ((l.map f).sum : ℝ≥0∞)) = n * mean D fun x => (f x : ℝ≥0∞)
  | 0 => by
    rw [independent, mean_pure]
    simp
  | n + 1 => by
    rw [independent, mean_bind]
    have e : ∀ x, mean ((independent D n).map (x :: ·)) (fun l => ((l.map f).sum : ℝ≥0∞)) = (f x : ℝ≥0∞) + n * mean D fun x => (f x : ℝ≥0∞) := fun x => by
      rw [mean_map, ← mean_total D f n, ← mean_const (independent D n) (f x : ℝ≥0∞), ← mean_add]
      refine congrArg _ (funext fun l => ?_)
      rw [List.map_cons, List.sum_cons, Nat.cast_add]
    simp only [e]
    rw [mean_add, mean_const, Nat.cast_add, Nat.cast_one, _root_.add_mul, one_mul, add_comm]

/-- C118: the mean of the fraction recorded by `collect_detection_fraction_data` is the mean number of detectors that fire in a shot, divided by the number of detectors. -/
theorem c118_mean (desc : DecodingProblemDesc) (d : Circuit) (hd : 0 < d.num_detectors) (F : Frame) (n : Nat) (hn : 0 < n) (seconds : Rat) :
    ∑' recs, independent ((sampleCircuit d.flatten F).map Prod.fst) n recs *
      ENNReal.ofReal (((detectionRecord desc ⟨d.num_detectors, recs.map (detectionBits d), seconds⟩).2.logical_error_rate : Rat) : ℝ) =
      meanDetections d F / d.num_detectors := by
  have e : ∀ recs ∈ (independent ((sampleCircuit d.flatten F).map Prod.fst) n).support,
      ENNReal.ofReal (((detectionRecord desc ⟨d.num_detectors, recs.map (detectionBits d), seconds⟩).2.logical_error_rate : Rat) : ℝ) =
        ((recs.map fun rec => (detectionBits d rec).count true).sum : ℝ≥0∞) * ((n : ℝ≥0∞) * (d.num_detectors : ℝ≥0∞))⁻¹ := fun recs hr => by
    have hlen := independent_length _ n hr
    have hpos : 0 < (recs.map (detectionBits d)).length * d.num_detectors := by
      rw [List.length_map, hlen]
      exact Nat.mul_pos hn hd
    rw [(c56_record desc ⟨d.num_detectors, recs.map (detectionBits d), seconds⟩ fun r hr => by
      obtain ⟨rec, -, rfl⟩ := List.mem_map.1 hr
      exact detectionBits_length d rec).2.2.2 hpos]
    rw [List.length_map, hlen] at *
    simp only [List.map_map, Function.comp_def]
    have hnd : (0 : ℝ) < ((n * d.num_detectors : Nat) : ℝ) := by exact_mod_cast hpos
    rw [Rat.cast_div, Rat.cast_natCast, Rat.cast_natCast, ENNReal.ofReal_div_of_pos hnd, ENNReal.ofReal_natCast, ENNReal.ofReal_natCast, Nat.cast_mul, div_eq_mul_inv]
  have h := mean_congr e
  rw [mean_mul_const, mean_total] at h
  refine h.trans ?_
  have hn0 : (n : ℝ≥0∞) ≠ 0 := by exact_mod_cast hn.ne'
  rw [ENNReal.mul_inv (.inl hn0) (.inl (ENNReal.natCast_ne_top n)), mul_mul_mul_comm, ENNReal.mul_inv_cancel hn0 (ENNReal.natCast_ne_top n), one_mul]
  rfl

/-- C118: so for generated circuits the mean of the recorded fraction is proportional to the noise, whatever the size of the patch, the duration and the number of shots. -/
theorem c118_fraction : ∃ C : Nat, ∀ lay : HoneycombLayout, lay.Valid → lay.Supported → 0 < lay.noise → lay.worst ≤ 1 / 2 → ∃ d, lay.makeCircuit = .ok d ∧
    ∀ F, StartFrame F → ∀ (desc : DecodingProblemDesc) (n : Nat), 0 < n → ∀ seconds : Rat,
      ENNReal.ofReal (lay.worst / 1500) ≤ ∑' recs, independent ((sampleCircuit d.flatten F).map Prod.fst) n recs *
        ENNReal.ofReal (((detectionRecord desc ⟨d.num_detectors, recs.map (detectionBits d), seconds⟩).2.logical_error_rate : Rat) : ℝ) ∧
      ∑' recs, independent ((sampleCircuit d.flatten F).map Prod.fst) n recs *
        ENNReal.ofReal (((detectionRecord desc ⟨d.num_detectors, recs.map (detectionBits d), seconds⟩).2.logical_error_rate : Rat) : ℝ) ≤
        C * ENNReal.ofReal lay.worst := by
  obtain ⟨C, h⟩ := c114_fraction
  refine ⟨C, fun lay hv hs hp0 hw => ?_⟩
  obtain ⟨d, hd, h⟩ := h lay hv hs hp0 hw
  obtain ⟨d', hd', hnum⟩ := c22_detectors lay hv hs
  obtain rfl := Except.ok.inj (hd.symm.trans hd')
  have hpos : 0 < d.num_detectors := by
    have h1 := hs.2.2.1
    have h6 : 1 ≤ lay.data_width * lay.data_height / 6 := by
      have hw0 := hv.width_pos
      have hh0 := hv.height_pos
      have hh6 := hv.height_six
      rw [Int.le_ediv_iff_mul_le (by norm_num)]
      nlinarith [mul_le_mul (show 1 ≤ lay.data_width by omega) (show 6 ≤ lay.data_height by omega) (by norm_num) (by omega)]
    have h7 : 1 ≤ (if lay.obs = "V" then lay.sub_rounds + (if lay.sub_rounds % 2 = 0 then 2 else 0) + (if lay.sub_rounds < 3 then 1 else 0) else
        lay.sub_rounds + (if lay.sub_rounds % 2 = 0 then 2 else 4) + (if lay.sub_rounds < 4 then 1 else 0) + (if lay.sub_rounds < 2 then 1 else 0)) := by
      split_ifs <;> omega
    have := mul_le_mul h6 h7 (by norm_num) (by omega)
    rw [← hnum] at this
    omega
  refine ⟨d, hd, fun F hF desc n hn seconds => ?_⟩
  rw [c118_mean desc d hpos F n hn seconds]
  obtain ⟨b1, b2⟩ := h F hF
  have hz : (d.num_detectors : ℝ≥0∞) ≠ 0 := by exact_mod_cast hpos.ne'
  have ht : (d.num_detectors : ℝ≥0∞) ≠ ⊤ := ENNReal.natCast_ne_top _
  rw [mul_comm] at b1 b2
  exact ⟨(ENNReal.le_div_iff_mul_le (.inl hz) (.inl ht)).2 b1, (ENNReal.div_le_iff hz ht).2 (by rw [mul_comm] at b2 ⊢; exact b2)⟩

/-! ## Examples -/

/-- The hypotheses of C118: from 100 shots of any "PC3" patch the fraction recorded is, on average, at least `1 / 1500000` at noise `1 / 1000`. -/
example (k : Nat) (hk : 0 < k) : ∃ d, HoneycombLayout.makeCircuit ⟨4 * k, 6 * k, 40 * k, "PC3", "H", 1/1000⟩ = .ok d ∧ ∀ desc : DecodingProblemDesc,
    ENNReal.ofReal (((1 / 1000 : Rat) : ℝ) / 1500) ≤ ∑' recs, independent ((sampleCircuit d.flatten 0).map Prod.fst) 100 recs *
      ENNReal.ofReal (((detectionRecord desc ⟨d.num_detectors, recs.map (detectionBits d), 1⟩).2.logical_error_rate : Rat) : ℝ) := by
  obtain ⟨C, h⟩ := c118_fraction
  have hw : HoneycombLayout.worst ⟨4 * k, 6 * k, 40 * k, "PC3", "H", 1/1000⟩ = 1 / 1000 := by rw [worst, if_neg (by simp)]
  obtain ⟨d, hd, h⟩ := h ⟨4 * k, 6 * k, 40 * k, "PC3", "H", 1/1000⟩ (by constructor <;> dsimp only <;> omega) (by refine ⟨?_, ?_, ?_, ?_⟩ <;> simp <;> omega) (by norm_num) (by rw [hw]; norm_num)
  refine ⟨d, hd, fun desc => ?_⟩
  have := (h 0 (fun q => rfl) desc 100 (by norm_num) 1).1
  rw [hw] at this
  exact this

end Honeycomb
