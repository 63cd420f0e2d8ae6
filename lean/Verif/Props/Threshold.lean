import Verif.Lemmas.SlotSites
import Verif.Props.Charged
import Verif.Props.Sampling
import Mathlib.Analysis.SpecificLimits.Normed

/-!
# C110: the threshold

The probabilities are those of `Verif/Spec/Sampling.lean`. There is a noise strength, the same for all patches and all durations, below which the
probability that a minimum error decoder is wrong falls exponentially with the size of the patch.
-/

namespace Honeycomb
open scoped ENNReal
open HoneycombLayout

theorem threshold_core {lay : HoneycombLayout} {N : Nat} (hv : lay.Valid) (hs : lay.Supported) (hN : lay.sub_rounds = N) {d : Circuit} (hd : lay.makeCircuit = .ok d)
    (hp : lay.noise ≤ 1) {r Δ : Nat} (hr : r = 48) (hΔ : Δ = 2 * ((2 * r + 1) ^ 2 * 25920))
    {guess : List Bool → List Bool} (hg : MinimumErrors d guess) {F : Frame} (hF : StartFrame F)
    {D : Nat} (hdist : ∀ (n : Nat) rec, CanSample n d.flatten rec → (∀ v ∈ detectorValues d.flatten rec, v = some 0) →
      observableValue lay.obsI d.flatten rec ≠ some 0 → D ≤ n)
    (hy : (2 * Δ : ℝ≥0∞) ^ 4 * ENNReal.ofReal lay.worst ≤ 1 / 2) :
    recordProb d.flatten F {rec | guess (detectionBits d rec) ≠ observableBits d rec} ≤
      8 * (d.flatten.map Instr.slots).sum * ((2 * Δ : ℝ≥0∞) ^ 4 * ENNReal.ofReal lay.worst) ^ ((D + 1) / 2) := by
  classical
  rw [recordProb, PMF.toOuterMeasure_map_apply]
  refine union_walks (nb := fun a => (Finset.range (d.flatten.map Instr.slots).sum).filter fun b => Share d.flatten a b)
    (cover_circuit _ F fun i hi h => (chance_le hv hs hp hd i hi h).2) (by rw [hΔ]; exact Nat.mul_pos two_pos (Nat.mul_pos (by positivity) (by norm_num)))
    (fun a => hΔ ▸ share_bound hv hs hN hd hr a _) hy fun x hx hsup => ?_
  obtain ⟨G, hG⟩ := sampleCircuit_placed _ hsup
  obtain ⟨c, hc, w, h1, h2, h3, h4, h5⟩ := failed_walk hv hs hd hg hdist (R := Share d.flatten) (fun a b h => h.symm)
    (fun a b ra rb j ha hb h h' => ⟨ra, rb, j, ha, hb, h, h'⟩) (trues_nodup x.2) ⟨F, G, hF, hG⟩ hx
  refine ⟨c, hc, w, ?_, h2, h3, fun a ha => mem_trues.1 (h4 a ha), h5⟩
  refine List.IsChain.imp_of_mem_imp (fun a b ha hb h => ?_) h1
  exact Finset.mem_filter.2 ⟨Finset.mem_range.2 (h3 b hb), h⟩

theorem threshold_of {style : HoneycombLayout → Prop} {need : HoneycombLayout → Int → Prop}
    (hdist : ∀ lay : HoneycombLayout, lay.Valid → lay.Supported → style lay → ∃ d, lay.makeCircuit = .ok d ∧ ∀ (n : Nat) rec, CanSample n d.flatten rec →
      (∀ v ∈ detectorValues d.flatten rec, v = some 0) → observableValue (if lay.obs = "V" then 0 else 1) d.flatten rec ≠ some 0 →
        ∀ k : Nat, need lay k → 2 * k - 1 ≤ n) {r Δ : Nat} (hr : r = 48) (hΔ : Δ = 2 * ((2 * r + 1) ^ 2 * 25920)) (lay : HoneycombLayout) (hv : lay.Valid) (hs : lay.Supported)
    (hst : style lay) (hw : 2 * (lay.worst : ℝ) ≤ 1 / (2 * Δ : ℝ) ^ 4) :
    ∃ d, lay.makeCircuit = .ok d ∧ ∀ guess, MinimumErrors d guess → ∀ F, StartFrame F → ∀ k : Nat, need lay k →
      recordProb d.flatten F {rec | guess (detectionBits d rec) ≠ observableBits d rec} ≤
        25920 * lay.sub_rounds.toNat * lay.num_qubits.toNat * ENNReal.ofReal (lay.worst / (1 / (2 * Δ : ℝ) ^ 4)) ^ k := by
  obtain ⟨N, hN⟩ := Int.eq_ofNat_of_zero_le (show 0 ≤ lay.sub_rounds by have := hs.2.2.1; omega)
  obtain ⟨d, hd, h⟩ := hdist lay hv hs hst
  have hΔ1 : (1 : ℝ) ≤ Δ := by
    have : 1 ≤ Δ := by rw [hΔ]; exact Nat.mul_pos two_pos (Nat.mul_pos (by positivity) (by norm_num))
    exact_mod_cast this
  have hK : (1 : ℝ) ≤ (2 * Δ : ℝ) ^ 4 := one_le_pow₀ (by linarith)
  have hp : lay.noise ≤ 1 := by
    have h1 : (2 * lay.worst : ℝ) ≤ 1 := hw.trans ((div_le_one (by positivity)).2 hK)
    have h2 : 2 * lay.worst ≤ 1 := by exact_mod_cast h1
    rw [worst] at h2
    split_ifs at h2 <;> linarith
  have e : (2 * Δ : ℝ≥0∞) ^ 4 * ENNReal.ofReal lay.worst = ENNReal.ofReal (lay.worst / (1 / (2 * Δ : ℝ) ^ 4)) := by
    rw [div_div_eq_mul_div, div_one, mul_comm (lay.worst : ℝ), ENNReal.ofReal_mul (by positivity), ENNReal.ofReal_pow (by positivity), ENNReal.ofReal_mul two_pos.le,
      ENNReal.ofReal_natCast, ENNReal.ofReal_ofNat]
  refine ⟨d, hd, fun guess hg F hF k hk => ?_⟩
  have hy : (2 * Δ : ℝ≥0∞) ^ 4 * ENNReal.ofReal lay.worst ≤ 1 / 2 := by
    rw [e, show (1 / 2 : ℝ≥0∞) = ENNReal.ofReal (1 / 2) by rw [ENNReal.ofReal_div_of_pos two_pos]; simp]
    refine ENNReal.ofReal_le_ofReal ?_
    rw [div_le_iff₀ (by positivity)]
    linarith
  have hmain := threshold_core hv hs hN hd hp hr hΔ hg hF (D := 2 * k - 1)
    (fun n rec h1 h2 h3 => h n rec h1 h2 h3 k hk) hy
  rw [e, show (2 * k - 1 + 1) / 2 = k by omega] at hmain
  refine hmain.trans (mul_le_mul_left ?_ _)
  have h1 := slots_le hv hs hN hd
  have h2 : N + 2 ≤ 3 * N := by have := hs.2.2.1; omega
  have h3 : 8 * (d.flatten.map Instr.slots).sum ≤ 25920 * lay.sub_rounds.toNat * lay.num_qubits.toNat := by
    rw [hN, Int.toNat_natCast]
    calc 8 * (d.flatten.map Instr.slots).sum ≤ 8 * (lay.num_qubits.toNat * (1080 * (3 * N))) :=
          Nat.mul_le_mul_left _ (h1.trans (Nat.mul_le_mul_left _ (Nat.mul_le_mul_left _ h2)))
      _ = _ := by ring
  exact_mod_cast h3

/-- C110: the threshold. There are a noise strength `p₀` and a constant `C` such that for every patch and every number of sub-rounds, if the largest
error probability `worst` is at most half of `p₀`, the probability that a minimum error decoder fails is at most
`C * sub_rounds * num_qubits * (worst / p₀) ^ k`, where `k` is a quarter of `data_width` ("V"), a sixth of `data_height` ("H"), rounded up. -/
theorem c110_threshold : ∃ p₀ : ℝ, 0 < p₀ ∧ ∃ C : Nat, ∀ lay : HoneycombLayout, lay.Valid → lay.Supported → 2 * (lay.worst : ℝ) ≤ p₀ →
    ∃ d, lay.makeCircuit = .ok d ∧ ∀ guess, MinimumErrors d guess → ∀ F, StartFrame F → ∀ k : Nat,
      (k : Int) = (if lay.obs = "V" then (lay.data_width + 3) / 4 else (lay.data_height + 5) / 6) →
      recordProb d.flatten F {rec | guess (detectionBits d rec) ≠ observableBits d rec} ≤
        C * lay.sub_rounds.toNat * lay.num_qubits.toNat * ENNReal.ofReal (lay.worst / p₀) ^ k := by
  obtain ⟨r, hr⟩ : ∃ r : Nat, r = 48 := ⟨_, rfl⟩
  obtain ⟨Δ, hΔ⟩ : ∃ Δ : Nat, Δ = 2 * ((2 * r + 1) ^ 2 * 25920) := ⟨_, rfl⟩
  refine ⟨1 / (2 * Δ : ℝ) ^ 4, ?_, 25920, fun lay hv hs hw => ?_⟩
  · have : 0 < Δ := by rw [hΔ]; exact Nat.mul_pos two_pos (Nat.mul_pos (by positivity) (by norm_num))
    positivity
  · refine threshold_of (style := fun _ => True)
      (need := fun lay k => k = (if lay.obs = "V" then (lay.data_width + 3) / 4 else (lay.data_height + 5) / 6)) (fun lay hv hs _ => ?_) hr hΔ lay hv hs trivial hw
    obtain ⟨d, hd, h⟩ := c76_observable_distance lay hv hs
    refine ⟨d, hd, fun n rec h1 h2 h3 k hk => ?_⟩
    have := h n rec h1 h2 h3
    split_ifs at hk this <;> omega

/-- C110: in the styles with ancillas `k` is half of `data_width` ("V"), a quarter of `data_height` ("H"), rounded up. -/
theorem c110_threshold_ancillas : ∃ p₀ : ℝ, 0 < p₀ ∧ ∃ C : Nat, ∀ lay : HoneycombLayout, lay.Valid → lay.Supported → lay.style ∈ ["SD6", "PC3", "SI1000"] →
    2 * (lay.worst : ℝ) ≤ p₀ → ∃ d, lay.makeCircuit = .ok d ∧ ∀ guess, MinimumErrors d guess → ∀ F, StartFrame F → ∀ k : Nat,
      (k : Int) = (if lay.obs = "V" then (lay.data_width + 1) / 2 else (lay.data_height + 3) / 4) →
      recordProb d.flatten F {rec | guess (detectionBits d rec) ≠ observableBits d rec} ≤
        C * lay.sub_rounds.toNat * lay.num_qubits.toNat * ENNReal.ofReal (lay.worst / p₀) ^ k := by
  obtain ⟨r, hr⟩ : ∃ r : Nat, r = 48 := ⟨_, rfl⟩
  obtain ⟨Δ, hΔ⟩ : ∃ Δ : Nat, Δ = 2 * ((2 * r + 1) ^ 2 * 25920) := ⟨_, rfl⟩
  refine ⟨1 / (2 * Δ : ℝ) ^ 4, ?_, 25920, fun lay hv hs hst hw => ?_⟩
  · have : 0 < Δ := by rw [hΔ]; exact Nat.mul_pos two_pos (Nat.mul_pos (by positivity) (by norm_num))
    positivity
  · refine threshold_of (style := fun lay => lay.style ∈ ["SD6", "PC3", "SI1000"])
      (need := fun lay k => k = (if lay.obs = "V" then (lay.data_width + 1) / 2 else (lay.data_height + 3) / 4)) (fun lay hv hs hst => ?_) hr hΔ lay hv hs hst hw
    obtain ⟨d, hd, h⟩ := c85_observable_distance lay hv hs hst
    refine ⟨d, hd, fun n rec h1 h2 h3 k hk => ?_⟩
    have := h n rec h1 h2 h3
    split_ifs at hk this <;> omega

theorem poly_small (C e : Nat) {ε : ℝ} (hε : 0 < ε) : ∃ K : Nat, ∀ k, K ≤ k → C * (6 * k : ℝ) ^ e * (1 / 2) ^ k ≤ ε := by
  have h := (tendsto_pow_const_mul_const_pow_of_lt_one e (r := 1 / 2) (by norm_num) (by norm_num)).const_mul ((C : ℝ) * 6 ^ e)
  rw [mul_zero] at h
  obtain ⟨K, hK⟩ := Filter.eventually_atTop.1 (h.eventually (gt_mem_nhds hε))
  refine ⟨K, fun k hk => le_of_eq_of_le ?_ (hK k hk).le⟩
  rw [mul_pow]
  ring

/-- C110: below the threshold large patches are reliable. For every polynomial there is a size from which on the probability that a minimum error
decoder fails is as small as one likes, if only the number of qubits times the number of sub-rounds is at most this polynomial of the size:
`data_width` ("V"), `data_height` ("H"). -/
theorem c110_reliable : ∃ p₀ : ℝ, 0 < p₀ ∧ ∀ (e : Nat) (ε : ℝ), 0 < ε → ∃ L : Int, ∀ lay : HoneycombLayout, lay.Valid → lay.Supported →
    lay.worst ≤ p₀ → ∀ size, size = (if lay.obs = "V" then lay.data_width else lay.data_height) → L ≤ size → lay.sub_rounds * lay.num_qubits ≤ size ^ e →
    ∃ d, lay.makeCircuit = .ok d ∧ ∀ guess, MinimumErrors d guess → ∀ F, StartFrame F →
      recordProb d.flatten F {rec | guess (detectionBits d rec) ≠ observableBits d rec} ≤ ENNReal.ofReal ε := by
  obtain ⟨p₀, h0, C, h⟩ := c110_threshold
  refine ⟨p₀ / 2, by positivity, fun e ε hε => ?_⟩
  obtain ⟨K, hK⟩ := poly_small C e hε
  refine ⟨6 * K, fun lay hv hs hw size hsize hL hpoly => ?_⟩
  obtain ⟨d, hd, h⟩ := h lay hv hs (by linarith)
  refine ⟨d, hd, fun guess hg F hF => ?_⟩
  have hwp := hv.width_pos
  have hhp := hv.height_pos
  have hk0 : 0 ≤ (if lay.obs = "V" then (lay.data_width + 3) / 4 else (lay.data_height + 5) / 6) := by split_ifs <;> omega
  obtain ⟨k, hk⟩ := Int.eq_ofNat_of_zero_le hk0
  refine (h guess hg F hF k hk.symm).trans ?_
  have hsk : size ≤ 6 * k ∧ (K : Int) ≤ k ∧ 0 ≤ size := by
    split_ifs at hk hsize <;> omega
  have hvol : ((lay.sub_rounds.toNat * lay.num_qubits.toNat : Nat) : ℝ) ≤ (6 * k : ℝ) ^ e := by
    obtain ⟨N, hN⟩ := Int.eq_ofNat_of_zero_le (show 0 ≤ lay.sub_rounds by have := hs.2.2.1; omega)
    have hq : 0 ≤ lay.num_qubits := by
      have := mul_nonneg hwp.le hhp.le
      rw [num_qubits]
      split_ifs
      · exact this
      · exact Int.tdiv_nonneg (by omega) (by norm_num)
    have h1 : ((lay.sub_rounds.toNat * lay.num_qubits.toNat : Nat) : Int) ≤ (6 * k : Int) ^ e := by
      rw [Nat.cast_mul, Int.toNat_of_nonneg (by omega), Int.toNat_of_nonneg hq]
      exact hpoly.trans (pow_le_pow_left₀ hsk.2.2 hsk.1 e)
    exact_mod_cast h1
  have hx : ENNReal.ofReal (lay.worst / p₀) ≤ ENNReal.ofReal (1 / 2) := by
    refine ENNReal.ofReal_le_ofReal ?_
    rw [div_le_iff₀ h0]
    linarith
  calc (C : ℝ≥0∞) * lay.sub_rounds.toNat * lay.num_qubits.toNat * ENNReal.ofReal (lay.worst / p₀) ^ k
      ≤ C * lay.sub_rounds.toNat * lay.num_qubits.toNat * ENNReal.ofReal (1 / 2) ^ k := by gcongr
    _ = ENNReal.ofReal (C * ((lay.sub_rounds.toNat * lay.num_qubits.toNat : Nat) : ℝ) * (1 / 2) ^ k) := by
        rw [ENNReal.ofReal_mul (by positivity), ENNReal.ofReal_mul (by positivity), ENNReal.ofReal_pow (by norm_num), ENNReal.ofReal_natCast, ENNReal.ofReal_natCast]
        push_cast
        ring
    _ ≤ ENNReal.ofReal ε := ENNReal.ofReal_le_ofReal ((mul_le_mul_of_nonneg_right (mul_le_mul_of_nonneg_left hvol (by positivity)) (by positivity)).trans
        (hK k (by exact_mod_cast hsk.2.1)))

/-! ## Example -/

/-- The hypotheses of C110: whatever the threshold, there are arbitrarily large "SD6" patches with noise below it, with as many sub-rounds as the patch
is wide, and the volume of the experiment is a polynomial of the size. -/
example (p₀ : ℝ) (h : 0 < p₀) (n : Nat) : ∃ lay : HoneycombLayout, lay.Valid ∧ lay.Supported ∧ lay.style ∈ ["SD6", "PC3", "SI1000"] ∧ 0 < lay.noise ∧
    2 * (lay.worst : ℝ) ≤ p₀ ∧ n ≤ lay.data_width ∧ lay.sub_rounds = lay.data_width ∧ lay.obs = "V" ∧ lay.sub_rounds * lay.num_qubits ≤ lay.data_width ^ 4 := by
  obtain ⟨p, h1, h2⟩ := exists_rat_btwn (half_pos h)
  refine ⟨⟨6 * (n + 1), 6 * (n + 1), 6 * (n + 1), "SD6", "V", p⟩, ?_, ?_, by simp, by exact_mod_cast h1, ?_, ?_, rfl, rfl, ?_⟩
  · constructor <;> simp only <;> omega
  · refine ⟨by simp, by simp, ?_, by simp⟩
    simp only
    omega
  · simp only [worst]
    simp
    linarith
  · simp only
    omega
  · rw [num_qubits, if_neg (by simp [isEM3])]
    have hn : (0 : Int) ≤ n := by positivity
    have : (6 * ((n : Int) + 1) * (6 * (n + 1)) * 5).tdiv 2 ≤ 6 * (n + 1) * (6 * (n + 1)) * 5 := Int.tdiv_le_self _ (by positivity)
    refine (mul_le_mul_of_nonneg_left this (by positivity)).trans ?_
    simp only
    have h6 : (5 : Int) ≤ 6 * (n + 1) := by omega
    generalize 6 * ((n : Int) + 1) = w at h6
    have := mul_le_mul_of_nonneg_left h6 (show 0 ≤ w * (w * w) by positivity)
    nlinarith

/-- The same for "EM3_v2". -/
example (p₀ : ℝ) (h : 0 < p₀) (n : Nat) : ∃ lay : HoneycombLayout, lay.Valid ∧ lay.Supported ∧ lay.style = "EM3_v2" ∧ 0 < lay.noise ∧
    2 * (lay.worst : ℝ) ≤ p₀ ∧ n ≤ lay.data_width ∧ lay.sub_rounds = lay.data_width ∧ lay.obs = "V" ∧ lay.sub_rounds * lay.num_qubits ≤ lay.data_width ^ 3 := by
  obtain ⟨p, h1, h2⟩ := exists_rat_btwn (half_pos h)
  refine ⟨⟨6 * (n + 1), 6 * (n + 1), 6 * (n + 1), "EM3_v2", "V", p⟩, ?_, ?_, rfl, by exact_mod_cast h1, ?_, ?_, rfl, rfl, ?_⟩
  · constructor <;> simp only <;> omega
  · refine ⟨by simp, by simp, ?_, by simp⟩
    simp only
    omega
  · simp only [worst]
    simp
    linarith
  · simp only
    omega
  · rw [num_qubits, if_pos (by simp [isEM3])]
    simp only
    exact le_of_eq (by ring)

end Honeycomb
