import Mathlib.Analysis.SpecialFunctions.Bernstein
import Verif.Lemmas.Tails
import Verif.Lemmas.Toggle
import Verif.Lemmas.Adaptive
import Verif.Props.Probability
import Verif.Props.LowerBound
import Verif.Props.Decoding

/-!
# C115, C116: the reported error rates and error bands tell the true error rate

`independent` (`Spec/Repeat.lean`): independent samples. The probabilities of records are those of `Spec/Sampling.lean`.
-/

namespace Honeycomb
open scoped ENNReal

/-- A rate below the lower bound (minus a grid step) has too small a likelihood. -/
theorem below_low {n h low : Nat} (hn : 0 < n) (hle : h ≤ n) {p ratio : ℝ} (hr : 0 < ratio) (hp : 0 ≤ p) (hlow : low ≤ 100 * h)
    (hbest : ∀ k, k ≤ 100 * h →
      gap (lnProb (binomialProb n h ((low : ℝ) / (100 * n)))) (lnProb (binomialProb n h ((h : ℝ) / n)) + ((Real.log ratio : ℝ) : EReal)) ≤
      gap (lnProb (binomialProb n h ((k : ℝ) / (100 * n)))) (lnProb (binomialProb n h ((h : ℝ) / n)) + ((Real.log ratio : ℝ) : EReal)))
    (hlt : p < (low : ℝ) / (100 * n) - 1 / (100 * n)) : p ≤ (h : ℝ) / n ∧ binomialProb n h p ≤ ratio * binomialProb n h ((h : ℝ) / n) := by
  have hn' : (0 : ℝ) < n := by exact_mod_cast hn
  have hle' : (h : ℝ) ≤ n := by exact_mod_cast hle
  have hlow' : (low : ℝ) ≤ 100 * h := by exact_mod_cast hlow
  have hmle := binomialProb_mle hn hle
  have hl1 : 1 ≤ low := by
    by_contra hc
    have : low = 0 := by omega
    rw [this] at hlt
    have : (0 : ℝ) < 1 / (100 * n) := by positivity
    rw [Nat.cast_zero, zero_div] at hlt
    linarith
  obtain ⟨k, rfl⟩ : ∃ k, low = k + 1 := ⟨low - 1, by omega⟩
  have hh : 0 < h := by omega
  have e : (((k + 1 : Nat) : ℝ)) / (100 * n) - 1 / (100 * n) = (k : ℝ) / (100 * n) := by
    push_cast
    ring
  rw [e] at hlt
  have hk : (k : ℝ) / (100 * n) < ((k + 1 : Nat) : ℝ) / (100 * n) := by
    refine div_lt_div_of_pos_right ?_ (by positivity)
    push_cast
    linarith
  have htop : ((k + 1 : Nat) : ℝ) / (100 * n) ≤ (h : ℝ) / n := by
    rw [div_le_div_iff₀ (by positivity) hn']
    nlinarith
  have h1 : (h : ℝ) / n ≤ 1 := (div_le_one hn').2 hle'
  have hp1 : p ≤ 1 := by linarith
  refine ⟨by linarith, lnProb_le hmle hr ?_ (binomialProb_nonneg hp hp1)⟩
  have hpk := lnProb_lt (binomialProb_nonneg hp hp1) (binomialProb_strict hh hle hp hlt (hk.le.trans htop))
  have hk0 : (0 : ℝ) ≤ (k : ℝ) / (100 * n) := by positivity
  have hkk := lnProb_lt (binomialProb_nonneg (n := n) (k := h) hk0 (by linarith)) (binomialProb_strict hh hle hk0 hk htop)
  refine hpk.le.trans ?_
  by_contra hc
  rw [not_le] at hc
  have hb := hbest k (by omega)
  have hT : lnProb (binomialProb n h ((h : ℝ) / n)) + ((Real.log ratio : ℝ) : EReal) = ((Real.log (binomialProb n h ((h : ℝ) / n)) + Real.log ratio : ℝ) : EReal) := by
    rw [lnProb, if_neg hmle.ne', EReal.coe_add]
  rw [hT] at hc hb
  exact absurd hb (not_le.2 (gap_lt hc hkk (lnProb_ne_top _)))

/-- A rate above the upper bound (plus a grid step) has too small a likelihood. -/
theorem above_high {n h high : Nat} (hn : 0 < n) (hle : h ≤ n) {p ratio : ℝ} (hr : 0 < ratio) (hp : p ≤ 1) (hhigh : 100 * h ≤ high) (hhn : high ≤ 100 * n)
    (hbest : ∀ k, 100 * h ≤ k → k ≤ 100 * n →
      gap (lnProb (binomialProb n h ((high : ℝ) / (100 * n)))) (lnProb (binomialProb n h ((h : ℝ) / n)) + ((Real.log ratio : ℝ) : EReal)) ≤
      gap (lnProb (binomialProb n h ((k : ℝ) / (100 * n)))) (lnProb (binomialProb n h ((h : ℝ) / n)) + ((Real.log ratio : ℝ) : EReal)))
    (hlt : (high : ℝ) / (100 * n) + 1 / (100 * n) < p) : (h : ℝ) / n ≤ p ∧ binomialProb n h p ≤ ratio * binomialProb n h ((h : ℝ) / n) := by
  have hn' : (n : ℝ) ≠ 0 := by exact_mod_cast hn.ne'
  -- the mirror image
  have c1 : ∀ k : Nat, k ≤ 100 * n → ((100 * n - k : Nat) : ℝ) / (100 * n) = 1 - (k : ℝ) / (100 * n) := fun k hk => by
    rw [Nat.cast_sub hk]
    push_cast
    rw [sub_div, div_self (by simpa using hn')]
  have c2 : ((n - h : Nat) : ℝ) / n = 1 - (h : ℝ) / n := by rw [Nat.cast_sub hle, sub_div, div_self hn']
  have key := below_low (n := n) (h := n - h) (low := 100 * n - high) hn (Nat.sub_le _ _) (p := 1 - p) hr (by linarith) (by omega) (fun k hk => by
    have := hbest (100 * n - k) (by omega) (Nat.sub_le _ _)
    rw [c1 _ hhn, c2, binomialProb_symm hle, binomialProb_symm hle]
    rw [c1 k (by omega), ← binomialProb_symm hle (1 - (k : ℝ) / (100 * n)), sub_sub_cancel] at this
    exact this) (by rw [c1 _ hhn]; linarith)
  rw [c2, binomialProb_symm hle, binomialProb_symm hle] at key
  exact ⟨by linarith [key.1], key.2⟩

/-- The number of wrong ones among independent samples has a binomial distribution. -/
theorem prob_count {α : Type} (D : PMF α) (correct : α → Bool) (n : Nat) {p : ℝ} (hp : p = (D.toOuterMeasure {x | correct x = false}).toReal)
    (Bad : Nat → Prop) [DecidablePred Bad] (S : Set (List α)) (hS : ∀ l : List α, l.length = n → (l ∈ S ↔ Bad (n - l.countP correct))) :
    0 ≤ p ∧ p ≤ 1 ∧ (independent D n).toOuterMeasure S = ENNReal.ofReal (∑ h ∈ (Finset.range (n + 1)).filter Bad, binomialProb n h p) := by
  set wrong : α → Bool := fun x => !correct x with hwr
  have hset : {x | correct x = false} = {x | wrong x = true} := by ext x; simp [hwr]
  rw [hset] at hp
  set P := D.toOuterMeasure {x | wrong x = true} with hP
  have hsum := hit_not D wrong
  rw [← hP] at hsum
  have hP1 : P ≤ 1 := hsum ▸ le_self_add
  have hPt : P ≠ ⊤ := (hP1.trans_lt ENNReal.one_lt_top).ne
  have hQ : D.toOuterMeasure {x | wrong x = false} = 1 - P := by
    rw [← hsum, ENNReal.add_sub_cancel_left hPt]
  have hPp : P = ENNReal.ofReal p := by rw [hp, ENNReal.ofReal_toReal hPt]
  have hp0 : 0 ≤ p := hp ▸ ENNReal.toReal_nonneg
  have hp1 : p ≤ 1 := by
    rw [hp]
    exact (ENNReal.toReal_mono ENNReal.one_ne_top hP1).trans (by simp)
  have hQp : 1 - P = ENNReal.ofReal (1 - p) := by rw [hPp, ENNReal.ofReal_sub _ hp0, ENNReal.ofReal_one]
  refine ⟨hp0, hp1, ?_⟩
  set g : Nat → ℝ≥0∞ := fun h => if Bad h then 1 else 0 with hg
  have hprob : (independent D n).toOuterMeasure S = mean (independent D n) fun l => g (l.countP wrong) := by
    rw [PMF.toOuterMeasure_apply, mean]
    refine tsum_congr fun l => ?_
    by_cases hl : l ∈ (independent D n).support
    swap
    · rw [PMF.mem_support_iff, not_not] at hl
      rw [hl, zero_mul]
      unfold Set.indicator
      split_ifs <;> [exact hl; rfl]
    have hlen := independent_length D n hl
    have hcnt : n - l.countP correct = l.countP wrong := by
      have := List.length_eq_countP_add_countP correct (l := l)
      have e : l.countP (fun a => decide ¬correct a = true) = l.countP wrong := by
        refine List.countP_congr fun x _ => ?_
        simp [hwr]
      rw [e] at this
      omega
    have hiff := hS l hlen
    rw [hcnt] at hiff
    by_cases hb : Bad (l.countP wrong)
    · rw [Set.indicator_of_mem (hiff.2 hb), hg]
      dsimp only
      rw [if_pos hb, mul_one]
    · rw [Set.indicator_of_notMem fun h => hb (hiff.1 h), hg]
      dsimp only
      rw [if_neg hb, mul_zero]
  rw [hprob, mean_independent D wrong n g, hQ, hQp, ← hP, hPp]
  calc _ = ∑ h ∈ (Finset.range (n + 1)).filter Bad, ENNReal.ofReal (binomialProb n h p) := by
        rw [Finset.sum_filter]
        refine Finset.sum_congr rfl fun h _ => ?_
        rw [hg]
        dsimp only
        split_ifs
        · rw [mul_one, binomialProb, ENNReal.ofReal_mul (by positivity), ENNReal.ofReal_mul (by positivity), ENNReal.ofReal_pow hp0,
            ENNReal.ofReal_pow (by linarith), ENNReal.ofReal_natCast]
        · rw [mul_zero]
    _ = _ := (ENNReal.ofReal_sum_of_nonneg fun h _ => binomialProb_nonneg hp0 hp1).symm

/-- C115: take `n` independent samples that are wrong with probability `p` each. The bounds that `likely_error_rate_bounds` computes from the number of wrong ones
contain `p`, up to the step `1 / (100 n)` of its grid, except with a probability of at most twice the requested likelihood ratio. -/
theorem c115_bounds {α : Type} (D : PMF α) (correct : α → Bool) (n : Nat) (hn : 0 < n) (seconds : Rat) (ratio : ℝ) (hr : 0 < ratio) :
    (independent D n).toOuterMeasure {shots | ¬ ∃ low high,
      (ShotData.mk n (shots.countP correct) seconds).likelyErrorRateBounds ratio = .ok (low, high) ∧
      low - 1 / (100 * n) ≤ (D.toOuterMeasure {x | correct x = false}).toReal ∧
      (D.toOuterMeasure {x | correct x = false}).toReal ≤ high + 1 / (100 * n)} ≤ 2 * ENNReal.ofReal ratio := by
  classical
  set p := (D.toOuterMeasure {x | correct x = false}).toReal with hp
  -- the numbers of wrong samples for which the bounds miss the rate
  set Bad : Nat → Prop := fun h => ¬ ∃ low high, (ShotData.mk n ((n : Int) - h) seconds).likelyErrorRateBounds ratio = .ok (low, high) ∧
    low - 1 / (100 * n) ≤ p ∧ p ≤ high + 1 / (100 * n) with hBad
  obtain ⟨hp0, hp1, hprob⟩ := prob_count D correct n hp Bad {shots | ¬ ∃ low high,
      (ShotData.mk n (shots.countP correct) seconds).likelyErrorRateBounds ratio = .ok (low, high) ∧
      low - 1 / (100 * n) ≤ p ∧ p ≤ high + 1 / (100 * n)} fun l hl => by
    have hc : l.countP correct ≤ n := hl ▸ List.countP_le_length
    rw [Set.mem_setOf_eq, hBad, show (l.countP correct : Int) = (n : Int) - (n - l.countP correct : Nat) by omega]
  rw [hprob]
  set L := (Finset.range (n + 1)).filter fun h : Nat => p ≤ (h : ℝ) / n ∧ binomialProb n h p ≤ ratio * binomialProb n h ((h : ℝ) / n) with hL
  set U := (Finset.range (n + 1)).filter fun h : Nat => (h : ℝ) / n ≤ p ∧ binomialProb n h p ≤ ratio * binomialProb n h ((h : ℝ) / n) with hU
  have hbad : ∀ h, h ≤ n → Bad h → h ∈ L ∨ h ∈ U := fun h hle hb => by
    obtain ⟨low, high, hok, a1, a2, a3, a4, a5⟩ := c44_bounds (ShotData.mk n ((n : Int) - h) seconds) ratio n h rfl (by simp) hn hle hr
    have hmem : h ∈ Finset.range (n + 1) := Finset.mem_range.2 (by omega)
    by_cases b1 : (low : ℝ) / (100 * n) - 1 / (100 * n) ≤ p
    · by_cases b2 : p ≤ (high : ℝ) / (100 * n) + 1 / (100 * n)
      · exact absurd ⟨_, _, hok, b1, b2⟩ hb
      · exact .inr (Finset.mem_filter.2 ⟨hmem, above_high hn hle hr hp1 a2 a3 a5 (not_le.1 b2)⟩)
    · exact .inl (Finset.mem_filter.2 ⟨hmem, below_low hn hle hr hp0 a1 a4 (not_le.1 b1)⟩)
  have htail : ∑ h ∈ (Finset.range (n + 1)).filter Bad, binomialProb n h p ≤ 2 * ratio := by
    have tL : ∑ h ∈ L, binomialProb n h p ≤ ratio := upper_tail hn hp0 hp1 hr.le L fun k hk => by
      obtain ⟨h1, h2⟩ := Finset.mem_filter.1 hk
      exact ⟨by have := Finset.mem_range.1 h1; omega, h2⟩
    have tU : ∑ h ∈ U, binomialProb n h p ≤ ratio := lower_tail hn hp0 hp1 hr.le U fun k hk => by
      obtain ⟨h1, h2⟩ := Finset.mem_filter.1 hk
      exact ⟨by have := Finset.mem_range.1 h1; omega, h2⟩
    have hnn : ∀ h, 0 ≤ binomialProb n h p := fun h => binomialProb_nonneg hp0 hp1
    calc _ ≤ ∑ h ∈ L ∪ U, binomialProb n h p := Finset.sum_le_sum_of_subset_of_nonneg (fun h hh => by
            obtain ⟨h1, h2⟩ := Finset.mem_filter.1 hh
            exact Finset.mem_union.2 (hbad h (by have := Finset.mem_range.1 h1; omega) h2)) fun h _ _ => hnn h
      _ ≤ ∑ h ∈ L ∪ U, binomialProb n h p + ∑ h ∈ L ∩ U, binomialProb n h p := le_add_of_nonneg_right (Finset.sum_nonneg fun h _ => hnn h)
      _ = ∑ h ∈ L, binomialProb n h p + ∑ h ∈ U, binomialProb n h p := Finset.sum_union_inter
      _ ≤ 2 * ratio := by linarith
  calc _ ≤ ENNReal.ofReal (2 * ratio) := ENNReal.ofReal_le_ofReal htail
    _ = 2 * ENNReal.ofReal ratio := by rw [ENNReal.ofReal_mul two_pos.le, ENNReal.ofReal_ofNat]

/-- The number of correct shots is what `sample_decode_count_correct` returns. -/
theorem count_correct (d : Circuit) {guess : List Bool → List Bool} (hg : ∀ bits, (guess bits).length = d.num_observables) {decoder : String}
    (hdec : decoder ∈ ["pymatching", "internal", "internal_correlated"]) (recs : List (List (ZMod 2))) :
    sampleDecodeCountCorrect ⟨d.num_detectors, d.num_observables⟩ none decoder
      (recs.map fun rec => detectionBits d rec ++ observableBits d rec) (fun _ _ dets => .ok (dets.map guess)) =
      .ok (recs.countP fun rec => decide (guess (detectionBits d rec) = observableBits d rec)) := by
  obtain ⟨flags, hflags⟩ : ∃ flags, decoderFlags decoder = .ok flags := by
    simp only [List.mem_cons, List.not_mem_nil, or_false] at hdec
    rcases hdec with rfl | rfl | rfl
    exacts [⟨_, c38_flags.1⟩, ⟨_, c38_flags.2.1⟩, ⟨_, c38_flags.2.2⟩]
  have htake : (recs.map fun rec => detectionBits d rec ++ observableBits d rec).map (List.take d.num_detectors) = recs.map (detectionBits d) := by
    rw [List.map_map]
    refine List.map_congr_left fun rec _ => ?_
    rw [Function.comp_apply, ← detectionBits_length d rec, List.take_left]
  rw [c38_counts ⟨d.num_detectors, d.num_observables⟩ none decoder flags _ ((recs.map (detectionBits d)).map guess) _ hflags (.inl rfl) ?_ ?_ ?_]
  · congr 1
    rw [List.length_map]
    have e : ∀ (l : List (List (ZMod 2))) (P : List (ZMod 2) → Bool), l.countP P = ((Finset.range l.length).filter fun k => P (l.getD k []) = true).card := fun l P => by
      induction l with
      | nil => rfl
      | cons b l ih =>
        rw [List.length_cons, Finset.card_filter, Finset.sum_range_succ']
        simp only [List.getD_cons_succ, List.getD_cons_zero]
        rw [← Finset.card_filter, ← ih, List.countP_cons]
    rw [e]
    congr 1
    refine Finset.filter_congr fun k hk => ?_
    rw [Finset.mem_range] at hk
    simp only [List.getD_eq_getElem?_getD, List.getElem?_map, List.getElem?_eq_getElem hk, Option.map_some, Option.getD_some, decide_eq_true_eq]
    rw [← detectionBits_length d recs[k], List.drop_left]
  · intro r hr
    obtain ⟨rec, -, rfl⟩ := List.mem_map.1 hr
    rw [List.length_append, detectionBits_length, observableBits_length]
  · show Except.ok (List.map guess _) = _
    rw [htake]
  · refine ⟨by simp, fun r hr => ?_⟩
    obtain ⟨bits, -, rfl⟩ := List.mem_map.1 hr
    exact hg bits

/-- C115: the bounds computed from what `sample_decode_count_correct` returns for `n` independent shots of a circuit contain the probability that the decoder is wrong,
up to the step of the grid, except with a probability of at most twice the requested likelihood ratio. -/
theorem c115_decoding (d : Circuit) (guess : List Bool → List Bool) (hg : ∀ bits, (guess bits).length = d.num_observables) (decoder : String)
    (hdec : decoder ∈ ["pymatching", "internal", "internal_correlated"]) (F : Frame) (n : Nat) (hn : 0 < n) (seconds : Rat) (ratio : ℝ) (hr : 0 < ratio) :
    (independent ((sampleCircuit d.flatten F).map Prod.fst) n).toOuterMeasure {recs | ¬ ∃ (num_correct : Nat) (low high : ℝ),
      sampleDecodeCountCorrect ⟨d.num_detectors, d.num_observables⟩ none decoder
        (recs.map fun rec => detectionBits d rec ++ observableBits d rec) (fun _ _ dets => .ok (dets.map guess)) = .ok num_correct ∧
      (ShotData.mk n num_correct seconds).likelyErrorRateBounds ratio = .ok (low, high) ∧
      low - 1 / (100 * n) ≤ (recordProb d.flatten F {rec | guess (detectionBits d rec) ≠ observableBits d rec}).toReal ∧
      (recordProb d.flatten F {rec | guess (detectionBits d rec) ≠ observableBits d rec}).toReal ≤ high + 1 / (100 * n)} ≤ 2 * ENNReal.ofReal ratio := by
  have h := c115_bounds ((sampleCircuit d.flatten F).map Prod.fst) (fun rec => decide (guess (detectionBits d rec) = observableBits d rec)) n hn seconds ratio hr
  refine le_trans (MeasureTheory.OuterMeasure.mono _ fun recs hbad => ?_) h
  rintro ⟨low, high, h1, h2, h3⟩
  have e : {rec : List (ZMod 2) | decide (guess (detectionBits d rec) = observableBits d rec) = false} =
      {rec | guess (detectionBits d rec) ≠ observableBits d rec} := by
    ext rec
    simp
  rw [e] at h2 h3
  exact hbad ⟨_, low, high, count_correct d hg hdec recs, h1, h2, h3⟩

/-- C115: the bands of the figures (likelihood ratio `1e-3`): with a probability of at least 99.8 percent the band computed from a given number of shots of a generated
circuit contains the logical error rate. -/
theorem c115_figures (lay : HoneycombLayout) (hv : lay.Valid) (hs : lay.Supported) :
    ∃ d, lay.makeCircuit = .ok d ∧ ∀ guess : List Bool → List Bool, (∀ bits, (guess bits).length = d.num_observables) →
      ∀ decoder ∈ ["pymatching", "internal", "internal_correlated"], ∀ F, ∀ n : Nat, 0 < n → ∀ seconds : Rat,
        (998 / 1000 : ℝ≥0∞) ≤ (independent ((sampleCircuit d.flatten F).map Prod.fst) n).toOuterMeasure {recs | ∃ (num_correct : Nat) (low high : ℝ),
          sampleDecodeCountCorrect ⟨d.num_detectors, d.num_observables⟩ none decoder
            (recs.map fun rec => detectionBits d rec ++ observableBits d rec) (fun _ _ dets => .ok (dets.map guess)) = .ok num_correct ∧
          (ShotData.mk n num_correct seconds).likelyErrorRateBounds (1 / 1000) = .ok (low, high) ∧
          low - 1 / (100 * n) ≤ (recordProb d.flatten F {rec | guess (detectionBits d rec) ≠ observableBits d rec}).toReal ∧
          (recordProb d.flatten F {rec | guess (detectionBits d rec) ≠ observableBits d rec}).toReal ≤ high + 1 / (100 * n)} := by
  classical
  obtain ⟨N, hN⟩ := Int.eq_ofNat_of_zero_le (show 0 ≤ lay.sub_rounds by have := hs.2.2.1; omega)
  obtain ⟨_, _, d, _, _, _, _, _, _, _, _, _, _, _, _, hd⟩ := HoneycombLayout.makeCircuit_ok hv hs hN
  refine ⟨d, hd, fun guess hg decoder hdec F n hn seconds => ?_⟩
  have h := c115_decoding d guess hg decoder hdec F n hn seconds (1 / 1000) (by norm_num)
  set good : List (List (ZMod 2)) → Prop := fun recs => ∃ (num_correct : Nat) (low high : ℝ),
    sampleDecodeCountCorrect ⟨d.num_detectors, d.num_observables⟩ none decoder
      (recs.map fun rec => detectionBits d rec ++ observableBits d rec) (fun _ _ dets => .ok (dets.map guess)) = .ok num_correct ∧
    (ShotData.mk n num_correct seconds).likelyErrorRateBounds (1 / 1000) = .ok (low, high) ∧
    low - 1 / (100 * n) ≤ (recordProb d.flatten F {rec | guess (detectionBits d rec) ≠ observableBits d rec}).toReal ∧
    (recordProb d.flatten F {rec | guess (detectionBits d rec) ≠ observableBits d rec}).toReal ≤ high + 1 / (100 * n) with hgood
  have hs := hit_not (independent ((sampleCircuit d.flatten F).map Prod.fst) n) fun recs => decide (good recs)
  simp only [decide_eq_true_eq, decide_eq_false_iff_not] at hs
  have h2 : (2 : ℝ≥0∞) * ENNReal.ofReal (1 / 1000) = 2 / 1000 := by
    rw [ENNReal.ofReal_div_of_pos (by norm_num), ENNReal.ofReal_one, ENNReal.ofReal_ofNat, ← mul_div_assoc, mul_one]
  rw [h2] at h
  have e : (998 / 1000 : ℝ≥0∞) + 2 / 1000 = 1 := by
    rw [ENNReal.div_add_div_same]
    norm_num
    exact ENNReal.div_self (by norm_num) (by norm_num)
  refine (ENNReal.add_le_add_iff_right (a := 2 / 1000) (ENNReal.div_lt_top (by norm_num) (by norm_num)).ne).1 ?_
  rw [e, ← hs]
  exact add_le_add le_rfl h

/-- C116: the logical error rate reported for `n` independent samples differs from the probability of being wrong by `ε` or more with a probability of at most
`1 / (4 n ε²)`. -/
theorem c116_estimate {α : Type} (D : PMF α) (correct : α → Bool) (n : Nat) (hn : 0 < n) (seconds : Rat) (ε : ℝ) (hε : 0 < ε) :
    (independent D n).toOuterMeasure {shots |
      ε ≤ |(((ShotData.mk n (shots.countP correct) seconds).logical_error_rate : Rat) : ℝ) - (D.toOuterMeasure {x | correct x = false}).toReal|} ≤
      ENNReal.ofReal (1 / (4 * n * ε ^ 2)) := by
  classical
  set p := (D.toOuterMeasure {x | correct x = false}).toReal with hp
  have hn' : (0 : ℝ) < n := by exact_mod_cast hn
  obtain ⟨hp0, hp1, hprob⟩ := prob_count D correct n hp (fun h => ε ≤ |(h : ℝ) / n - p|) {shots |
      ε ≤ |(((ShotData.mk n (shots.countP correct) seconds).logical_error_rate : Rat) : ℝ) - p|} fun l hl => by
    have hc : l.countP correct ≤ n := hl ▸ List.countP_le_length
    rw [Set.mem_setOf_eq, ShotData.logical_error_rate]
    dsimp only
    rw [if_neg (by omega), Nat.cast_sub hc]
    push_cast
    rfl
  rw [hprob]
  refine ENNReal.ofReal_le_ofReal ?_
  have hvar := bernstein.variance hn.ne' ⟨p, hp0, hp1⟩
  simp only [bernstein_apply, bernstein.z] at hvar
  have hvar' : ∑ h ∈ Finset.range (n + 1), (p - (h : ℝ) / n) ^ 2 * binomialProb n h p = p * (1 - p) / n := by
    rw [← hvar, Finset.sum_range]
    rfl
  have hnn : ∀ h, 0 ≤ binomialProb n h p := fun h => binomialProb_nonneg hp0 hp1
  have h1 : ε ^ 2 * ∑ h ∈ (Finset.range (n + 1)).filter (fun h : Nat => ε ≤ |(h : ℝ) / n - p|), binomialProb n h p ≤ p * (1 - p) / n := by
    rw [← hvar', Finset.mul_sum]
    refine (Finset.sum_le_sum fun h hh => ?_).trans (Finset.sum_le_sum_of_subset_of_nonneg (Finset.filter_subset _ _) fun h _ _ => mul_nonneg (sq_nonneg _) (hnn h))
    refine mul_le_mul_of_nonneg_right ?_ (hnn h)
    have := (Finset.mem_filter.1 hh).2
    rw [← sq_abs (p - _), abs_sub_comm]
    exact pow_le_pow_left₀ hε.le this 2
  have h2 : p * (1 - p) / n ≤ 1 / 4 / n := div_le_div_of_nonneg_right (by nlinarith [sq_nonneg (p - 1 / 2)]) hn'.le
  rw [le_div_iff₀ (by positivity)]
  have h3 := h1.trans h2
  rw [le_div_iff₀ hn'] at h3
  nlinarith

/-- C116: the mean of the reported logical error rate is the probability of being wrong. -/
theorem c116_unbiased {α : Type} (D : PMF α) (correct : α → Bool) (n : Nat) (hn : 0 < n) (seconds : Rat) :
    ∑' shots, independent D n shots * ENNReal.ofReal (((ShotData.mk n (shots.countP correct) seconds).logical_error_rate : Rat) : ℝ) =
      D.toOuterMeasure {x | correct x = false} := by
  have e : ∀ shots ∈ (independent D n).support, ENNReal.ofReal (((ShotData.mk n (shots.countP correct) seconds).logical_error_rate : Rat) : ℝ) =
      (shots.countP (fun x => !correct x) : ℝ≥0∞) * (n : ℝ≥0∞)⁻¹ := fun shots hs => by
    have hlen := independent_length D n hs
    have hcnt := List.length_eq_countP_add_countP correct (l := shots)
    have e : shots.countP (fun a => decide ¬correct a = true) = shots.countP fun x => !correct x := List.countP_congr fun x _ => by simp
    rw [e, hlen] at hcnt
    rw [ShotData.logical_error_rate]
    dsimp only
    rw [if_neg (by omega), show ((n : Int) - (shots.countP correct : Nat)) = ((shots.countP fun x => !correct x : Nat) : Int) by omega]
    push_cast
    rw [ENNReal.ofReal_div_of_pos (by exact_mod_cast hn), ENNReal.ofReal_natCast, ENNReal.ofReal_natCast, div_eq_mul_inv]
  have h := mean_congr e
  rw [mean_mul_const, mean_hits, mul_right_comm, ENNReal.mul_inv_cancel (by exact_mod_cast hn.ne') (ENNReal.natCast_ne_top n), one_mul] at h
  refine h.trans ?_
  congr 1
  ext x
  simp

/-- C116: the same for the logical error rate computed from what `sample_decode_count_correct` returns for `n` independent shots of a circuit. -/
theorem c116_decoding (d : Circuit) (guess : List Bool → List Bool) (hg : ∀ bits, (guess bits).length = d.num_observables) (decoder : String)
    (hdec : decoder ∈ ["pymatching", "internal", "internal_correlated"]) (F : Frame) (n : Nat) (hn : 0 < n) (seconds : Rat) (ε : ℝ) (hε : 0 < ε) :
    (independent ((sampleCircuit d.flatten F).map Prod.fst) n).toOuterMeasure {recs | ¬ ∃ num_correct : Nat,
      sampleDecodeCountCorrect ⟨d.num_detectors, d.num_observables⟩ none decoder
        (recs.map fun rec => detectionBits d rec ++ observableBits d rec) (fun _ _ dets => .ok (dets.map guess)) = .ok num_correct ∧
      |(((ShotData.mk n num_correct seconds).logical_error_rate : Rat) : ℝ) -
        (recordProb d.flatten F {rec | guess (detectionBits d rec) ≠ observableBits d rec}).toReal| < ε} ≤ ENNReal.ofReal (1 / (4 * n * ε ^ 2)) := by
  have h := c116_estimate ((sampleCircuit d.flatten F).map Prod.fst) (fun rec => decide (guess (detectionBits d rec) = observableBits d rec)) n hn seconds ε hε
  refine le_trans (MeasureTheory.OuterMeasure.mono _ fun recs hbad => ?_) h
  have e : {rec : List (ZMod 2) | decide (guess (detectionBits d rec) = observableBits d rec) = false} =
      {rec | guess (detectionBits d rec) ≠ observableBits d rec} := by
    ext rec
    simp
  rw [Set.mem_setOf_eq, e]
  by_contra hc
  exact hbad ⟨_, count_correct d hg hdec recs, not_le.1 hc⟩

/-! ## Examples -/

/-- The hypotheses of `c115_bounds`: from 2000 flips of a fair coin, the band for the likelihood ratio `1e-3` misses the value `1 / 2` (by more than a grid step) with a
probability of at most 0.2 percent. -/
example : (independent (PMF.uniformOfFintype Bool) 2000).toOuterMeasure {flips | ¬ ∃ low high,
      (ShotData.mk 2000 (flips.countP id) 1).likelyErrorRateBounds (1 / 1000) = .ok (low, high) ∧
      low - 1 / 200000 ≤ 1 / 2 ∧ 1 / 2 ≤ high + 1 / 200000} ≤ 2 * ENNReal.ofReal (1 / 1000) := by
  have h := c115_bounds (PMF.uniformOfFintype Bool) id 2000 (by norm_num) 1 (1 / 1000) (by norm_num)
  have e : ((PMF.uniformOfFintype Bool).toOuterMeasure {x | id x = false}).toReal = 1 / 2 := by
    rw [show {x : Bool | id x = false} = {false} by ext x; simp, PMF.toOuterMeasure_apply_singleton]
    simp
  rw [e] at h
  norm_num at h ⊢
  exact h

/-- The hypotheses of C116: of ten million fair coin flips, the reported rate of heads is between 49 and 51 percent with a probability of at least 99.97 percent. -/
example : (independent (PMF.uniformOfFintype Bool) 10000000).toOuterMeasure {flips |
      1 / 100 ≤ |(((ShotData.mk 10000000 (flips.countP id) 1).logical_error_rate : Rat) : ℝ) - 1 / 2|} ≤ ENNReal.ofReal (1 / 4000) := by
  have h := c116_estimate (PMF.uniformOfFintype Bool) id 10000000 (by norm_num) 1 (1 / 100) (by norm_num)
  have e : ((PMF.uniformOfFintype Bool).toOuterMeasure {x | id x = false}).toReal = 1 / 2 := by
    rw [show {x : Bool | id x = false} = {false} by ext x; simp, PMF.toOuterMeasure_apply_singleton]
    simp
  rw [e, show (1 : ℝ) / (4 * ((10000000 : Nat) : ℝ) * (1 / 100) ^ 2) = 1 / 4000 by norm_num] at h
  exact h

/-- The hypotheses of `c115_figures`, `c115_decoding` and `c116_decoding`: a decoder for a generated circuit. -/
example : ∃ d, HoneycombLayout.makeCircuit ⟨8, 12, 40, "SD6", "V", 1/1000⟩ = .ok d ∧
    ∃ guess : List Bool → List Bool, ∀ bits, (guess bits).length = d.num_observables := by
  obtain ⟨d, hd, -⟩ := c115_figures ⟨8, 12, 40, "SD6", "V", 1/1000⟩ (by constructor <;> decide) (by refine ⟨?_, ?_, ?_, ?_⟩ <;> simp)
  exact ⟨d, hd, fun _ => List.replicate d.num_observables false, fun _ => List.length_replicate ..⟩

end Honeycomb
