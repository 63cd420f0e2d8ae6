import Verif.Props.Confidence
import Verif.Props.Collect

/-!
# C117: collecting until enough errors were seen

The collection loop decides from the results whether to go on. `tableProblem`, `recorded` (`Spec/RandomRuns.lean`): runs of the loop on random shots, and what they
record. `independent` (`Spec/Repeat.lean`): independent samples.
-/

namespace Honeycomb
open scoped ENNReal

variable {α : Type}

/-- Every run on a table completes. -/
theorem table_run {Fl : FloatText} {a : CollectArgs} (h1 : 1 ≤ a.min_shots) (h2 : 1 ≤ a.max_shots) (h3 : ∀ m, a.max_batch = some m → 1 ≤ m)
    {K : Nat} (hK : ∀ prob, (collectOne Fl a prob K).isSome) (desc : DecodingProblemDesc) {count : List α → Except PyErr Nat} {correct : α → Bool}
    (hc : ∀ l, count l = .ok (l.countP correct)) (seconds : List (List α) → Nat → Int → Rat) (table : List (List α)) :
    ∃ effs, collectOne Fl a (tableProblem desc count seconds table) K = some (effs, none) := by
  obtain ⟨⟨effs, err⟩, h⟩ := Option.isSome_iff_exists.1 (hK (tableProblem desc count seconds table))
  obtain rfl := c47_no_exception Fl a _ h1 h2 h3 (fun i n hn => by
    refine ⟨_, seconds table i n, by rw [tableProblem]; dsimp only; rw [hc]; rfl, by omega, ?_⟩
    have := List.countP_le_length (p := correct) (l := (table.getD i []).take n.toNat)
    rw [List.length_take] at this
    omega) K effs err h
  exact ⟨effs, h⟩

/-- C117: without a limit on the size of the batches, a run has at most `K` batches if `max_shots ≤ (2 ^ K - 1) * min_shots`. -/
theorem c117_batches (Fl : FloatText) (a : CollectArgs) (h1 : 1 ≤ a.min_shots) (h2 : a.min_shots ≤ a.max_shots) (hb : a.max_batch = none) (K : Nat)
    (hK : a.max_shots ≤ (2 ^ K - 1) * a.min_shots) (prob : DecodingProblem) : (collectOne Fl a prob K).isSome := by
  have hf : a.firstShots = a.min_shots := by
    unfold CollectArgs.firstShots CollectArgs.batch
    rw [hb, Option.getD_none, if_neg (by omega)]
  rw [collectOne, hf]
  refine doubling Fl a hb prob K 0 _ 0 0 h1 le_rfl (by omega) ?_
  rw [sub_mul, one_mul] at hK
  omega

/-- C117: the bounds that `likely_error_rate_bounds` computes from all that a run of the collection loop recorded contain the true error rate, up to the step of the grid,
except with a probability of at most `2 ratio` times the possible number of batches. -/
theorem c117_bounds (Fl : FloatText) (a : CollectArgs) (h1 : 1 ≤ a.min_shots) (h2 : 1 ≤ a.max_shots) (h3 : ∀ m, a.max_batch = some m → 1 ≤ m)
    (K : Nat) (hK : ∀ prob, (collectOne Fl a prob K).isSome) (desc : DecodingProblemDesc) (count : List α → Except PyErr Nat) (correct : α → Bool)
    (hc : ∀ l, count l = .ok (l.countP correct)) (seconds : List (List α) → Nat → Int → Rat) (D : PMF α) (ratio : ℝ) (hr : 0 < ratio) :
    (independent (independent D a.batch.toNat) K).toOuterMeasure {table | ¬ ∃ effs low high,
      collectOne Fl a (tableProblem desc count seconds table) K = some (effs, none) ∧
      (recorded effs).likelyErrorRateBounds ratio = .ok (low, high) ∧
      low - 1 / (100 * (recorded effs).num_shots) ≤ (D.toOuterMeasure {x | correct x = false}).toReal ∧
      (D.toOuterMeasure {x | correct x = false}).toReal ≤ high + 1 / (100 * (recorded effs).num_shots)} ≤ K * (2 * ENNReal.ofReal ratio) := by
  set p := (D.toOuterMeasure {x | correct x = false}).toReal with hp
  refine le_trans (MeasureTheory.OuterMeasure.mono _ fun table hbad => ?_)
    (adaptive Fl a h1 h2 h3 desc hc seconds D K (fun n c => ¬ ∃ low high, (ShotData.mk n c 0).likelyErrorRateBounds ratio = .ok (low, high) ∧
      low - 1 / (100 * n) ≤ p ∧ p ≤ high + 1 / (100 * n)) (2 * ENNReal.ofReal ratio) fun n _ hn => ?_)
  · obtain ⟨effs, hrun⟩ := table_run h1 h2 h3 hK desc hc seconds table
    refine ⟨effs, hrun, ?_⟩
    rintro ⟨low, high, b1, b2, b3⟩
    exact hbad ⟨effs, low, high, hrun, b1, b2, b3⟩
  · have := c115_bounds D correct n hn 0 ratio hr
    simpa only [Int.cast_natCast, ← hp] using this

/-- C117: the logical error rate of all that a run recorded differs from the true one by `ε` or more with a probability of at most `1 / (4 m ε²)` times the possible
number of batches, where `m` is the size of the first batch. -/
theorem c117_estimate (Fl : FloatText) (a : CollectArgs) (h1 : 1 ≤ a.min_shots) (h2 : 1 ≤ a.max_shots) (h3 : ∀ m, a.max_batch = some m → 1 ≤ m)
    (K : Nat) (hK : ∀ prob, (collectOne Fl a prob K).isSome) (desc : DecodingProblemDesc) (count : List α → Except PyErr Nat) (correct : α → Bool)
    (hc : ∀ l, count l = .ok (l.countP correct)) (seconds : List (List α) → Nat → Int → Rat) (D : PMF α) (ε : ℝ) (hε : 0 < ε) :
    (independent (independent D a.batch.toNat) K).toOuterMeasure {table | ¬ ∃ effs,
      collectOne Fl a (tableProblem desc count seconds table) K = some (effs, none) ∧
      |(((recorded effs).logical_error_rate : Rat) : ℝ) - (D.toOuterMeasure {x | correct x = false}).toReal| < ε} ≤
      K * ENNReal.ofReal (1 / (4 * (min a.min_shots (a.max_batch.getD a.max_shots) : Int) * ε ^ 2)) := by
  set p := (D.toOuterMeasure {x | correct x = false}).toReal with hp
  have hb : 1 ≤ a.max_batch.getD a.max_shots := by
    cases hm : a.max_batch with
    | none => exact h2
    | some m => exact h3 m hm
  have hf : a.firstShots = min a.min_shots (a.max_batch.getD a.max_shots) := by
    unfold CollectArgs.firstShots CollectArgs.batch
    split_ifs <;> omega
  refine le_trans (MeasureTheory.OuterMeasure.mono _ fun table hbad => ?_)
    (adaptive Fl a h1 h2 h3 desc hc seconds D K (fun n c => ε ≤ |(((ShotData.mk n c 0).logical_error_rate : Rat) : ℝ) - p|) _ fun n hn0 hn => ?_)
  · obtain ⟨effs, hrun⟩ := table_run h1 h2 h3 hK desc hc seconds table
    refine ⟨effs, hrun, ?_⟩
    by_contra hlt
    exact hbad ⟨effs, hrun, not_le.1 hlt⟩
  · refine (c116_estimate D correct n hn 0 ε hε).trans (ENNReal.ofReal_le_ofReal ?_)
    rw [hf] at hn0
    have e1 : (1 : ℝ) ≤ ((min a.min_shots (a.max_batch.getD a.max_shots) : Int) : ℝ) := by exact_mod_cast (le_min h1 hb)
    have e2 : ((min a.min_shots (a.max_batch.getD a.max_shots) : Int) : ℝ) ≤ n := by exact_mod_cast hn0
    refine one_div_le_one_div_of_le (by positivity) ?_
    refine mul_le_mul_of_nonneg_right ?_ (by positivity)
    linarith

/-- C117: although the run stops depending on the results, the mean number of recorded errors is the true error rate times the mean number of recorded shots. -/
theorem c117_mean (Fl : FloatText) (a : CollectArgs) (h1 : 1 ≤ a.min_shots) (h2 : 1 ≤ a.max_shots) (h3 : ∀ m, a.max_batch = some m → 1 ≤ m)
    (K : Nat) (hK : ∀ prob, (collectOne Fl a prob K).isSome) (desc : DecodingProblemDesc) (count : List α → Except PyErr Nat) (correct : α → Bool)
    (hc : ∀ l, count l = .ok (l.countP correct)) (seconds : List (List α) → Nat → Int → Rat) (D : PMF α) :
    ∃ run : List (List α) → List Eff, (∀ table, collectOne Fl a (tableProblem desc count seconds table) K = some (run table, none)) ∧
      ∑' table, independent (independent D a.batch.toNat) K table * ((recorded (run table)).num_errors.toNat : ℝ≥0∞) =
        D.toOuterMeasure {x | correct x = false} * ∑' table, independent (independent D a.batch.toNat) K table * ((recorded (run table)).num_shots.toNat : ℝ≥0∞) := by
  choose run hrun using table_run h1 h2 h3 hK desc hc seconds
  refine ⟨run, hrun, ?_⟩
  have hb : 1 ≤ a.batch := by
    unfold CollectArgs.batch
    cases hm : a.max_batch with
    | none => exact h2
    | some m => exact h3 m hm
  have hf1 : 1 ≤ a.firstShots := by unfold CollectArgs.firstShots; split_ifs <;> omega
  have hf2 : a.firstShots ≤ a.batch := by unfold CollectArgs.firstShots; split_ifs <;> omega
  have key : ∀ table ∈ (independent (independent D a.batch.toNat) K).support, (recorded (run table)).num_shots.toNat = (tally a correct table a.firstShots 0 0).1 ∧
      (recorded (run table)).num_errors.toNat = (tally a correct table a.firstShots 0 0).2 := fun table ht => by
    have hfuel := batches_le_fuel (hrun table)
    obtain ⟨bs, hl, hbs⟩ := loop_of_collectLoop (hrun table)
    rw [hbs, batches_flatMap] at hfuel
    have hrows : ∀ (k : Nat) (t : List (List α)), t ∈ (independent (independent D a.batch.toNat) k).support → ∀ row ∈ t, row.length = a.batch.toNat := fun k => by
      induction k with
      | zero =>
        intro t ht row hr
        rw [independent, PMF.support_pure, Set.mem_singleton_iff] at ht
        rw [ht] at hr
        cases hr
      | succ k ih =>
        intro t ht row hr
        rw [independent, PMF.mem_support_bind_iff] at ht
        obtain ⟨x, hx, ht⟩ := ht
        rw [PMF.mem_support_map_iff] at ht
        obtain ⟨t', ht', rfl⟩ := ht
        rcases List.mem_cons.1 hr with rfl | hr
        · exact independent_length _ _ hx
        · exact ih t' ht' row hr
    have := hl.tally hc hb (hrows K table ht) rfl (by rw [independent_length _ _ ht]; omega) hf1 hf2
    rw [List.drop_zero] at this
    rw [hbs, recorded, sumShots, batches_flatMap, ShotData.num_errors]
    simp only [List.map_map, Function.comp_def]
    have hsub : ∀ l : List Row, (l.map fun b => b.2.num_shots - b.2.num_correct).sum = (l.map fun b => b.2.num_shots).sum - (l.map fun b => b.2.num_correct).sum := fun l => by
      induction l with
      | nil => rfl
      | cons b l ih => simp only [List.map_cons, List.sum_cons]; omega
    rw [hsub] at this
    exact ⟨(congrArg Int.toNat this.1).trans (Int.toNat_natCast _), (congrArg Int.toNat this.2).trans (Int.toNat_natCast _)⟩
  have e1 := mean_congr (D := independent (independent D a.batch.toNat) K) (g := fun t => ((recorded (run t)).num_shots.toNat : ℝ≥0∞))
    (g' := fun t => ((tally a correct t a.firstShots 0 0).1 : ℝ≥0∞)) fun t ht => by rw [(key t ht).1]
  have e2 := mean_congr (D := independent (independent D a.batch.toNat) K) (g := fun t => ((recorded (run t)).num_errors.toNat : ℝ≥0∞))
    (g' := fun t => ((tally a correct t a.firstShots 0 0).2 : ℝ≥0∞)) fun t ht => by rw [(key t ht).2]
  have := mean_tally a correct D K a.firstShots 0 0 hf2
  rw [← e1, ← e2] at this
  exact this

/-- C117: the bounds for a run on a circuit: every batch is counted by `sample_decode_count_correct`. -/
theorem c117_decoding (Fl : FloatText) (a : CollectArgs) (h1 : 1 ≤ a.min_shots) (h2 : 1 ≤ a.max_shots) (h3 : ∀ m, a.max_batch = some m → 1 ≤ m)
    (K : Nat) (hK : ∀ prob, (collectOne Fl a prob K).isSome) (desc : DecodingProblemDesc) (d : Circuit) (guess : List Bool → List Bool)
    (hg : ∀ bits, (guess bits).length = d.num_observables) (decoder : String) (hdec : decoder ∈ ["pymatching", "internal", "internal_correlated"]) (F : Frame)
    (seconds : List (List (List (ZMod 2))) → Nat → Int → Rat) (ratio : ℝ) (hr : 0 < ratio) :
    (independent (independent ((sampleCircuit d.flatten F).map Prod.fst) a.batch.toNat) K).toOuterMeasure {table | ¬ ∃ effs low high,
      collectOne Fl a (tableProblem desc (fun recs => sampleDecodeCountCorrect ⟨d.num_detectors, d.num_observables⟩ none decoder
        (recs.map fun rec => detectionBits d rec ++ observableBits d rec) (fun _ _ dets => .ok (dets.map guess))) seconds table) K = some (effs, none) ∧
      (recorded effs).likelyErrorRateBounds ratio = .ok (low, high) ∧
      low - 1 / (100 * (recorded effs).num_shots) ≤ (recordProb d.flatten F {rec | guess (detectionBits d rec) ≠ observableBits d rec}).toReal ∧
      (recordProb d.flatten F {rec | guess (detectionBits d rec) ≠ observableBits d rec}).toReal ≤ high + 1 / (100 * (recorded effs).num_shots)} ≤
      K * (2 * ENNReal.ofReal ratio) := by
  have h := c117_bounds Fl a h1 h2 h3 K hK desc _ (fun rec => decide (guess (detectionBits d rec) = observableBits d rec)) (count_correct d hg hdec) seconds
    ((sampleCircuit d.flatten F).map Prod.fst) ratio hr
  have e : {rec : List (ZMod 2) | decide (guess (detectionBits d rec) = observableBits d rec) = false} =
      {rec | guess (detectionBits d rec) ≠ observableBits d rec} := by
    ext rec
    simp
  rw [e] at h
  exact h

/-- The rate that a small run records: it stops after one shot if that is wrong, and after two shots otherwise. -/
theorem small_run (table : List (List Bool)) (effs : List Eff)
    (h : collectOne fractionText (demoArgs 1 2 none 1 false) (tableProblem demoDesc (fun l => .ok (l.countP id)) (fun _ _ _ => 1) table) 2 = some (effs, none))
    (a b c d : Bool) (ht : table = [[a, b], [c, d]]) : (recorded effs).logical_error_rate = if a then (if c then 0 else 1 / 2) else 1 := by
  have key : ∀ a b c d : Bool, (match collectOne fractionText (demoArgs 1 2 none 1 false)
      (tableProblem demoDesc (fun l => .ok (l.countP id)) (fun _ _ _ => 1) [[a, b], [c, d]]) 2 with
    | some (effs, none) => (recorded effs).logical_error_rate
    | _ => 0) = if a then (if c then 0 else 1 / 2) else 1 := by
    intro a b c d
    cases a <;> cases b <;> cases c <;> cases d <;> decide +kernel
  have := key a b c d
  rw [← ht, h] at this
  exact this

/-- C117, a limit: because the run stops depending on the results, the mean of the recorded *rate* is not the true rate. With `min_shots = 1`, `max_shots = 2`,
`min_seen_logical_errors = 1` and shots that are wrong with probability `1 / 2` it is `5 / 8`. -/
theorem c117_rate_biased : ∃ run : List (List Bool) → List Eff,
    (∀ table, collectOne fractionText (demoArgs 1 2 none 1 false) (tableProblem demoDesc (fun l => .ok (l.countP id)) (fun _ _ _ => 1) table) 2 = some (run table, none)) ∧
    (PMF.uniformOfFintype Bool).toOuterMeasure {x | id x = false} = 1 / 2 ∧
    ∑' table, independent (independent (PMF.uniformOfFintype Bool) 2) 2 table * ENNReal.ofReal (((recorded (run table)).logical_error_rate : Rat) : ℝ) = 5 / 8 := by
  choose run hrun using table_run (α := Bool) (Fl := fractionText) (a := demoArgs 1 2 none 1 false) (by decide) (by decide) (fun m hm => by cases hm)
    (c117_batches fractionText _ (by decide) (by decide) rfl 2 (by decide)) demoDesc (count := fun l => .ok (l.countP id)) (fun l => rfl) (fun _ _ _ => 1)
  refine ⟨run, hrun, ?_, ?_⟩
  · rw [show {x : Bool | id x = false} = {false} by ext x; simp, PMF.toOuterMeasure_apply_singleton]
    simp
  have hr : ∀ a b c d : Bool, (recorded (run [[a, b], [c, d]])).logical_error_rate = if a then (if c then 0 else 1 / 2) else 1 := fun a b c d =>
    small_run _ _ (hrun _) a b c d rfl
  show mean _ _ = _
  simp only [independent, mean_bind, mean_pure, mean_fintype, Fintype.sum_bool, PMF.uniformOfFintype_apply, hr, PMF.map_bind, PMF.pure_map, Fintype.card_bool]
  have h2 : (((2 : Nat) : ℝ≥0∞))⁻¹ = ENNReal.ofReal (1 / 2) := by
    rw [ENNReal.ofReal_div_of_pos two_pos]
    simp
  have h5 : (5 / 8 : ℝ≥0∞) = ENNReal.ofReal (5 / 8) := by
    rw [ENNReal.ofReal_div_of_pos (by norm_num)]
    simp
  have hq : ENNReal.ofReal (1 / 2) + ENNReal.ofReal (1 / 2) = 1 := by
    rw [← ENNReal.ofReal_add (by norm_num) (by norm_num)]
    norm_num
  have hx : ∀ x : ℝ≥0∞, ENNReal.ofReal (1 / 2) * x + ENNReal.ofReal (1 / 2) * x = x := fun x => by rw [← _root_.add_mul, hq, one_mul]
  rw [h2, h5]
  norm_num
  simp only [hq, hx, mul_one]
  rw [← ENNReal.ofReal_mul (by norm_num), ← ENNReal.ofReal_mul (by norm_num), ← ENNReal.ofReal_add (by norm_num) (by norm_num)]
  norm_num


/-! ## Examples -/

/-- The arguments of `main_example.py`: at most ten batches. -/
example (Fl : FloatText) (prob : DecodingProblem) : (collectOne Fl (demoArgs 1000 1000000 none 100 true) prob 10).isSome :=
  c117_batches Fl _ (by decide) (by decide) rfl 10 (by decide) prob

/-- So the band for the likelihood ratio `1e-3` is right with a probability of at least 98 percent, here for a biased coin. -/
example (Fl : FloatText) (p : ℝ≥0∞) : (independent (independent (biased p) 1000000) 10).toOuterMeasure {table | ¬ ∃ effs low high,
      collectOne Fl (demoArgs 1000 1000000 none 100 true) (tableProblem demoDesc (fun l => .ok (l.countP (!·))) (fun _ _ _ => 1) table) 10 = some (effs, none) ∧
      (recorded effs).likelyErrorRateBounds (1 / 1000) = .ok (low, high) ∧
      low - 1 / (100 * (recorded effs).num_shots) ≤ ((biased p).toOuterMeasure {x | (!x) = false}).toReal ∧
      ((biased p).toOuterMeasure {x | (!x) = false}).toReal ≤ high + 1 / (100 * (recorded effs).num_shots)} ≤ 10 * (2 * ENNReal.ofReal (1 / 1000)) :=
  c117_bounds Fl (demoArgs 1000 1000000 none 100 true) (by decide) (by decide) (fun m hm => by cases hm) 10
    (c117_batches Fl _ (by decide) (by decide) rfl 10 (by decide)) demoDesc _ (!·) (fun l => rfl) _ (biased p) (1 / 1000) (by norm_num)

end Honeycomb
