import Mathlib.Tactic.Linarith
import Mathlib.Tactic.Positivity
import Mathlib.Tactic.FieldSimp
import Mathlib.Tactic.NormNum
import Verif.Spec.Collect

/-!
# The collection loop as a relation
-/

namespace Honeycomb

/-- The effects of one batch. -/
def batchEffs (F : FloatText) (has_out : Bool) (b : Row) : List Eff := .sampled b.1 b.2 :: recordEffs F has_out b.1 b.2

/-- The batches of the loop from a given state and how it ends. -/
inductive Loop (a : CollectArgs) (prob : DecodingProblem) : Nat → Int → Int → Int → List Row → Option PyErr → Prop
  | raise {i shots total errors e} : prob.sample i shots = .error e → Loop a prob i shots total errors [] (some e)
  | arith {i shots total errors c s e} : prob.sample i shots = .ok (c, s) →
      stops a (total + shots) (errors + (shots - c)) = .error e →
      Loop a prob i shots total errors [(prob.desc, ⟨shots, c, s⟩)] (some e)
  | stop {i shots total errors c s} : prob.sample i shots = .ok (c, s) →
      stops a (total + shots) (errors + (shots - c)) = .ok true →
      Loop a prob i shots total errors [(prob.desc, ⟨shots, c, s⟩)] none
  | step {i shots total errors c s bs err} : prob.sample i shots = .ok (c, s) →
      stops a (total + shots) (errors + (shots - c)) = .ok false →
      Loop a prob (i + 1) (a.nextShots (total + shots) shots) (total + shots) (errors + (shots - c)) bs err →
      Loop a prob i shots total errors ((prob.desc, ⟨shots, c, s⟩) :: bs) err

theorem loop_of_collectLoop {F : FloatText} {a : CollectArgs} {prob : DecodingProblem} {fuel i : Nat} {shots total errors : Int}
    {effs : List Eff} {err : Option PyErr} (h : collectLoop F a prob fuel i shots total errors = some (effs, err)) :
    ∃ bs, Loop a prob i shots total errors bs err ∧ effs = bs.flatMap (batchEffs F a.has_out) := by
  induction fuel generalizing i shots total errors effs err with
  | zero => simp [collectLoop] at h
  | succ fuel ih =>
    rw [collectLoop] at h
    cases hs : prob.sample i shots with
    | error e =>
      rw [hs] at h
      simp only [Option.some.injEq, Prod.mk.injEq] at h
      obtain ⟨rfl, rfl⟩ := h
      exact ⟨[], .raise hs, rfl⟩
    | ok r =>
      obtain ⟨c, s⟩ := r
      rw [hs] at h
      simp only at h
      cases ht : stops a (total + shots) (errors + (shots - c)) with
      | error e =>
        rw [ht] at h
        simp only [Option.some.injEq, Prod.mk.injEq] at h
        obtain ⟨rfl, rfl⟩ := h
        exact ⟨_, .arith hs ht, by simp [batchEffs]⟩
      | ok b =>
        rw [ht] at h
        cases b with
        | true =>
          simp only [Option.some.injEq, Prod.mk.injEq] at h
          obtain ⟨rfl, rfl⟩ := h
          exact ⟨_, .stop hs ht, by simp [batchEffs]⟩
        | false =>
          simp only [Option.map_eq_some_iff, Prod.mk.injEq] at h
          obtain ⟨⟨effs', err'⟩, h1, rfl, rfl⟩ := h
          obtain ⟨bs, hb, rfl⟩ := ih h1
          exact ⟨_, .step hs ht hb, by simp [batchEffs]⟩

theorem batches_append (x y : List Eff) : batches (x ++ y) = batches x ++ batches y := by simp [batches]

theorem printed_append (x y : List Eff) : printed (x ++ y) = printed x ++ printed y := by simp [printed]

theorem batches_batchEffs (F : FloatText) (o : Bool) (b : Row) : batches (batchEffs F o b) = [b] := by
  cases o <;> simp [batches, batchEffs, recordEffs]

theorem batches_flatMap (F : FloatText) (o : Bool) (bs : List Row) : batches (bs.flatMap (batchEffs F o)) = bs := by
  induction bs with
  | nil => rfl
  | cons b bs ih => rw [List.flatMap_cons, batches_append, ih, batches_batchEffs]; rfl

theorem printed_flatMap (F : FloatText) (o : Bool) (bs : List Row) :
    printed (bs.flatMap (batchEffs F o)) = bs.map fun r => record F r.1 r.2 := by
  induction bs with
  | nil => rfl
  | cons b bs ih =>
    rw [List.flatMap_cons, printed_append, ih]
    cases o <;> simp [printed, batchEffs, recordEffs]

theorem fileAfter_append (f : Option Text) (x y : List Eff) : fileAfter f (x ++ y) = fileAfter (fileAfter f x) y := by
  simp [fileAfter]

theorem rowsText_append (F : FloatText) (x y : List Row) : rowsText F (x ++ y) = rowsText F x ++ rowsText F y := by
  simp [rowsText]

/-- The file after any prefix of the effects of some batches. -/
theorem fileAfter_prefix (F : FloatText) (bs : List Row) (t : Text) (effs : List Eff)
    (h : effs <+: bs.flatMap (batchEffs F true)) :
    ∃ rows, rows <+: batches effs ∧ (batches effs).length ≤ rows.length + 1 ∧
      fileAfter (some t) effs = some (t ++ rowsText F rows) := by
  induction bs generalizing t effs with
  | nil =>
    rw [List.flatMap_nil, List.prefix_nil] at h
    subst h
    exact ⟨[], by simp [batches], by simp [batches], by simp [fileAfter, rowsText]⟩
  | cons b bs ih =>
    rw [List.flatMap_cons] at h
    simp only [batchEffs, recordEffs, if_true, List.cons_append, List.nil_append] at h
    rcases effs with _ | ⟨x, effs⟩
    · exact ⟨[], by simp [batches], by simp [batches], by simp [fileAfter, rowsText]⟩
    rw [List.cons_prefix_cons] at h
    obtain ⟨rfl, h⟩ := h
    rcases effs with _ | ⟨x, effs⟩
    · exact ⟨[], by simp [batches], by simp [batches], by simp [fileAfter, rowsText, Eff.apply]⟩
    rw [List.cons_prefix_cons] at h
    obtain ⟨rfl, h⟩ := h
    rcases effs with _ | ⟨x, effs⟩
    · exact ⟨[b], by simp [batches], by simp [batches], by simp [fileAfter, rowsText, Eff.apply]⟩
    rw [List.cons_prefix_cons] at h
    obtain ⟨rfl, h⟩ := h
    obtain ⟨rows, h1, h2, h3⟩ := ih (t ++ line (record F b.1 b.2)) effs h
    refine ⟨b :: rows, ?_, ?_, ?_⟩
    · simpa [batches] using h1
    · simpa [batches] using h2
    · simp only [fileAfter, List.foldl_cons, Eff.apply, Option.getD_some] at h3 ⊢
      rw [h3]
      simp [rowsText]

theorem fileAfter_full (F : FloatText) (bs : List Row) (t : Text) :
    fileAfter (some t) (bs.flatMap (batchEffs F true)) = some (t ++ rowsText F bs) := by
  induction bs generalizing t with
  | nil => simp [fileAfter, rowsText]
  | cons b bs ih =>
    rw [List.flatMap_cons, fileAfter_append]
    have : fileAfter (some t) (batchEffs F true b) = some (t ++ line (record F b.1 b.2)) := by
      simp [fileAfter, batchEffs, recordEffs, Eff.apply]
    rw [this, ih]
    simp [rowsText]

theorem fileAfter_no_out (F : FloatText) (bs : List Row) (f : Option Text) (effs : List Eff)
    (h : effs <+: bs.flatMap (batchEffs F false)) : fileAfter f effs = f := by
  have hall : ∀ e ∈ effs, Eff.apply f e = f := by
    intro e he
    have := h.subset he
    obtain ⟨b, _, hb⟩ := List.mem_flatMap.mp this
    simp only [batchEffs, recordEffs, Bool.false_eq_true, if_false, List.nil_append, List.mem_cons, List.not_mem_nil, or_false] at hb
    rcases hb with rfl | rfl <;> rfl
  clear h
  induction effs with
  | nil => rfl
  | cons e effs ih =>
    rw [fileAfter, List.foldl_cons, hall e (by simp)]
    exact ih (fun e he => hall e (by simp [he]))

/-! ## Stopping -/

theorem stops_iff {a : CollectArgs} {n e : Int} {b : Bool} (h : stops a n e = .ok b) : b = true ↔ StopReason a n e := by
  unfold stops at h
  by_cases hn : n = 0
  · rw [if_pos hn] at h; cases h
  rw [if_neg hn] at h
  simp only at h
  by_cases hx : (e : Rat) / (n : Rat) * (1 - (e : Rat) / (n : Rat)) / (n : Rat) < 0
  · rw [if_pos hx] at h; cases h
  rw [if_neg hx] at h
  have hsq : sqrtLe ((e : Rat) / (n : Rat) * (1 - (e : Rat) / (n : Rat)) / (n : Rat)) a.max_sample_std_dev ↔
      Real.sqrt (((e : ℝ) / (n : ℝ)) * (1 - (e : ℝ) / (n : ℝ)) / (n : ℝ)) ≤ (a.max_sample_std_dev : ℝ) := by
    rw [Real.sqrt_le_iff, sqrtLe]
    have e1 : ((e : ℝ) / (n : ℝ)) * (1 - (e : ℝ) / (n : ℝ)) / (n : ℝ)
        = (((e : Rat) / (n : Rat) * (1 - (e : Rat) / (n : Rat)) / (n : Rat) : Rat) : ℝ) := by push_cast; rfl
    have e2 : ((a.max_sample_std_dev : Rat) : ℝ) ^ 2 = ((a.max_sample_std_dev * a.max_sample_std_dev : Rat) : ℝ) := by
      push_cast; ring
    rw [e1, e2, Rat.cast_le, Rat.cast_nonneg]
  have h48 : ((e : Rat) ≥ (n : Rat) * (48 / 100) ∧ e ≥ 10) ↔ ((0.48 : ℝ) * (n : ℝ) ≤ (e : ℝ) ∧ 10 ≤ e) := by
    have : ((e : Rat) ≥ (n : Rat) * (48 / 100)) ↔ ((0.48 : ℝ) * (n : ℝ) ≤ (e : ℝ)) := by
      have e1 : (0.48 : ℝ) * (n : ℝ) = (((n : Rat) * (48 / 100) : Rat) : ℝ) := by push_cast; ring
      have e2 : (e : ℝ) = ((e : Rat) : ℝ) := by push_cast; rfl
      rw [e1, e2, Rat.cast_le]
    rw [this]
  unfold StopReason
  rw [← hsq, ← h48]
  by_cases h1 : n ≥ a.max_shots
  · rw [if_pos h1] at h
    cases h
    exact ⟨fun _ => Or.inl h1, fun _ => rfl⟩
  rw [if_neg h1] at h
  by_cases h2 : e ≥ a.min_seen_logical_errors ∧
      sqrtLe ((e : Rat) / (n : Rat) * (1 - (e : Rat) / (n : Rat)) / (n : Rat)) a.max_sample_std_dev
  · rw [if_pos h2] at h
    cases h
    exact ⟨fun _ => Or.inr (Or.inl h2), fun _ => rfl⟩
  rw [if_neg h2] at h
  by_cases h3 : (e : Rat) ≥ (n : Rat) * (48 / 100) ∧ e ≥ 10
  · rw [if_pos h3] at h
    cases h
    exact ⟨fun _ => Or.inr (Or.inr h3), fun _ => rfl⟩
  rw [if_neg h3] at h
  cases h
  refine ⟨fun h => (Bool.false_ne_true h).elim, ?_⟩
  rintro (h | h | h)
  · exact (h1 h).elim
  · exact (h2 h).elim
  · exact (h3 h).elim

theorem stops_false_lt {a : CollectArgs} {n e : Int} (h : stops a n e = .ok false) : n < a.max_shots := by
  by_contra hn
  have := (stops_iff h).mpr (Or.inl (not_lt.mp hn))
  simp at this

theorem stops_ok {a : CollectArgs} {n e : Int} (hn : 1 ≤ n) (h0 : 0 ≤ e) (h1 : e ≤ n) : ∃ b, stops a n e = .ok b := by
  have hx : ¬ (e : Rat) / (n : Rat) * (1 - (e : Rat) / (n : Rat)) / (n : Rat) < 0 := by
    have hn' : (0 : Rat) < n := by exact_mod_cast hn
    have hp0 : (0 : Rat) ≤ (e : Rat) / n := div_nonneg (by exact_mod_cast h0) hn'.le
    have hp1 : (e : Rat) / n ≤ 1 := by rw [div_le_one hn']; exact_mod_cast h1
    have : 0 ≤ (e : Rat) / (n : Rat) * (1 - (e : Rat) / (n : Rat)) / (n : Rat) :=
      div_nonneg (mul_nonneg hp0 (by linarith)) hn'.le
    linarith
  unfold stops
  rw [if_neg (by omega)]
  simp only
  rw [if_neg hx]
  by_cases h1 : n ≥ a.max_shots
  · exact ⟨true, if_pos h1⟩
  rw [if_neg h1]
  by_cases h2 : e ≥ a.min_seen_logical_errors ∧
      sqrtLe ((e : Rat) / (n : Rat) * (1 - (e : Rat) / (n : Rat)) / (n : Rat)) a.max_sample_std_dev
  · exact ⟨true, if_pos h2⟩
  rw [if_neg h2]
  by_cases h3 : (e : Rat) ≥ (n : Rat) * (48 / 100) ∧ e ≥ 10
  · exact ⟨true, if_pos h3⟩
  exact ⟨false, if_neg h3⟩

/-! ## Facts about the loop -/

theorem Loop.budget {a : CollectArgs} {prob : DecodingProblem} {i : Nat} {shots total errors : Int} {bs : List Row}
    {err : Option PyErr} (h : Loop a prob i shots total errors bs err) (hs : total + shots ≤ a.max_shots) :
    ∀ pre, pre <+: bs → pre ≠ [] → total + totalShots pre ≤ a.max_shots := by
  induction h with
  | raise => intro pre hp h0; exact absurd (List.prefix_nil.mp hp) h0
  | @arith i shots total errors c s e _ _ =>
    intro pre hp h0
    rcases pre with _ | ⟨x, pre⟩
    · exact absurd rfl h0
    rw [List.cons_prefix_cons, List.prefix_nil] at hp
    obtain ⟨rfl, rfl⟩ := hp
    simpa [totalShots] using hs
  | @stop i shots total errors c s _ _ =>
    intro pre hp h0
    rcases pre with _ | ⟨x, pre⟩
    · exact absurd rfl h0
    rw [List.cons_prefix_cons, List.prefix_nil] at hp
    obtain ⟨rfl, rfl⟩ := hp
    simpa [totalShots] using hs
  | @step i shots total errors c s bs err _ hst _ ih =>
    intro pre hp h0
    rcases pre with _ | ⟨x, pre⟩
    · exact absurd rfl h0
    rw [List.cons_prefix_cons] at hp
    obtain ⟨rfl, hp⟩ := hp
    rcases pre with _ | ⟨y, pre⟩
    · simpa [totalShots] using hs
    · have := ih (by unfold CollectArgs.nextShots; omega) _ hp (by simp)
      simp only [totalShots, List.map_cons, List.sum_cons] at this ⊢
      omega

theorem Loop.batch_le {a : CollectArgs} {prob : DecodingProblem} {i : Nat} {shots total errors : Int} {bs : List Row}
    {err : Option PyErr} (h : Loop a prob i shots total errors bs err) (hs : shots ≤ a.batch) :
    ∀ b ∈ bs, b.2.num_shots ≤ a.batch := by
  induction h with
  | raise => simp
  | arith => simpa using hs
  | stop => simpa using hs
  | step _ _ _ ih =>
    intro b hb
    rcases List.mem_cons.mp hb with rfl | hb
    · exact hs
    · exact ih (by unfold CollectArgs.nextShots; omega) b hb

theorem Loop.shots_pos {a : CollectArgs} {prob : DecodingProblem} {i : Nat} {shots total errors : Int} {bs : List Row}
    {err : Option PyErr} (h : Loop a prob i shots total errors bs err) (hb : 1 ≤ a.batch) (hs : 1 ≤ shots) :
    ∀ b ∈ bs, 1 ≤ b.2.num_shots := by
  induction h with
  | raise => simp
  | arith => simpa using hs
  | stop => simpa using hs
  | step _ hst _ ih =>
    intro b hb
    rcases List.mem_cons.mp hb with rfl | hb
    · exact hs
    · have := stops_false_lt hst
      exact ih (by unfold CollectArgs.nextShots; omega) b hb

/-- The batches are the results of the successive calls of the sampler. -/
theorem Loop.sampled {a : CollectArgs} {prob : DecodingProblem} {i : Nat} {shots total errors : Int} {bs : List Row}
    {err : Option PyErr} (h : Loop a prob i shots total errors bs err) :
    ∀ k b, bs[k]? = some b → b.1 = prob.desc ∧
      prob.sample (i + k) b.2.num_shots = .ok (b.2.num_correct, b.2.total_processing_seconds) := by
  induction h with
  | raise => simp
  | arith hsm =>
    intro k b hb
    rcases k with _ | k
    · simp only [List.getElem?_cons_zero, Option.some.injEq] at hb; subst hb; exact ⟨rfl, hsm⟩
    · simp at hb
  | stop hsm =>
    intro k b hb
    rcases k with _ | k
    · simp only [List.getElem?_cons_zero, Option.some.injEq] at hb; subst hb; exact ⟨rfl, hsm⟩
    · simp at hb
  | @step i shots total errors c s bs err hsm _ _ ih =>
    intro k b hb
    rcases k with _ | k
    · simp only [List.getElem?_cons_zero, Option.some.injEq] at hb; subst hb; exact ⟨rfl, hsm⟩
    · have := ih k b (by simpa using hb)
      rw [show i + (k + 1) = (i + 1) + k from by omega]
      exact this

theorem Loop.stopped {a : CollectArgs} {prob : DecodingProblem} {i : Nat} {shots total errors : Int} {bs : List Row}
    {err : Option PyErr} (h : Loop a prob i shots total errors bs err) :
    ∀ pre, pre <+: bs → pre ≠ [] → (pre ≠ bs → ¬ StopReason a (total + totalShots pre) (errors + totalErrors pre)) ∧
      (pre = bs → err = none → StopReason a (total + totalShots pre) (errors + totalErrors pre)) := by
  induction h with
  | raise => intro pre hp h0; exact absurd (List.prefix_nil.mp hp) h0
  | @arith i shots total errors c s e _ _ =>
    intro pre hp h0
    rcases pre with _ | ⟨x, pre⟩
    · exact absurd rfl h0
    rw [List.cons_prefix_cons, List.prefix_nil] at hp
    obtain ⟨rfl, rfl⟩ := hp
    exact ⟨fun h => absurd rfl h, fun _ h => by simp at h⟩
  | @stop i shots total errors c s _ hst =>
    intro pre hp h0
    rcases pre with _ | ⟨x, pre⟩
    · exact absurd rfl h0
    rw [List.cons_prefix_cons, List.prefix_nil] at hp
    obtain ⟨rfl, rfl⟩ := hp
    refine ⟨fun h => absurd rfl h, fun _ _ => ?_⟩
    have := (stops_iff hst).mp rfl
    simpa [totalShots, totalErrors] using this
  | @step i shots total errors c s bs err _ hst hl ih =>
    intro pre hp h0
    rcases pre with _ | ⟨x, pre⟩
    · exact absurd rfl h0
    rw [List.cons_prefix_cons] at hp
    obtain ⟨rfl, hp⟩ := hp
    rcases pre with _ | ⟨y, pre⟩
    · refine ⟨fun _ hr => ?_, fun he hn => ?_⟩
      · have := (stops_iff hst).mpr (by simpa [totalShots, totalErrors] using hr)
        simp at this
      · simp only [List.cons.injEq, true_and] at he
        subst he
        subst hn
        cases hl
    · obtain ⟨i1, i2⟩ := ih _ hp (by simp)
      have e1 : total + totalShots ((prob.desc, ⟨shots, c, s⟩) :: y :: pre) = total + shots + totalShots (y :: pre) := by
        simp only [totalShots, List.map_cons, List.sum_cons]; omega
      have e2 : errors + totalErrors ((prob.desc, ⟨shots, c, s⟩) :: y :: pre)
          = errors + (shots - c) + totalErrors (y :: pre) := by
        simp only [totalErrors, List.map_cons, List.sum_cons]; omega
      rw [e1, e2]
      exact ⟨fun hne => i1 (fun h => hne (by rw [h])), fun he => i2 (by simpa using he)⟩

theorem Loop.first {a : CollectArgs} {prob : DecodingProblem} {i : Nat} {shots total errors : Int} {bs : List Row}
    {err : Option PyErr} (h : Loop a prob i shots total errors bs err) : ∀ b, bs.head? = some b → b.2.num_shots = shots := by
  cases h <;> intro b hb <;> simp at hb
  all_goals (subst hb; rfl)

theorem Loop.nonempty {a : CollectArgs} {prob : DecodingProblem} {i : Nat} {shots total errors : Int} {bs : List Row}
    (h : Loop a prob i shots total errors bs none) : bs ≠ [] := by
  cases h <;> simp

theorem Loop.no_exception {a : CollectArgs} {prob : DecodingProblem} {i : Nat} {shots total errors : Int} {bs : List Row}
    {err : Option PyErr} (h : Loop a prob i shots total errors bs err) (hb : 1 ≤ a.batch)
    (hok : ∀ i n, 1 ≤ n → ∃ c s, prob.sample i n = .ok (c, s) ∧ 0 ≤ c ∧ c ≤ n)
    (hs : 1 ≤ shots) (ht : 0 ≤ total) (h0 : 0 ≤ errors) (h1 : errors ≤ total) : err = none := by
  induction h with
  | @raise i shots total errors e hsm =>
    obtain ⟨c', s', h', _⟩ := hok i shots hs
    rw [hsm] at h'
    cases h'
  | @arith i shots total errors c s e hsm hst =>
    obtain ⟨c', s', h', hc0, hc1⟩ := hok i shots hs
    rw [hsm] at h'
    cases h'
    obtain ⟨b, hbb⟩ := stops_ok (a := a) (n := total + shots) (e := errors + (shots - c)) (by omega) (by omega) (by omega)
    rw [hbb] at hst
    cases hst
  | stop => rfl
  | @step i shots total errors c s bs err hsm hst _ ih =>
    obtain ⟨c', s', h', hc0, hc1⟩ := hok i shots hs
    rw [hsm] at h'
    cases h'
    have := stops_false_lt hst
    exact ih (by unfold CollectArgs.nextShots; omega) (by omega) (by omega) (by omega)

theorem collectLoop_terminates (F : FloatText) (a : CollectArgs) (prob : DecodingProblem) (hb : 1 ≤ a.batch) (fuel i : Nat)
    (shots total errors : Int) (hs : 1 ≤ shots) (hf : 1 ≤ fuel) (hft : a.max_shots - total ≤ fuel) :
    ∃ r, collectLoop F a prob fuel i shots total errors = some r := by
  induction fuel generalizing i shots total errors with
  | zero => omega
  | succ fuel ih =>
    rw [collectLoop]
    cases hsm : prob.sample i shots with
    | error e => exact ⟨_, rfl⟩
    | ok r =>
      obtain ⟨c, s⟩ := r
      simp only
      cases hst : stops a (total + shots) (errors + (shots - c)) with
      | error e => exact ⟨_, rfl⟩
      | ok b =>
        cases b with
        | true => exact ⟨_, rfl⟩
        | false =>
          have := stops_false_lt hst
          obtain ⟨r, hr⟩ := ih (i + 1) (a.nextShots (total + shots) shots) (total + shots) (errors + (shots - c))
            (by unfold CollectArgs.nextShots; omega) (by omega) (by push_cast at hft; omega)
          simp only [hr]
          exact ⟨_, rfl⟩

/-! ## All problems -/

theorem collectProblems_loops {F : FloatText} {a : CollectArgs} {fuel : Nat} {probs : List DecodingProblem} {effs : List Eff}
    {err : Option PyErr} (h : collectProblems F a fuel probs = some (effs, err)) :
    ∃ bss : List (List Row), bss.length ≤ probs.length ∧ effs = bss.flatten.flatMap (batchEffs F a.has_out) ∧
      (err = none → bss.length = probs.length) ∧
      List.Forall₂ (fun prob bs => ∃ err', Loop a prob 0 a.firstShots 0 0 bs err' ∧ (err = none → err' = none))
        (probs.take bss.length) bss := by
  induction probs generalizing effs err with
  | nil =>
    simp only [collectProblems, Option.some.injEq, Prod.mk.injEq] at h
    obtain ⟨rfl, rfl⟩ := h
    exact ⟨[], by simp, by simp, by simp, by simp⟩
  | cons prob probs ih =>
    rw [collectProblems] at h
    cases hc : collectOne F a prob fuel with
    | none => rw [hc] at h; simp at h
    | some r =>
      obtain ⟨effs1, err1⟩ := r
      rw [hc] at h
      obtain ⟨bs, hl, rfl⟩ := loop_of_collectLoop hc
      cases err1 with
      | some e =>
        simp only [Option.some.injEq, Prod.mk.injEq] at h
        obtain ⟨rfl, rfl⟩ := h
        exact ⟨[bs], by simp, by simp, by simp, by simpa using ⟨_, hl⟩⟩
      | none =>
        simp only [Option.map_eq_some_iff, Prod.mk.injEq] at h
        obtain ⟨⟨effs', err'⟩, h1, rfl, rfl⟩ := h
        obtain ⟨bss, b1, rfl, b3, b4⟩ := ih h1
        refine ⟨bs :: bss, by simpa using b1, by simp, by simpa using b3, ?_⟩
        simp only [List.length_cons, List.take_succ_cons]
        exact List.Forall₂.cons ⟨none, hl, fun _ => rfl⟩ b4

end Honeycomb
