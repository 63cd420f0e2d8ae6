import Verif.Spec.RandomRuns
import Verif.Lemmas.Collect
import Verif.Lemmas.Tails
import Verif.Lemmas.Toggle

/-!
# Stopping early

The sizes of the batches do not depend on the results, only their number does.
-/

namespace Honeycomb
open scoped ENNReal

variable {α : Type}

/-! ## Independent samples -/

theorem independent_take (D : PMF α) : ∀ {s M : Nat}, s ≤ M → (independent D M).map (List.take s) = independent D s
  | 0, M, _ => by
    rw [show (List.take 0 : List α → List α) = Function.const _ [] from funext fun l => rfl, PMF.map_const]
    rfl
  | s + 1, M + 1, h => by
    rw [independent, independent, PMF.map_bind]
    congr 1
    funext x
    rw [PMF.map_comp, ← independent_take D (Nat.le_of_succ_le_succ h), PMF.map_comp]
    rfl

theorem independent_append (D : PMF α) (b : Nat) : ∀ a, ((independent D a).bind fun x => (independent D b).map (x ++ ·)) = independent D (a + b)
  | 0 => by
    rw [independent, PMF.pure_bind, zero_add]
    exact PMF.map_id _
  | a + 1 => by
    rw [independent, PMF.bind_bind, show a + 1 + b = a + b + 1 by omega, independent]
    congr 1
    funext x
    rw [PMF.bind_map, ← independent_append D b a, PMF.map_bind]
    congr 1
    funext l
    rw [PMF.map_comp]
    rfl

/-- The shots that batches of the given sizes take from a table. -/
def used (table : List (List α)) (sizes : List Int) : List α := (List.zipWith (fun row (s : Int) => row.take s.toNat) table sizes).flatten

theorem independent_used (D : PMF α) (M : Nat) : ∀ (ss : List Int) (K : Nat), ss.length ≤ K → (∀ s ∈ ss, 1 ≤ s ∧ s ≤ M) →
    (independent (independent D M) K).map (used · ss) = independent D ss.sum.toNat
  | [], K, _, _ => by
    rw [show (fun t : List (List α) => used t []) = Function.const _ [] from funext fun t => by simp [used], PMF.map_const]
    rfl
  | s :: ss, 0, h, _ => by simp at h
  | s :: ss, K + 1, h, hs => by
    have ih := independent_used D M ss K (by simpa using h) fun s hm => hs s (List.mem_cons_of_mem _ hm)
    obtain ⟨h1, h2⟩ := hs s (List.mem_cons_self ..)
    have h0 : 0 ≤ ss.sum := List.sum_nonneg fun s hm => by have := hs s (List.mem_cons_of_mem _ hm); omega
    rw [independent, PMF.map_bind, List.sum_cons, Int.toNat_add (by omega) h0, ← independent_append, ← independent_take D (show s.toNat ≤ M by omega), PMF.bind_map]
    congr 1
    funext row
    rw [PMF.map_comp, Function.comp_apply, ← ih, PMF.map_comp]
    rfl

/-! ## Batches -/

/-- The sizes of the first batches, if the loop goes on. -/
def sizes (a : CollectArgs) : Nat → Int → Int → List Int
  | 0, _, _ => []
  | k + 1, shots, total => shots :: sizes a k (a.nextShots (total + shots) shots) (total + shots)

theorem sizes_length (a : CollectArgs) : ∀ k shots total, (sizes a k shots total).length = k
  | 0, _, _ => rfl
  | k + 1, shots, total => by rw [sizes, List.length_cons, sizes_length]

theorem batches_le_fuel {F : FloatText} {a : CollectArgs} {prob : DecodingProblem} {fuel i : Nat} {shots total errors : Int} {effs : List Eff} {err : Option PyErr}
    (h : collectLoop F a prob fuel i shots total errors = some (effs, err)) : (batches effs).length ≤ fuel := by
  induction fuel generalizing i shots total errors effs err with
  | zero => simp [collectLoop] at h
  | succ fuel ih =>
    rw [collectLoop] at h
    cases hs : prob.sample i shots with
    | error e =>
      rw [hs] at h
      simp only [Option.some.injEq, Prod.mk.injEq] at h
      obtain ⟨rfl, rfl⟩ := h
      simp [batches]
    | ok r =>
      obtain ⟨c, s⟩ := r
      have hb := batches_batchEffs F a.has_out (prob.desc, ⟨shots, c, s⟩)
      rw [batchEffs] at hb
      rw [hs] at h
      simp only at h
      cases ht : stops a (total + shots) (errors + (shots - c)) with
      | error e =>
        rw [ht] at h
        simp only [Option.some.injEq, Prod.mk.injEq] at h
        obtain ⟨rfl, rfl⟩ := h
        rw [hb]
        simp
      | ok b =>
        rw [ht] at h
        cases b with
        | true =>
          simp only [Option.some.injEq, Prod.mk.injEq] at h
          obtain ⟨rfl, rfl⟩ := h
          rw [hb]
          simp
        | false =>
          simp only [Option.map_eq_some_iff, Prod.mk.injEq] at h
          obtain ⟨⟨effs', err'⟩, h1, rfl, rfl⟩ := h
          have := ih h1
          rw [batches_append, List.length_append]
          rw [hb]
          simp only [List.length_singleton]
          omega

theorem Loop.sizes {a : CollectArgs} {prob : DecodingProblem} {i : Nat} {shots total errors : Int} {bs : List Row} {err : Option PyErr}
    (h : Loop a prob i shots total errors bs err) (he : err = none) : bs.map (fun b => b.2.num_shots) = Honeycomb.sizes a bs.length shots total := by
  induction h with
  | raise => cases he
  | arith => cases he
  | stop => rfl
  | step _ _ _ ih =>
    rw [List.map_cons, ih he]
    rfl

theorem Loop.correct {a : CollectArgs} {desc : DecodingProblemDesc} {count : List α → Except PyErr Nat} {seconds : List (List α) → Nat → Int → Rat}
    {table : List (List α)} {correct : α → Bool} (hc : ∀ l, count l = .ok (l.countP correct)) {i : Nat} {shots total errors : Int} {bs : List Row} {err : Option PyErr}
    (h : Loop a (tableProblem desc count seconds table) i shots total errors bs err) (he : err = none) (hi : i + bs.length ≤ table.length) :
    (bs.map fun b => b.2.num_correct).sum = (used (table.drop i) (Honeycomb.sizes a bs.length shots total)).countP correct := by
  have row : ∀ (i : Nat) (shots : Int) (c : Int) (s : Rat), (tableProblem desc count seconds table).sample i shots = .ok (c, s) → ∀ hi : i < table.length,
      c = ((table[i].take shots.toNat).countP correct : Nat) := fun i shots c s hs hi => by
    rw [tableProblem] at hs
    dsimp only at hs
    rw [hc, List.getD_eq_getElem?_getD, List.getElem?_eq_getElem hi, Option.getD_some] at hs
    simp only [Except.map, Except.ok.injEq, Prod.mk.injEq] at hs
    exact hs.1.symm
  induction h with
  | raise => cases he
  | arith => cases he
  | @stop i shots total errors c s hs _ =>
    rw [List.length_singleton] at hi
    rw [List.map_singleton, List.sum_singleton, List.drop_eq_getElem_cons (show i < table.length by omega), List.length_singleton, Honeycomb.sizes,
      row i shots c s hs (by omega), used, List.zipWith_cons_cons, List.flatten_cons, List.countP_append, Honeycomb.sizes, List.zipWith_nil_right]
    simp
  | @step i shots total errors c s bs err hs _ _ ih =>
    rw [List.length_cons] at hi
    have := ih he (by omega)
    rw [List.map_cons, List.sum_cons, this, List.drop_eq_getElem_cons (show i < table.length by omega), List.length_cons, Honeycomb.sizes, row i shots c s hs (by omega),
      used, used, List.zipWith_cons_cons, List.flatten_cons, List.countP_append, Nat.cast_add]

/-- Whatever is unlikely for every fixed number of shots is unlikely for a run that stops depending on the results. -/
theorem adaptive (Fl : FloatText) (a : CollectArgs) (h1 : 1 ≤ a.min_shots) (h2 : 1 ≤ a.max_shots) (h3 : ∀ m, a.max_batch = some m → 1 ≤ m) (desc : DecodingProblemDesc)
    {count : List α → Except PyErr Nat} {correct : α → Bool} (hc : ∀ l, count l = .ok (l.countP correct)) (seconds : List (List α) → Nat → Int → Rat) (D : PMF α) (K : Nat)
    (Miss : Int → Int → Prop) (δ : ℝ≥0∞) (hδ : ∀ n : Nat, a.firstShots ≤ n → 0 < n → (independent D n).toOuterMeasure {l | Miss n (l.countP correct)} ≤ δ) :
    (independent (independent D a.batch.toNat) K).toOuterMeasure {table | ∃ effs, collectOne Fl a (tableProblem desc count seconds table) K = some (effs, none) ∧
      Miss (recorded effs).num_shots (recorded effs).num_correct} ≤ K * δ := by
  classical
  have hb : 1 ≤ a.batch := by
    unfold CollectArgs.batch
    cases hm : a.max_batch with
    | none => exact h2
    | some m => exact h3 m hm
  have hf1 : 1 ≤ a.firstShots := by unfold CollectArgs.firstShots; split_ifs <;> omega
  have hf2 : a.firstShots ≤ a.batch := by unfold CollectArgs.firstShots; split_ifs <;> omega
  set T := independent (independent D a.batch.toNat) K with hT
  set E : Nat → Set (List (List α)) := fun k => {table | ∃ effs, collectOne Fl a (tableProblem desc count seconds table) K = some (effs, none) ∧
      (batches effs).length = k + 1 ∧ table.length = K ∧ Miss (recorded effs).num_shots (recorded effs).num_correct} with hE
  have hEk : ∀ k, k < K → T.toOuterMeasure (E k) ≤ δ := fun k hk => by
    set ss := sizes a (k + 1) a.firstShots 0 with hss
    have hmem : ∀ table ∈ E k, (∀ s ∈ ss, 1 ≤ s ∧ s ≤ a.batch.toNat) ∧ Miss ss.sum ((used table ss).countP correct) := by
      rintro table ⟨effs, hrun, hlen, hK, hmiss⟩
      obtain ⟨bs, hl, rfl⟩ := loop_of_collectLoop hrun
      rw [batches_flatMap] at hlen
      have hsz := hl.sizes rfl
      rw [hlen] at hsz
      have hco := hl.correct hc rfl (by omega)
      rw [hlen, List.drop_zero] at hco
      refine ⟨fun s hs => ?_, ?_⟩
      · rw [hss, ← hsz] at hs
        obtain ⟨b, hb', rfl⟩ := List.mem_map.1 hs
        refine ⟨hl.shots_pos hb (by omega) b hb', ?_⟩
        have := hl.batch_le hf2 b hb'
        omega
      · rw [recorded, sumShots, batches_flatMap, List.map_map, List.map_map] at hmiss
        simp only [Function.comp_def] at hmiss
        rw [hsz, hco] at hmiss
        exact hmiss
    by_cases hgood : ∀ s ∈ ss, 1 ≤ s ∧ s ≤ a.batch.toNat
    swap
    · have : E k = ∅ := Set.eq_empty_of_forall_notMem fun t ht => hgood (hmem t ht).1
      rw [this]
      simp
    have h0 : a.firstShots ≤ ss.sum := by
      rw [hss, sizes, List.sum_cons]
      have : 0 ≤ (sizes a k (a.nextShots (0 + a.firstShots) a.firstShots) (0 + a.firstShots)).sum := List.sum_nonneg fun s hs => by
        have := hgood s (by rw [hss, sizes]; exact List.mem_cons_of_mem _ hs)
        omega
      omega
    have hn : ((ss.sum.toNat : Nat) : Int) = ss.sum := Int.toNat_of_nonneg (by omega)
    refine le_trans ?_ (hδ ss.sum.toNat (by omega) (by omega))
    rw [← independent_used D _ ss K (by rw [hss, sizes_length]; omega) hgood, PMF.toOuterMeasure_map_apply]
    refine MeasureTheory.OuterMeasure.mono _ fun t ht => ?_
    rw [Set.mem_preimage, Set.mem_setOf_eq, hn]
    exact (hmem t ht).2
  calc _ ≤ T.toOuterMeasure (⋃ k ∈ Finset.range K, E k) := by
        refine T.toOuterMeasure_mono ?_
        rintro t ⟨⟨effs, hrun, hmiss⟩, ht⟩
        have hle := batches_le_fuel hrun
        have hne : (batches effs).length ≠ 0 := by
          obtain ⟨bs, hl, rfl⟩ := loop_of_collectLoop hrun
          rw [batches_flatMap]
          have := hl.nonempty
          simpa using this
        rw [Set.mem_iUnion₂]
        exact ⟨(batches effs).length - 1, Finset.mem_range.2 (by omega), effs, hrun, by omega, independent_length _ _ ht, hmiss⟩
    _ ≤ ∑ k ∈ Finset.range K, T.toOuterMeasure (E k) := MeasureTheory.measure_biUnion_finset_le _ _
    _ ≤ ∑ _k ∈ Finset.range K, δ := Finset.sum_le_sum fun k hk => hEk k (Finset.mem_range.1 hk)
    _ = K * δ := by rw [Finset.sum_const, Finset.card_range, nsmul_eq_mul]

/-! ## Wald's identity -/

theorem mean_add (D : PMF α) (f g : α → ℝ≥0∞) : mean D (fun x => f x + g x) = mean D f + mean D g := by
  unfold mean
  simp only [_root_.mul_add]
  exact ENNReal.tsum_add

/-- The mean number of hits among independent samples. -/
theorem mean_hits {α : Type} (D : PMF α) (hit : α → Bool) : ∀ n, mean (independent D n) (fun l => (l.countP hit : ℝ≥0∞)) = n * D.toOuterMeasure {x | hit x = true}
  | 0 => by
    rw [independent, mean_pure]
    simp
  | n + 1 => by
    rw [independent, mean_bind]
    have e : ∀ x, mean ((independent D n).map (x :: ·)) (fun l => (l.countP hit : ℝ≥0∞)) =
        Set.indicator {x | hit x = true} 1 x + n * D.toOuterMeasure {x | hit x = true} := fun x => by
      rw [mean_map, ← mean_hits D hit n]
      have : ∀ l : List α, ((x :: l).countP hit : ℝ≥0∞) = Set.indicator {x | hit x = true} 1 x + (l.countP hit : ℝ≥0∞) := fun l => by
        rw [List.countP_cons]
        cases hx : hit x
        · rw [Set.indicator_of_notMem (by simp [hx])]
          simp
        · rw [Set.indicator_of_mem (by simp [hx])]
          simp [add_comm]
      simp only [this]
      unfold mean
      simp only [_root_.mul_add]
      rw [ENNReal.tsum_add, ENNReal.tsum_mul_right, PMF.tsum_coe, one_mul]
    simp only [e]
    unfold mean
    simp only [_root_.mul_add]
    rw [ENNReal.tsum_add, ENNReal.tsum_mul_right, PMF.tsum_coe, one_mul, PMF.toOuterMeasure_apply, Nat.cast_add, Nat.cast_one, _root_.add_mul, one_mul, add_comm]
    congr 1
    refine tsum_congr fun x => ?_
    by_cases hx : x ∈ {x | hit x = true}
    · rw [Set.indicator_of_mem hx, Set.indicator_of_mem hx, Pi.one_apply, mul_one]
    · rw [Set.indicator_of_notMem hx, Set.indicator_of_notMem hx, mul_zero]

/-- Shots and errors of the batches of a loop. -/
def tally (a : CollectArgs) (correct : α → Bool) : List (List α) → Int → Int → Int → Nat × Nat
  | [], _, _, _ => (0, 0)
  | row :: rows, shots, total, errors =>
    let e := (row.take shots.toNat).countP fun x => !correct x
    let r := if stops a (total + shots) (errors + e) = .ok false then tally a correct rows (a.nextShots (total + shots) shots) (total + shots) (errors + e) else (0, 0)
    (shots.toNat + r.1, e + r.2)

theorem mean_tally (a : CollectArgs) (correct : α → Bool) (D : PMF α) : ∀ (K : Nat) (shots total errors : Int), shots ≤ a.batch →
    mean (independent (independent D a.batch.toNat) K) (fun t => ((tally a correct t shots total errors).2 : ℝ≥0∞)) =
      D.toOuterMeasure {x | correct x = false} * mean (independent (independent D a.batch.toNat) K) (fun t => ((tally a correct t shots total errors).1 : ℝ≥0∞))
  | 0, shots, total, errors, _ => by
    rw [independent, mean_pure, mean_pure]
    simp [tally]
  | K + 1, shots, total, errors, hs => by
    set P := D.toOuterMeasure {x | correct x = false} with hP
    set T := independent (independent D a.batch.toNat) K with hT
    set e : List α → Nat := fun row => (row.take shots.toNat).countP fun x => !correct x with he
    set g : (Nat × Nat → ℝ≥0∞) → List α → ℝ≥0∞ := fun f row => if stops a (total + shots) (errors + e row) = .ok false then
      mean T (fun t => f (tally a correct t (a.nextShots (total + shots) shots) (total + shots) (errors + e row))) else 0 with hg
    have s2 : ∀ row, mean (T.map (row :: ·)) (fun t => ((tally a correct t shots total errors).2 : ℝ≥0∞)) = (e row : ℝ≥0∞) + g (fun r => (r.2 : ℝ≥0∞)) row := fun row => by
      rw [mean_map]
      simp only [tally, hg]
      split_ifs with hc
      · rw [← mean_const T (e row : ℝ≥0∞), ← mean_add]
        refine congrArg _ (funext fun t => ?_)
        push_cast
        rfl
      · simp only [add_zero]
        exact mean_const T _
    have s1 : ∀ row, mean (T.map (row :: ·)) (fun t => ((tally a correct t shots total errors).1 : ℝ≥0∞)) = (shots.toNat : ℝ≥0∞) + g (fun r => (r.1 : ℝ≥0∞)) row :=
      fun row => by
      rw [mean_map]
      simp only [tally, hg]
      split_ifs with hc
      · rw [← mean_const T (shots.toNat : ℝ≥0∞), ← mean_add]
        refine congrArg _ (funext fun t => ?_)
        push_cast
        rfl
      · simp only [add_zero]
        exact mean_const T _
    have hgg : ∀ row, g (fun r => (r.2 : ℝ≥0∞)) row = P * g (fun r => (r.1 : ℝ≥0∞)) row := fun row => by
      simp only [hg]
      split_ifs
      · exact mean_tally a correct D K _ _ _ (by unfold CollectArgs.nextShots; omega)
      · rw [mul_zero]
    have hm : mean (independent D a.batch.toNat) (fun row => (e row : ℝ≥0∞)) = P * (shots.toNat : ℝ≥0∞) := by
      have h1 := mean_hits D (fun x => !correct x) shots.toNat
      rw [← independent_take D (show shots.toNat ≤ a.batch.toNat by omega), mean_map] at h1
      rw [he, h1, mul_comm, hP]
      congr 2
      ext x
      simp
    rw [independent, mean_bind, mean_bind]
    simp only [← hT, s1, s2, hgg]
    rw [mean_add, mean_add, hm, mean_const, ← mean_mul_left, _root_.mul_add]

theorem Loop.tally {a : CollectArgs} {desc : DecodingProblemDesc} {count : List α → Except PyErr Nat} {seconds : List (List α) → Nat → Int → Rat}
    {table : List (List α)} {correct : α → Bool} (hc : ∀ l, count l = .ok (l.countP correct)) (hb : 1 ≤ a.batch) (hrows : ∀ row ∈ table, row.length = a.batch.toNat)
    {i : Nat} {shots total errors : Int} {bs : List Row} {err : Option PyErr}
    (h : Loop a (tableProblem desc count seconds table) i shots total errors bs err) (he : err = none) (hi : i + bs.length ≤ table.length) (h1 : 1 ≤ shots) (h2 : shots ≤ a.batch) :
    (bs.map fun b => b.2.num_shots).sum = (Honeycomb.tally a correct (table.drop i) shots total errors).1 ∧
      (bs.map fun b => b.2.num_shots - b.2.num_correct).sum = (Honeycomb.tally a correct (table.drop i) shots total errors).2 := by
  have row : ∀ (i : Nat) (shots : Int) (c : Int) (s : Rat), 1 ≤ shots → shots ≤ a.batch → (tableProblem desc count seconds table).sample i shots = .ok (c, s) →
      ∀ hi : i < table.length, shots - c = ((table[i].take shots.toNat).countP (fun x => !correct x) : Nat) := fun i shots c s h1 h2 hs hi => by
    rw [tableProblem] at hs
    dsimp only at hs
    rw [hc, List.getD_eq_getElem?_getD, List.getElem?_eq_getElem hi, Option.getD_some] at hs
    simp only [Except.map, Except.ok.injEq, Prod.mk.injEq] at hs
    have hl := List.length_eq_countP_add_countP correct (l := table[i].take shots.toNat)
    have e : (table[i].take shots.toNat).countP (fun a => decide ¬correct a = true) = (table[i].take shots.toNat).countP fun x => !correct x :=
      List.countP_congr fun x _ => by simp
    rw [e, List.length_take, hrows _ (List.getElem_mem hi)] at hl
    have := hs.1
    omega
  induction h with
  | raise => cases he
  | arith => cases he
  | @stop i shots total errors c s hs hst =>
    rw [List.length_singleton] at hi
    have hr := row i shots c s h1 h2 hs (by omega)
    rw [List.drop_eq_getElem_cons (show i < table.length by omega)]
    simp only [Honeycomb.tally, List.map_singleton, List.sum_singleton]
    rw [← hr, if_neg (by rw [hst]; simp)]
    simp only [add_zero]
    exact ⟨by omega, hr⟩
  | @step i shots total errors c s bs err hs hst hl ih =>
    rw [List.length_cons] at hi
    have hr := row i shots c s h1 h2 hs (by omega)
    have hlt := stops_false_lt hst
    have := ih he (by omega) (by unfold CollectArgs.nextShots; omega) (by unfold CollectArgs.nextShots; omega)
    rw [List.drop_eq_getElem_cons (show i < table.length by omega)]
    simp only [Honeycomb.tally, List.map_cons, List.sum_cons]
    rw [← hr, if_pos hst, this.1, this.2]
    push_cast
    rw [← hr]
    exact ⟨by omega, rfl⟩

/-! ## The number of batches -/

theorem doubling (Fl : FloatText) (a : CollectArgs) (hb : a.max_batch = none) (prob : DecodingProblem) : ∀ (K i : Nat) (shots total errors : Int), 1 ≤ shots → 0 ≤ total →
    total + shots ≤ a.max_shots → a.max_shots + shots ≤ total + 2 ^ K * shots → (collectLoop Fl a prob K i shots total errors).isSome
  | 0, i, shots, total, errors, h1, h0, hle, hK => by
    rw [pow_zero, one_mul] at hK
    omega
  | K + 1, i, shots, total, errors, h1, h0, hle, hK => by
    have hbatch : a.batch = a.max_shots := by rw [CollectArgs.batch, hb]; rfl
    rw [collectLoop]
    cases hs : prob.sample i shots with
    | error e => rfl
    | ok r =>
      obtain ⟨c, s⟩ := r
      simp only
      cases ht : stops a (total + shots) (errors + (shots - c)) with
      | error e => rfl
      | ok b =>
        cases b with
        | true => rfl
        | false =>
          have hlt := stops_false_lt ht
          simp only [Option.isSome_map]
          have hK1 : 1 ≤ K := by
            by_contra hc
            have : K = 0 := by omega
            rw [this] at hK
            norm_num at hK
            omega
          have hp : (2 : Int) ≤ 2 ^ K := by
            calc (2 : Int) = 2 ^ 1 := by norm_num
              _ ≤ 2 ^ K := pow_le_pow_right₀ (by norm_num) hK1
          have hn : a.nextShots (total + shots) shots = min (2 * shots) (a.max_shots - (total + shots)) := by
            unfold CollectArgs.nextShots
            rw [hbatch]
            omega
          refine doubling Fl a hb prob K _ _ _ _ (by rw [hn]; omega) (by omega) (by rw [hn]; omega) ?_
          rw [hn]
          rcases min_choice (2 * shots) (a.max_shots - (total + shots)) with h | h <;> rw [h]
          · rw [pow_succ] at hK
            linarith
          · have := mul_le_mul_of_nonneg_right hp (show 0 ≤ a.max_shots - (total + shots) by omega)
            linarith

end Honeycomb
