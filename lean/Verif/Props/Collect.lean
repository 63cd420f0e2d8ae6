import Verif.Lemmas.Collect
import Verif.Lemmas.Read

/-!
# Collecting data (C46–C49)
-/

namespace Honeycomb

/-! ## C46: the shot budget is respected -/

/-- After every batch the shots taken for a problem are at most `max_shots`, provided `min_shots` is at most `max_shots` or the
batch size is not larger than `max_shots`. -/
theorem c46_budget (F : FloatText) (a : CollectArgs) (prob : DecodingProblem) (fuel : Nat) (effs : List Eff) (err : Option PyErr)
    (h : collectOne F a prob fuel = some (effs, err))
    (hb : a.min_shots ≤ a.max_shots ∨ a.max_batch = none ∨ ∃ m, a.max_batch = some m ∧ m ≤ a.max_shots) :
    ∀ done, done <+: batches effs → done ≠ [] → totalShots done ≤ a.max_shots := by
  obtain ⟨bs, hl, rfl⟩ := loop_of_collectLoop h
  rw [batches_flatMap]
  intro done hd h0
  have := hl.budget (by
    unfold CollectArgs.firstShots CollectArgs.batch
    rcases hb with hb | hb | ⟨m, hb, hm⟩
    · split_ifs <;> omega
    · rw [hb, Option.getD_none]; split_ifs <;> omega
    · rw [hb, Option.getD_some]; split_ifs <;> omega) done hd h0
  omega

/-- No batch has more than `max_batch` shots. -/
theorem c46_batch (F : FloatText) (a : CollectArgs) (prob : DecodingProblem) (fuel : Nat) (effs : List Eff) (err : Option PyErr)
    (h : collectOne F a prob fuel = some (effs, err)) (m : Int) (hm : a.max_batch = some m) :
    ∀ b ∈ batches effs, b.2.num_shots ≤ m := by
  obtain ⟨bs, hl, rfl⟩ := loop_of_collectLoop h
  rw [batches_flatMap]
  have := hl.batch_le (by unfold CollectArgs.firstShots; split_ifs <;> omega)
  simpa [CollectArgs.batch, hm] using this

/-- A description for the examples. -/
def demoDesc : DecodingProblemDesc :=
  { data_width := 4, data_height := 6, code_distance := 2, num_qubits := 60, rounds := 7, noise := 1 / 1000,
    circuit_style := "honeycomb_SD6", preserved_observable := "H", decoder := "internal" }

/-- A sampler for the examples: everything is correct and takes one second per shot. -/
def demoProblem : DecodingProblem := ⟨demoDesc, fun _ n => .ok (n, (n : Rat))⟩

/-- Arguments for the examples. -/
def demoArgs (min_shots max_shots : Int) (max_batch : Option Int) (min_seen_logical_errors : Int) (has_out : Bool) : CollectArgs :=
  ⟨min_shots, max_shots, max_batch, 1, min_seen_logical_errors, has_out, false⟩

/-- Without the proviso the budget is exceeded: with `max_shots = 10`, `min_shots = 100` and `max_batch = 1000` the first batch
has 100 shots. -/
theorem c46_general_false : ∃ (F : FloatText) (a : CollectArgs) (prob : DecodingProblem) (fuel : Nat) (effs : List Eff),
    1 ≤ a.min_shots ∧ 1 ≤ a.max_shots ∧ collectOne F a prob fuel = some (effs, none) ∧ a.max_shots < totalShots (batches effs) :=
  ⟨fractionText, (demoArgs 100 10 (some 1000) 5 false), demoProblem, 1,
    batchEffs fractionText false (demoDesc, ⟨100, 100, 100⟩), by decide, by decide, by with_unfolding_all rfl, by
      rw [batches_batchEffs]; decide⟩

/-! ## C47: termination and stop reasons -/

/-- With positive limits the loop ends, after at most `max_shots` batches. -/
theorem c47_terminates (F : FloatText) (a : CollectArgs) (prob : DecodingProblem) (h1 : 1 ≤ a.min_shots) (h2 : 1 ≤ a.max_shots)
    (h3 : ∀ m, a.max_batch = some m → 1 ≤ m) (fuel : Nat) (hf : a.max_shots ≤ fuel) :
    ∃ effs err, collectOne F a prob fuel = some (effs, err) := by
  have hb : 1 ≤ a.batch := by
    unfold CollectArgs.batch
    cases hm : a.max_batch with
    | none => exact h2
    | some m => exact h3 m hm
  obtain ⟨⟨effs, err⟩, h⟩ := collectLoop_terminates F a prob hb fuel 0 a.firstShots 0 0
    (by unfold CollectArgs.firstShots; split_ifs <;> omega) (by omega) (by omega)
  exact ⟨effs, err, h⟩

/-- Every batch has at least one shot. -/
theorem c47_positive (F : FloatText) (a : CollectArgs) (prob : DecodingProblem) (h1 : 1 ≤ a.min_shots) (h2 : 1 ≤ a.max_shots)
    (h3 : ∀ m, a.max_batch = some m → 1 ≤ m) (fuel : Nat) (effs : List Eff) (err : Option PyErr)
    (h : collectOne F a prob fuel = some (effs, err)) : ∀ b ∈ batches effs, 1 ≤ b.2.num_shots := by
  have hb : 1 ≤ a.batch := by
    unfold CollectArgs.batch
    cases hm : a.max_batch with
    | none => exact h2
    | some m => exact h3 m hm
  obtain ⟨bs, hl, rfl⟩ := loop_of_collectLoop h
  rw [batches_flatMap]
  exact hl.shots_pos hb (by unfold CollectArgs.firstShots; split_ifs <;> omega)

/-- The loop ends at the first batch after which one of the documented reasons holds, and only there. -/
theorem c47_stops (F : FloatText) (a : CollectArgs) (prob : DecodingProblem) (fuel : Nat) (effs : List Eff)
    (h : collectOne F a prob fuel = some (effs, none)) :
    batches effs ≠ [] ∧
    ∀ done, done <+: batches effs → done ≠ [] →
      (StopReason a (totalShots done) (totalErrors done) ↔ done = batches effs) := by
  obtain ⟨bs, hl, rfl⟩ := loop_of_collectLoop h
  rw [batches_flatMap]
  refine ⟨hl.nonempty, fun done hd h0 => ?_⟩
  have := hl.stopped done hd h0
  rw [zero_add, zero_add] at this
  refine ⟨fun hr => ?_, fun he => this.2 he rfl⟩
  by_contra hne
  exact this.1 hne hr

/-- The first batch has `min_shots` shots, or `max_batch` (by default `max_shots`) if that is smaller. -/
theorem c47_first (F : FloatText) (a : CollectArgs) (prob : DecodingProblem) (fuel : Nat) (effs : List Eff) (err : Option PyErr)
    (h : collectOne F a prob fuel = some (effs, err)) :
    ∀ b, (batches effs).head? = some b → b.2.num_shots = min a.min_shots (a.max_batch.getD a.max_shots) := by
  obtain ⟨bs, hl, rfl⟩ := loop_of_collectLoop h
  rw [batches_flatMap]
  intro b hb
  rw [hl.first b hb]
  unfold CollectArgs.firstShots CollectArgs.batch
  split_ifs <;> omega

/-- If the sampler works and counts at most as many correct predictions as shots, no exception is raised. -/
theorem c47_no_exception (F : FloatText) (a : CollectArgs) (prob : DecodingProblem) (h1 : 1 ≤ a.min_shots) (h2 : 1 ≤ a.max_shots)
    (h3 : ∀ m, a.max_batch = some m → 1 ≤ m)
    (hok : ∀ i n, 1 ≤ n → ∃ c s, prob.sample i n = .ok (c, s) ∧ 0 ≤ c ∧ c ≤ n)
    (fuel : Nat) (effs : List Eff) (err : Option PyErr) (h : collectOne F a prob fuel = some (effs, err)) : err = none := by
  have hb : 1 ≤ a.batch := by
    unfold CollectArgs.batch
    cases hm : a.max_batch with
    | none => exact h2
    | some m => exact h3 m hm
  obtain ⟨bs, hl, rfl⟩ := loop_of_collectLoop h
  exact hl.no_exception hb hok (by unfold CollectArgs.firstShots; split_ifs <;> omega) (le_refl 0) (le_refl 0) (le_refl 0)

/-- `min_shots` is not a lower bound for the shots taken when `max_batch` is smaller (contrary to its documentation): with
`min_shots = 100`, `max_batch = 1` and `min_seen_logical_errors = 0` the loop ends after one shot. -/
theorem c47_min_shots_false : ∃ (F : FloatText) (a : CollectArgs) (prob : DecodingProblem) (fuel : Nat) (effs : List Eff),
    1 ≤ a.min_shots ∧ a.min_shots ≤ a.max_shots ∧ a.max_batch = some 1 ∧ collectOne F a prob fuel = some (effs, none) ∧
    totalShots (batches effs) < a.min_shots :=
  ⟨fractionText, (demoArgs 100 1000 (some 1) 0 false), demoProblem, 1,
    batchEffs fractionText false (demoDesc, ⟨1, 1, 1⟩), by decide, by decide, rfl, by with_unfolding_all rfl, by
      rw [batches_batchEffs]; decide⟩

/-- `min_shots = 0` raises a ZeroDivisionError after the first (empty) batch was recorded. -/
theorem c47_zero_min_shots (F : FloatText) (a : CollectArgs) (prob : DecodingProblem) (fuel : Nat) (h0 : a.min_shots = 0)
    (hb : 0 ≤ a.batch) (c : Int) (s : Rat) (hs : prob.sample 0 0 = .ok (c, s)) :
    collectOne F a prob (fuel + 1) = some (batchEffs F a.has_out (prob.desc, ⟨0, c, s⟩), some .zeroDivision) := by
  have hf : a.firstShots = 0 := by unfold CollectArgs.firstShots; split_ifs <;> omega
  rw [collectOne, hf, collectLoop, hs]
  rfl

/-- A run with two batches: 2 shots, then (twice as many, but at most 5 in all) 3 shots. -/
example : ∃ effs, collectOne fractionText (demoArgs 2 5 none 3 true) demoProblem 5 = some (effs, none) ∧
    (batches effs).map (fun b => b.2.num_shots) = [2, 3] := by
  refine ⟨[(demoDesc, ⟨2, 2, 2⟩), (demoDesc, ⟨3, 3, 3⟩)].flatMap (batchEffs fractionText true), by with_unfolding_all rfl, ?_⟩
  rw [batches_flatMap]
  rfl

example : ∀ i n, 1 ≤ n → ∃ c s, demoProblem.sample i n = .ok (c, s) ∧ 0 ≤ c ∧ c ≤ n :=
  fun _ n hn => ⟨n, n, rfl, by omega, le_refl n⟩

/-! ## C48: the CSV accounts for every sampled shot -/

/-- The start of the file that the rows of a run are appended to. -/
theorem start_file (a : CollectArgs) (file : Option Text) (ho : a.has_out = true) :
    fileAfter file (startEffs a.has_out a.discard_previous_data file)
      = some (if a.discard_previous_data = true then line csvHeader else file.getD (line csvHeader)) := by
  unfold startEffs
  rw [ho]
  cases hd : a.discard_previous_data <;> cases file <;> simp [fileAfter, Eff.apply]

/-- After a run the file holds what it held before (or just the header, if it is new or discarded) followed by one line per
sampled batch, in order; and this is so for every run, whether it ended with an exception or not. -/
theorem c48_file (F : FloatText) (a : CollectArgs) (fuel : Nat) (probs : List DecodingProblem) (file : Option Text)
    (effs : List Eff) (err : Option PyErr) (ho : a.has_out = true) (h : collect F a fuel probs file = some (effs, err)) :
    fileAfter file effs = some ((if a.discard_previous_data = true then line csvHeader else file.getD (line csvHeader))
      ++ rowsText F (batches effs)) := by
  simp only [collect, Option.map_eq_some_iff, Prod.mk.injEq] at h
  obtain ⟨⟨effs', err'⟩, h1, rfl, rfl⟩ := h
  obtain ⟨bss, _, rfl, _, _⟩ := collectProblems_loops h1
  have hs : batches (startEffs a.has_out a.discard_previous_data file) = [] := by
    unfold startEffs batches
    split_ifs <;> rfl
  rw [batches_append, hs, List.nil_append, batches_flatMap, fileAfter_append, start_file a file ho, ho, fileAfter_full]

/-- The same rows go to stdout, after the header. -/
theorem c48_stdout (F : FloatText) (a : CollectArgs) (fuel : Nat) (probs : List DecodingProblem) (file : Option Text)
    (effs : List Eff) (err : Option PyErr) (h : collect F a fuel probs file = some (effs, err)) :
    printed effs = csvHeader :: (batches effs).map fun r => record F r.1 r.2 := by
  simp only [collect, Option.map_eq_some_iff, Prod.mk.injEq] at h
  obtain ⟨⟨effs', err'⟩, h1, rfl, rfl⟩ := h
  obtain ⟨bss, _, rfl, _, _⟩ := collectProblems_loops h1
  have hs : batches (startEffs a.has_out a.discard_previous_data file) = [] := by
    unfold startEffs batches
    split_ifs <;> rfl
  have hp : printed (startEffs a.has_out a.discard_previous_data file) = [csvHeader] := by
    unfold startEffs printed
    split_ifs <;> rfl
  rw [batches_append, printed_append, hs, hp, List.nil_append, batches_flatMap, printed_flatMap]
  rfl

/-- Without an output path no file is touched, at any point of the run. -/
theorem c48_no_out_path (F : FloatText) (a : CollectArgs) (fuel : Nat) (probs : List DecodingProblem) (file : Option Text)
    (effs part : List Eff) (err : Option PyErr) (ho : a.has_out = false) (h : collect F a fuel probs file = some (effs, err))
    (hp : part <+: effs) : fileAfter file part = file := by
  simp only [collect, Option.map_eq_some_iff, Prod.mk.injEq] at h
  obtain ⟨⟨effs', err'⟩, h1, rfl, rfl⟩ := h
  obtain ⟨bss, _, rfl, _, _⟩ := collectProblems_loops h1
  simp only [startEffs, ho, Bool.false_eq_true, false_and, if_false, List.cons_append, List.nil_append] at hp
  rcases part with _ | ⟨x, part⟩
  · rfl
  rw [List.cons_prefix_cons] at hp
  obtain ⟨rfl, hp⟩ := hp
  exact fileAfter_no_out F _ file part hp

/-- The batches are those of the problems in the order given; each carries the description of its problem unchanged, and the
shots, correct predictions and time of one call of the sampler: the first batch of a problem of its first call, and so on.
If no exception ended the run, every problem has its batches. -/
theorem c48_order (F : FloatText) (a : CollectArgs) (fuel : Nat) (probs : List DecodingProblem) (file : Option Text)
    (effs : List Eff) (err : Option PyErr) (h : collect F a fuel probs file = some (effs, err)) :
    ∃ bss : List (List Row), bss.length ≤ probs.length ∧ batches effs = bss.flatten ∧
      (err = none → bss.length = probs.length ∧ ∀ bs ∈ bss, bs ≠ []) ∧
      List.Forall₂ (fun prob bs => ∀ k b, bs[k]? = some b → b.1 = prob.desc ∧
          prob.sample k b.2.num_shots = .ok (b.2.num_correct, b.2.total_processing_seconds))
        (probs.take bss.length) bss := by
  simp only [collect, Option.map_eq_some_iff, Prod.mk.injEq] at h
  obtain ⟨⟨effs', err'⟩, h1, rfl, rfl⟩ := h
  obtain ⟨bss, b1, rfl, b3, b4⟩ := collectProblems_loops h1
  have hs : batches (startEffs a.has_out a.discard_previous_data file) = [] := by
    unfold startEffs batches
    split_ifs <;> rfl
  refine ⟨bss, b1, ?_, fun he => ⟨b3 he, ?_⟩, ?_⟩
  · rw [batches_append, hs, List.nil_append, batches_flatMap]
  · intro bs hbs
    obtain ⟨k, hk, rfl⟩ := List.getElem_of_mem hbs
    have := (List.forall₂_iff_get.mp b4).2 k (by simpa using ⟨hk, by omega⟩) hk
    obtain ⟨err'', hl, hn⟩ := this
    have e := hn he
    subst e
    exact hl.nonempty
  · refine b4.imp ?_
    rintro prob bs ⟨_, hl, _⟩ k b hb
    have := hl.sampled k b hb
    rwa [Nat.zero_add] at this

/-- The run for several problems is the run for each of them, one after the other. -/
theorem c48_composes (F : FloatText) (a : CollectArgs) (fuel : Nat) (probs : List DecodingProblem) (file : Option Text)
    (effs : List Eff) : collect F a fuel probs file = some (effs, none) ↔
    ∃ parts, List.Forall₂ (fun prob part => collectOne F a prob fuel = some (part, none)) probs parts ∧
      effs = startEffs a.has_out a.discard_previous_data file ++ parts.flatten := by
  have key : ∀ body, collectProblems F a fuel probs = some (body, none) ↔
      ∃ parts, List.Forall₂ (fun prob part => collectOne F a prob fuel = some (part, none)) probs parts ∧
        body = parts.flatten := by
    induction probs with
    | nil =>
      intro body
      simp only [collectProblems, Option.some.injEq, Prod.mk.injEq, and_true, List.forall₂_nil_left_iff]
      constructor
      · rintro rfl; exact ⟨[], rfl, rfl⟩
      · rintro ⟨_, rfl, rfl⟩; rfl
    | cons prob probs ih =>
      intro body
      rw [collectProblems]
      constructor
      · intro h
        cases hc : collectOne F a prob fuel with
        | none => rw [hc] at h; simp at h
        | some r =>
          obtain ⟨effs1, err1⟩ := r
          rw [hc] at h
          cases err1 with
          | some e => simp at h
          | none =>
            simp only [Option.map_eq_some_iff, Prod.mk.injEq] at h
            obtain ⟨⟨b, e⟩, h1, rfl, h2⟩ := h
            simp only at h2
            subst h2
            obtain ⟨parts, hp, rfl⟩ := (ih b).mp h1
            exact ⟨effs1 :: parts, .cons hc hp, rfl⟩
      · rintro ⟨parts, hp, rfl⟩
        cases hp with
        | cons hc hp =>
          rw [hc]
          simp only [(ih _).mpr ⟨_, hp, rfl⟩, Option.map_some, List.flatten_cons]
  simp only [collect, Option.map_eq_some_iff, Prod.mk.injEq]
  constructor
  · rintro ⟨⟨b, e⟩, h1, rfl, h2⟩
    simp only at h2
    subst h2
    obtain ⟨parts, hp, rfl⟩ := (key b).mp h1
    exact ⟨parts, hp, rfl⟩
  · rintro ⟨parts, hp, rfl⟩
    exact ⟨(parts.flatten, none), (key _).mpr ⟨parts, hp, rfl⟩, rfl, rfl⟩

/-- Reading the file of a run that started afresh gives, for every description, the sums over the sampled batches. -/
theorem c48_read_back (F : FloatText) (a : CollectArgs) (fuel : Nat) (probs : List DecodingProblem) (file : Option Text)
    (effs : List Eff) (err : Option PyErr) (ho : a.has_out = true) (hfresh : a.discard_previous_data = true ∨ file = none)
    (h : collect F a fuel probs file = some (effs, err)) (hc : ∀ r ∈ batches effs, CleanRow F r) :
    ∃ text data, fileAfter file effs = some text ∧ readRecordedData F [text] = .ok data ∧ HoldsTotals data (batches effs) := by
  refine ⟨dataFile F (batches effs), _, ?_, read_dataFile F _ hc, ?_⟩
  · rw [c48_file F a fuel probs file effs err ho h, dataFile]
    rcases hfresh with hf | hf
    · rw [if_pos hf]
    · rw [hf, Option.getD_none, ite_self]
  · exact holdsTotals_fold _ holdsTotals_nil

/-- Two problems, with one and two batches. -/
example : ∃ effs, collect fractionText (demoArgs 2 5 none 1 true) 5 [⟨demoDesc, fun _ n => .ok (n - 1, 1 / 2)⟩, demoProblem] none = some (effs, none) ∧
    (batches effs).map (fun b => (b.2.num_shots, b.2.num_correct)) = [(2, 1), (2, 2), (3, 3)] := by
  refine ⟨_, by with_unfolding_all rfl, ?_⟩
  with_unfolding_all rfl

example : CleanRow fractionText (demoDesc, ⟨2, 1, 1 / 2⟩) := by
  refine ⟨fractionText_faithful _, fractionText_faithful _, ?_, ?_, ?_⟩ <;> (unfold CleanText; decide)

/-! ## C49: data files survive restarts -/

/-- At every point of a run that appends, except between the creation of a new file and its header, the file holds what it held
before followed by the rows of the completed batches (all sampled ones, except possibly the one just sampled). A new file
starts with the header, and does not exist before that. -/
theorem c49_crash_partial (F : FloatText) (a : CollectArgs) (fuel : Nat) (probs : List DecodingProblem) (file : Option Text)
    (effs part : List Eff) (err : Option PyErr) (ho : a.has_out = true) (hd : a.discard_previous_data = false)
    (h : collect F a fuel probs file = some (effs, err)) (hp : part <+: effs) (hw : part.getLast? ≠ some .truncate) :
    ∃ rows, rows <+: batches part ∧ (batches part).length ≤ rows.length + 1 ∧
      ((file = none ∧ rows = [] ∧ fileAfter file part = none) ∨
        fileAfter file part = some (file.getD (line csvHeader) ++ rowsText F rows)) := by
  simp only [collect, Option.map_eq_some_iff, Prod.mk.injEq] at h
  obtain ⟨⟨effs', err'⟩, h1, rfl, rfl⟩ := h
  obtain ⟨bss, _, rfl, _, _⟩ := collectProblems_loops h1
  rw [ho] at hp
  cases file with
  | some t =>
    simp only [startEffs, hd, Bool.false_eq_true, false_or, reduceCtorEq, and_false, if_false, List.cons_append,
      List.nil_append] at hp
    rcases part with _ | ⟨x, part⟩
    · exact ⟨[], by simp [batches], by simp [batches], Or.inr (by simp [fileAfter, rowsText])⟩
    rw [List.cons_prefix_cons] at hp
    obtain ⟨rfl, hp⟩ := hp
    obtain ⟨rows, r1, r2, r3⟩ := fileAfter_prefix F _ t part hp
    exact ⟨rows, by simpa [batches] using r1, by simpa [batches] using r2, Or.inr (by simpa [fileAfter, Eff.apply] using r3)⟩
  | none =>
    simp only [startEffs, or_true, and_true, if_true, List.cons_append, List.nil_append] at hp
    rcases part with _ | ⟨x, part⟩
    · exact ⟨[], by simp [batches], by simp [batches], Or.inl ⟨rfl, rfl, rfl⟩⟩
    rw [List.cons_prefix_cons] at hp
    obtain ⟨rfl, hp⟩ := hp
    rcases part with _ | ⟨x, part⟩
    · exact ⟨[], by simp [batches], by simp [batches], Or.inl ⟨rfl, rfl, rfl⟩⟩
    rw [List.cons_prefix_cons] at hp
    obtain ⟨rfl, hp⟩ := hp
    rcases part with _ | ⟨x, part⟩
    · exact absurd rfl hw
    rw [List.cons_prefix_cons] at hp
    obtain ⟨rfl, hp⟩ := hp
    obtain ⟨rows, r1, r2, r3⟩ := fileAfter_prefix F _ (line csvHeader) part hp
    exact ⟨rows, by simpa [batches] using r1, by simpa [batches] using r2, Or.inr (by simpa [fileAfter, Eff.apply] using r3)⟩

/-- The header is written (after emptying the file) exactly when the file is new or to be discarded. -/
theorem c49_header (F : FloatText) (a : CollectArgs) (fuel : Nat) (probs : List DecodingProblem) (file : Option Text)
    (effs : List Eff) (err : Option PyErr) (h : collect F a fuel probs file = some (effs, err)) :
    (Eff.truncate ∈ effs ↔ a.has_out = true ∧ (a.discard_previous_data = true ∨ file = none)) ∧
    (Eff.truncate ∈ effs → ∃ rest, effs = .print csvHeader :: .truncate :: .write (line csvHeader) :: rest ∧ Eff.truncate ∉ rest) := by
  simp only [collect, Option.map_eq_some_iff, Prod.mk.injEq] at h
  obtain ⟨⟨effs', err'⟩, h1, rfl, rfl⟩ := h
  obtain ⟨bss, _, rfl, _, _⟩ := collectProblems_loops h1
  have hb : Eff.truncate ∉ bss.flatten.flatMap (batchEffs F a.has_out) := by
    intro hm
    obtain ⟨b, _, hb⟩ := List.mem_flatMap.mp hm
    simp only [batchEffs, recordEffs] at hb
    cases a.has_out <;> simp at hb
  unfold startEffs
  by_cases hc : a.has_out = true ∧ (a.discard_previous_data = true ∨ file = none)
  · rw [if_pos hc]
    exact ⟨⟨fun _ => hc, fun _ => by simp⟩, fun _ => ⟨_, rfl, hb⟩⟩
  · rw [if_neg hc]
    have : Eff.truncate ∉ [Eff.print csvHeader] ++ bss.flatten.flatMap (batchEffs F a.has_out) := by
      simp [hb]
    exact ⟨⟨fun hm => absurd hm this, fun h => absurd h hc⟩, fun hm => absurd hm this⟩

/-- After any number of appending runs, each finished or killed at any point outside that window, the file holds the header, the
rows it held at the beginning and, run by run, the rows of the completed batches. -/
theorem c49_restarts_partial (F : FloatText) (file0 : Option Text) (rows0 : List Row)
    (h0 : (file0 = none ∧ rows0 = []) ∨ file0 = some (dataFile F rows0)) (file : Option Text) (runs : List (List Row))
    (h : Restarts F file0 file runs) :
    ∃ kept : List (List Row), List.Forall₂ (fun s k => k <+: s ∧ s.length ≤ k.length + 1) runs kept ∧
      ((file = none ∧ file0 = none ∧ kept.flatten = []) ∨ file = some (dataFile F (rows0 ++ kept.flatten))) := by
  induction h with
  | start =>
    refine ⟨[], .nil, ?_⟩
    rcases h0 with ⟨h0, _⟩ | h0
    · exact Or.inl ⟨h0, h0, rfl⟩
    · exact Or.inr (by simpa using h0)
  | @run file runs a fuel probs effs err part _ ho hd hc hp hw ih =>
    obtain ⟨kept, hk, hf⟩ := ih
    obtain ⟨rows, r1, r2, r3⟩ := c49_crash_partial F a fuel probs file effs part err ho hd hc hp hw
    refine ⟨kept ++ [rows], List.rel_append hk (.cons ⟨r1, r2⟩ .nil), ?_⟩
    have hfl : (kept ++ [rows]).flatten = kept.flatten ++ rows := by simp
    rw [hfl]
    rcases hf with ⟨hf, hf0, hke⟩ | hf
    · have hr0 : rows0 = [] := by
        rcases h0 with ⟨_, h0⟩ | h0
        · exact h0
        · rw [hf0] at h0; cases h0
      rcases r3 with ⟨_, hr, r3⟩ | r3
      · exact Or.inl ⟨r3, hf0, by rw [hke, hr]; rfl⟩
      · refine Or.inr ?_
        rw [r3, hf, hr0, hke]
        simp [dataFile]
    · rcases r3 with ⟨h', _⟩ | r3
      · rw [hf] at h'; cases h'
      · refine Or.inr ?_
        rw [r3, hf, Option.getD_some, dataFile, dataFile, List.append_assoc, ← rowsText_append, List.append_assoc]

/-- … and it reads back as the sums over these rows. -/
theorem c49_read_back_partial (F : FloatText) (rows0 : List Row) (file : Text) (runs : List (List Row))
    (h : Restarts F (some (dataFile F rows0)) (some file) runs) (hc0 : ∀ r ∈ rows0, CleanRow F r)
    (hc : ∀ s ∈ runs, ∀ r ∈ s, CleanRow F r) :
    ∃ kept data, List.Forall₂ (fun s k => k <+: s ∧ s.length ≤ k.length + 1) runs kept ∧
      readRecordedData F [file] = .ok data ∧ HoldsTotals data (rows0 ++ kept.flatten) := by
  obtain ⟨kept, hk, hf⟩ := c49_restarts_partial F _ rows0 (Or.inr rfl) _ _ h
  rcases hf with ⟨hf, _⟩ | hf
  · cases hf
  cases hf
  refine ⟨kept, _, hk, read_dataFile F _ ?_, holdsTotals_fold _ holdsTotals_nil⟩
  intro r hr
  rcases List.mem_append.mp hr with hr | hr
  · exact hc0 r hr
  · obtain ⟨k, hkm, hrk⟩ := List.mem_flatten.mp hr
    obtain ⟨i, hi, rfl⟩ := List.getElem_of_mem hkm
    have hlen := hk.length_eq
    have := (List.forall₂_iff_get.mp hk).2 i (by omega) hi
    exact hc _ (List.getElem_mem (by omega)) r (this.1.subset hrk)

/-- In the window between the creation of the file and the header the claim fails: the next run finds an (empty) file, writes no
header, and its first row is then taken for the header. If it is the only one, reading the file finds no data at all. -/
theorem c49_header_window_false (F : FloatText) (a : CollectArgs) (probs : List DecodingProblem) (fuel : Nat)
    (effs effs2 : List Eff) (err err2 : Option PyErr) (r : Row) (ho : a.has_out = true) (hd : a.discard_previous_data = false)
    (h : collect F a fuel probs none = some (effs, err)) :
    ∃ part, part <+: effs ∧ fileAfter none part = some [] ∧
      (collect F a fuel probs (some []) = some (effs2, err2) → batches effs2 = [r] → CleanRow F r →
        ∃ text, fileAfter (some []) effs2 = some text ∧ readRecordedData F [text] = .ok []) := by
  refine ⟨[.print csvHeader, .truncate], ?_, rfl, ?_⟩
  · obtain ⟨rest, hr, _⟩ := (c49_header F a fuel probs none effs err h).2
      ((c49_header F a fuel probs none effs err h).1.mpr ⟨ho, Or.inr rfl⟩)
    rw [hr]
    exact ⟨_, rfl⟩
  · intro h2 hb hc
    refine ⟨_, c48_file F a fuel probs (some []) effs2 err2 ho h2, ?_⟩
    rw [hb, hd]
    have e := dictReader_lines (recordFields F r.1 r.2) [] (recordFields_ok _ _ hc) (by simp)
    have e2 : (if false = true then line csvHeader else (some ([] : Text)).getD (line csvHeader)) ++ rowsText F [r]
        = line (joinComma (recordFields F r.1 r.2)) ++ [].flatMap fun l => line (joinComma l) := by
      simp [rowsText, record]
    rw [readRecordedData, List.foldlM_cons, e2, e]
    rfl

theorem collect_of_problems {F : FloatText} {a : CollectArgs} {fuel : Nat} {probs : List DecodingProblem} {body : List Eff}
    {err : Option PyErr} (h : collectProblems F a fuel probs = some (body, err)) (file : Option Text) :
    collect F a fuel probs file = some (startEffs a.has_out a.discard_previous_data file ++ body, err) := by
  rw [collect, h]; rfl

theorem demo_two : collectProblems fractionText (demoArgs 2 5 none 1 true) 5 [demoProblem]
    = some ([(demoDesc, ⟨2, 2, 2⟩), (demoDesc, ⟨3, 3, 3⟩)].flatMap (batchEffs fractionText true), none) := by
  with_unfolding_all rfl

theorem demo_one : collectProblems fractionText (demoArgs 2 2 none 1 true) 5 [demoProblem]
    = some ([(demoDesc, ⟨2, 2, 2⟩)].flatMap (batchEffs fractionText true), none) := by
  with_unfolding_all rfl

/-- A run of one batch, as in the theorem. -/
example : ∃ effs effs2 r, collect fractionText (demoArgs 2 2 none 1 true) 5 [demoProblem] none = some (effs, none) ∧
    collect fractionText (demoArgs 2 2 none 1 true) 5 [demoProblem] (some []) = some (effs2, none) ∧
    batches effs2 = [r] ∧ CleanRow fractionText r := by
  refine ⟨_, _, (demoDesc, ⟨2, 2, 2⟩), collect_of_problems demo_one none, collect_of_problems demo_one (some []), ?_, ?_⟩
  · rw [batches_append, batches_flatMap]
    simp [startEffs, batches, demoArgs]
  · refine ⟨fractionText_faithful _, fractionText_faithful _, ?_, ?_, ?_⟩ <;> (unfold CleanText; decide)

/-- Rows torn in the middle of a write are outside the claim, too: if a run dies after all of a row except its line break
reached the disk, the first row of the next run is glued to it, and reading the file silently loses that row. -/
theorem c49_torn_row_false (F : FloatText) (r1 r2 : Row) (h1 : CleanRow F r1) (h2 : CleanRow F r2) :
    readRecordedData F [dataFile F [] ++ record F r1.1 r1.2 ++ line (record F r2.1 r2.2)] = .ok [r1] := by
  have hj : ∀ (x y : List Text) (u v : Text), joinComma (x ++ [u]) ++ joinComma (v :: y) = joinComma (x ++ (u ++ v) :: y) := by
    intro x y u v
    induction x with
    | nil =>
      cases y with
      | nil => simp [joinComma_one]
      | cons w y => simp [joinComma_one, joinComma_cons]
    | cons z x ih =>
      have c1 : ∀ (l : List Text) (q : Text), joinComma (z :: (x ++ q :: l)) = z ++ ',' :: joinComma (x ++ q :: l) := by
        intro l q
        cases x with
        | nil => exact joinComma_cons z q l
        | cons w x => exact joinComma_cons z w (x ++ q :: l)
      have := c1 [] u
      rw [List.cons_append, c1 [] u, List.cons_append, c1, ← ih]
      simp
  obtain ⟨f, y, hy⟩ : ∃ f y, recordFields F r2.1 r2.2 = f :: y := ⟨_, _, rfl⟩
  have h12 : recordFields F r1.1 r1.2 = (recordFields F r1.1 r1.2).take 12 ++ [intStr 2] := rfl
  have hok : LineOK ((recordFields F r1.1 r1.2).take 12 ++ (intStr 2 ++ f) :: y) := by
    have o1 := (recordFields_ok F r1 h1).1
    have o2 := (recordFields_ok F r2 h2).1
    rw [hy] at o2
    refine ⟨?_, by simp, by simp [recordFields]⟩
    intro g hg
    rcases List.mem_append.mp hg with hg | hg
    · exact o1 g (List.mem_of_mem_take hg)
    · rcases List.mem_cons.mp hg with rfl | hg
      · intro c hc
        rcases List.mem_append.mp hc with hc | hc
        · exact intStr_clean 2 c hc
        · exact o2 f (by simp) c hc
      · exact o2 g (by simp [hg])
  have e := dictReader_lines csvColumns [(recordFields F r1.1 r1.2).take 12 ++ (intStr 2 ++ f) :: y] csvColumns_ok (by
    intro r hr
    rw [List.mem_singleton.mp hr]
    exact hok)
  have e2 : dataFile F [] ++ record F r1.1 r1.2 ++ line (record F r2.1 r2.2)
      = line (joinComma csvColumns) ++ [(recordFields F r1.1 r1.2).take 12 ++ (intStr 2 ++ f) :: y].flatMap
          fun l => line (joinComma l) := by
    rw [List.flatMap_cons, List.flatMap_nil, ← hj, ← h12, ← hy]
    simp [dataFile, rowsText, record, csvHeader, line]
  have e3 := read_ok F [dataFile F [] ++ record F r1.1 r1.2 ++ line (record F r2.1 r2.2)] [[r1]] (.cons (by
    rw [e2, e, List.map_singleton, List.mapM_cons, List.mapM_nil]
    have := parseRow_record F r1 h1 ((intStr 2 ++ f) :: y)
    rw [this]
    rfl) .nil)
  rw [e3]
  obtain ⟨d, v⟩ := r1
  simp [addShots, PyDict.get?, PyDict.set, ShotData.add]

/-- Two runs, the first one killed after its second batch was sampled but not recorded. -/
example : ∃ file runs, Restarts fractionText none file runs ∧ runs.map List.length = [2, 1] := by
  obtain ⟨a, ha, ho, hd⟩ : ∃ a, a = demoArgs 2 5 none 1 true ∧ a.has_out = true ∧ a.discard_previous_data = false :=
    ⟨_, rfl, rfl, rfl⟩
  obtain ⟨b, hb, hbo, hbd⟩ : ∃ b, b = demoArgs 2 2 none 1 true ∧ b.has_out = true ∧ b.discard_previous_data = false :=
    ⟨_, rfl, rfl, rfl⟩
  have h1 := demo_two
  have h2 := demo_one
  rw [← ha] at h1
  rw [← hb] at h2
  have r1 := Restarts.run (F := fractionText) (file0 := none) (part := startEffs a.has_out a.discard_previous_data none ++
      (batchEffs fractionText true (demoDesc, ⟨2, 2, 2⟩) ++ [.sampled demoDesc ⟨3, 3, 3⟩]))
    .start ho hd (collect_of_problems h1 none)
    ⟨recordEffs fractionText true demoDesc ⟨3, 3, 3⟩, by simp [batchEffs]⟩ (by simp)
  have r2 := Restarts.run r1 hbo hbd (collect_of_problems h2 _) (List.prefix_refl _) (by simp [batchEffs, recordEffs])
  refine ⟨_, _, r2, ?_⟩
  have hs : ∀ o d f, batches (startEffs o d f) = [] := by
    intro o d f
    unfold startEffs batches
    split_ifs <;> rfl
  simp only [List.nil_append, List.map_append, List.map_cons, List.map_nil, batches_append, hs, batches_batchEffs, batches_flatMap]
  rfl

end Honeycomb
