import Verif.Spec.Pipeline
import Verif.Props.Script
import Verif.Props.Figures
import Verif.Props.LambdaFigures

/-!
# From the collection script to the figures (C91), the command lines of the scripts (C92), the example (C93)
-/

namespace Honeycomb

/-! ## Lemmas -/

theorem scriptDescs_sub (dir : Option String) {d : DecodingProblemDesc} (h : d ∈ scriptDescs dir) : d ∈ allDescs := by
  rw [scriptDescs, List.mem_append] at h
  rw [allDescs, List.mem_append]
  rcases h with h | h
  · exact .inl h
  · split_ifs at h
    · simp at h
    · exact .inr h

theorem select_sub {probs sel : List DecodingProblem} {i : Option Int} (h : selectProblems probs i = .ok sel) : ∀ p ∈ sel, p ∈ probs := by
  cases i with
  | none => cases h; exact fun p hp => hp
  | some i =>
    rw [selectProblems] at h
    cases hx : pyIndex probs i with
    | error e => rw [hx] at h; cases h
    | ok p =>
      rw [hx] at h
      cases h
      intro q hq
      rw [List.mem_singleton] at hq
      subst hq
      rw [pyIndex] at hx
      split at hx
      · rename_i x hx'
        cases hx
        split_ifs at hx'
        · exact List.mem_of_getElem? hx'
        · exact List.mem_of_getElem? hx'
      · cases hx

/-- Every batch of a run of the script is for one of its problems. -/
theorem script_desc {F : FloatText} {s : ScriptArgs} {sample : DecodingProblemDesc → Nat → Int → Except PyErr (Int × Rat)} {fuel : Nat}
    {file : Option Text} {effs : List Eff} {err : Option PyErr} (h : collectData F s sample fuel file = some (effs, err)) :
    ∀ b ∈ batches effs, b.1 ∈ scriptDescs s.surface_dir := by
  rw [collectData] at h
  cases hp : selectProblems ((scriptDescs s.surface_dir).map fun d => (⟨d, sample d⟩ : DecodingProblem)) s.problem_id with
  | error e => rw [hp] at h; cases h; simp [batches]
  | ok probs =>
    rw [hp] at h
    cases ha : s.collectArgs with
    | error e => rw [ha] at h; cases h; simp [batches]
    | ok a =>
      rw [ha] at h
      obtain ⟨bss, l1, l2, -, l4⟩ := c48_order F a fuel probs file effs err h
      intro b hb
      rw [l2] at hb
      obtain ⟨bs, hbs, hb⟩ := List.mem_flatten.1 hb
      obtain ⟨k, hk, rfl⟩ := List.getElem_of_mem hbs
      obtain ⟨j, hj, rfl⟩ := List.getElem_of_mem hb
      have := (List.forall₂_iff_get.mp l4).2 k (by rw [List.length_take]; omega) hk
      rw [(this j _ (List.getElem?_eq_getElem hj)).1]
      have hm := select_sub hp _ (List.mem_of_mem_take (List.getElem_mem (l := probs.take bss.length) (by rw [List.length_take]; omega : k < _)))
      obtain ⟨d, hd, e⟩ := List.mem_map.1 hm
      simp only [List.get_eq_getElem]
      rw [← e]
      exact hd

/-- The batches of a run of the script are sensible. -/
theorem script_batch {F : FloatText} {s : ScriptArgs} {sample : DecodingProblemDesc → Nat → Int → Except PyErr (Int × Rat)} {fuel : Nat}
    {file : Option Text} {effs : List Eff} {err : Option PyErr} (hs : Honest F sample) (hm : ∀ m, s.max_batch_size = some m → 1 ≤ m)
    (h : collectData F s sample fuel file = some (effs, err)) :
    ∀ b ∈ batches effs, b.1 ∈ allDescs ∧ 1 ≤ b.2.num_shots ∧ 0 ≤ b.2.num_correct ∧ b.2.num_correct ≤ b.2.num_shots ∧ F.Faithful b.2.total_processing_seconds := by
  intro b hb
  refine ⟨scriptDescs_sub _ (script_desc h b hb), ?_⟩
  have hmem : b ∈ rowsOf b.1 effs := List.mem_filter.2 ⟨hb, by simp⟩
  obtain ⟨m, e, err', -, -, hl, -⟩ := script_loop h b.1 (List.ne_nil_of_mem hmem)
  have hbatch : 1 ≤ (collectArgsOf s m e).batch := by
    show 1 ≤ ((some (s.max_batch_size.getD (2 ^ 15)) : Option Int).getD m)
    rw [Option.getD_some]
    cases hx : s.max_batch_size with
    | none => simp
    | some x => exact hm x hx
  have hfirst : 1 ≤ (collectArgsOf s m e).firstShots := by
    unfold CollectArgs.firstShots
    split_ifs
    · exact hbatch
    · show (1 : Int) ≤ 25
      norm_num
  obtain ⟨k, hk, e'⟩ := List.getElem_of_mem hmem
  have hsm := (hl.sampled k b (by rw [List.getElem?_eq_getElem hk, e'])).2
  have hpos := hl.shots_pos hbatch hfirst b hmem
  exact ⟨hpos, hs _ _ _ _ _ hpos hsm⟩

/-- A run that came to its end did not stop between the creation of the file and its header. -/
theorem script_last {F : FloatText} {s : ScriptArgs} {sample : DecodingProblemDesc → Nat → Int → Except PyErr (Int × Rat)} {fuel : Nat}
    {file : Option Text} {effs : List Eff} {err : Option PyErr} (h : collectData F s sample fuel file = some (effs, err)) :
    effs.getLast? ≠ some .truncate := by
  rw [collectData] at h
  cases hp : selectProblems ((scriptDescs s.surface_dir).map fun d => (⟨d, sample d⟩ : DecodingProblem)) s.problem_id with
  | error e => rw [hp] at h; cases h; simp
  | ok probs =>
    rw [hp] at h
    cases ha : s.collectArgs with
    | error e => rw [ha] at h; cases h; simp
    | ok a =>
      rw [ha] at h
      simp only [collect, Option.map_eq_some_iff, Prod.mk.injEq] at h
      obtain ⟨⟨effs', err'⟩, h1, rfl, rfl⟩ := h
      obtain ⟨bss, _, rfl, _, _⟩ := collectProblems_loops h1
      have hno : Eff.truncate ∉ bss.flatten.flatMap (batchEffs F a.has_out) := by
        intro hm
        obtain ⟨b, -, hb⟩ := List.mem_flatMap.1 hm
        unfold batchEffs recordEffs at hb
        split_ifs at hb <;> simp at hb
      have hstart : (startEffs a.has_out a.discard_previous_data file).getLast? ≠ some .truncate := by
        unfold startEffs
        split_ifs <;> simp
      rw [List.getLast?_append]
      cases hx : (bss.flatten.flatMap (batchEffs F a.has_out)).getLast? with
      | none => exact hstart
      | some x =>
        intro he
        cases he
        exact hno (List.mem_of_getLast? hx)

theorem batches_prefix {a b : List Eff} (h : a <+: b) : batches a <+: batches b := by
  obtain ⟨c, rfl⟩ := h
  rw [batches_append]
  exact List.prefix_append _ _

/-- A sensible row for a problem of the script. -/
def GoodRow (F : FloatText) (b : Row) : Prop :=
  b.1 ∈ allDescs ∧ 1 ≤ b.2.num_shots ∧ 0 ≤ b.2.num_correct ∧ b.2.num_correct ≤ b.2.num_shots ∧ F.Faithful b.2.total_processing_seconds

theorem keptOf_snoc {runs : List (Bool × List Row)} {s : Bool × List Row} {k : List Row} {kept : List Row} (h : KeptOf runs kept) (hk : k <+: s.2)
    (hl : s.2.length ≤ k.length + 1) (he : s.1 = true → k = s.2) : KeptOf (runs ++ [s]) (kept ++ k) := by
  obtain ⟨parts, h1, rfl⟩ := h
  exact ⟨parts ++ [k], List.rel_append h1 (.cons ⟨hk, hl, he⟩ .nil), by simp⟩

theorem collectedFile_text {F : FloatText} {file : Option Text} {runs : List (Bool × List Row)} (h : CollectedFile F file runs) :
    ∃ kept, KeptOf runs kept ∧ (∀ b ∈ kept, GoodRow F b) ∧ ((file = none ∧ kept = []) ∨ file = some (dataFile F kept)) := by
  induction h with
  | start => exact ⟨[], ⟨[], .nil, rfl⟩, by simp, .inl ⟨rfl, rfl⟩⟩
  | @run file runs s sample fuel effs err part ended _ ho hm hs hc hp hw hend ih =>
    obtain ⟨kept, hk, hg, hf⟩ := ih
    have hgood : ∀ b ∈ batches part, GoodRow F b := fun b hb => script_batch hs hm hc b ((batches_prefix hp).subset hb)
    have hcrash : ∃ rows, rows <+: batches part ∧ (batches part).length ≤ rows.length + 1 ∧ (ended = true → rows = batches part) ∧
        ((file = none ∧ rows = [] ∧ fileAfter file part = none) ∨ fileAfter file part = some (file.getD (line csvHeader) ++ rowsText F rows) ∨
          (part = [] ∧ rows = [])) := by
      rw [collectData] at hc
      cases hsel : selectProblems ((scriptDescs s.surface_dir).map fun d => (⟨d, sample d⟩ : DecodingProblem)) s.problem_id with
      | error e =>
        rw [hsel] at hc
        cases hc
        rw [List.prefix_nil] at hp
        subst hp
        exact ⟨[], by simp [batches], by simp [batches], by simp [batches], .inr (.inr ⟨rfl, rfl⟩)⟩
      | ok probs =>
        rw [hsel] at hc
        cases ha : s.collectArgs with
        | error e =>
          rw [ha] at hc
          cases hc
          rw [List.prefix_nil] at hp
          subst hp
          exact ⟨[], by simp [batches], by simp [batches], by simp [batches], .inr (.inr ⟨rfl, rfl⟩)⟩
        | ok a =>
          rw [ha] at hc
          obtain ⟨o1, o2⟩ := collectArgs_out ha
          by_cases hx : part = effs
          · subst hx
            have := c48_file F a fuel probs file part err (o1.trans ho) hc
            rw [o2, if_neg (by simp)] at this
            exact ⟨batches part, List.prefix_refl _, by omega, fun _ => rfl, .inr (.inl this)⟩
          · obtain ⟨rows, r1, r2, r3⟩ := c49_crash_partial F a fuel probs file effs part err (o1.trans ho) o2 hc hp hw
            refine ⟨rows, r1, r2, fun he => absurd (hend he) hx, ?_⟩
            rcases r3 with r3 | r3
            · exact .inl r3
            · exact .inr (.inl r3)
    obtain ⟨rows, r1, r2, r2', r3⟩ := hcrash
    refine ⟨kept ++ rows, keptOf_snoc hk r1 r2 r2', fun b hb => ?_, ?_⟩
    · rcases List.mem_append.1 hb with hb | hb
      · exact hg b hb
      · exact hgood b (r1.subset hb)
    · rcases r3 with ⟨h1, rfl, h3⟩ | h3 | ⟨rfl, rfl⟩
      · rcases hf with ⟨-, rfl⟩ | hf
        · exact .inl ⟨h3, rfl⟩
        · rw [h1] at hf; cases hf
      · refine .inr ?_
        rw [h3]
        rcases hf with ⟨rfl, rfl⟩ | rfl
        · simp [dataFile]
        · rw [Option.getD_some, dataFile, dataFile, List.append_assoc, ← rowsText_append]
      · rw [List.append_nil]
        exact hf

theorem goodRow_clean {F : FloatText} (hF : ∀ d ∈ allDescs, F.Faithful d.noise) {b : Row} (h : GoodRow F b) : CleanRow F b := by
  obtain ⟨h1, -, -, -, h5⟩ := h
  have hn := hF _ h1
  rw [mem_allDescs] at h1
  have hc : CleanText b.1.circuit_style.toList ∧ CleanText b.1.preserved_observable.toList ∧ CleanText b.1.decoder.toList := by
    clear hn h5
    generalize b.1 = d at h1
    cases h1 with
    | honeycomb p u style obs decoder hp hu hst ho hdec =>
      simp only [HoneycombLayout.asDecoderProblemDesc]
      refine ⟨?_, ?_, ?_⟩
      · rcases hst with rfl | rfl | rfl <;> (unfold CleanText; decide)
      · rcases ho with rfl | rfl <;> (unfold CleanText; decide)
      · fin_cases hdec <;> (unfold CleanText; decide)
    | surface p d noise_name obs decoder hp hd hst ho hdec =>
      simp only [surfaceCodeDesc]
      refine ⟨?_, ?_, ?_⟩
      · rcases hst with rfl | rfl <;> (unfold CleanText; decide)
      · rcases ho with rfl | rfl <;> (unfold CleanText; decide)
      · fin_cases hdec <;> (unfold CleanText; decide)
  exact ⟨hn, h5, hc.1, hc.2.1, hc.2.2⟩

theorem csvPaths_eq (isDir : String → Bool) (inside : String → List String) (args : List String) :
    csvPaths isDir inside args = namedFiles isDir inside args := by
  have key : ∀ acc, args.foldl (fun csvs path => if isDir path then csvs ++ inside path else csvs ++ [path]) acc =
      acc ++ namedFiles isDir inside args := by
    induction args with
    | nil => intro acc; simp [namedFiles]
    | cons a args ih =>
      intro acc
      rw [List.foldl_cons, ih, namedFiles, namedFiles, List.flatMap_cons, ← List.append_assoc]
      split_ifs <;> rfl
  rw [csvPaths, key, List.nil_append]

theorem readPaths_ok (F : FloatText) {read : String → Except PyErr Text} {paths : List String} {files : List Text}
    (h : List.Forall₂ (fun p t => read p = .ok t) paths files) : readPaths F read paths = readRecordedData F files := by
  rw [readPaths, readRecordedData]
  generalize ([] : PyDict DecodingProblemDesc ShotData) = d
  induction h generalizing d with
  | nil => rfl
  | cons h _ ih =>
    rw [List.foldlM_cons, List.foldlM_cons, h]
    exact bind_congr fun d' => ih d'

theorem forall₂_map_self {α β : Type} {R : α → β → Prop} {f : α → β} {l : List α} (h : ∀ a ∈ l, R a (f a)) : List.Forall₂ R l (l.map f) := by
  induction l with
  | nil => exact .nil
  | cons a l ih => exact .cons (h a (by simp)) (ih fun b hb => h b (by simp [hb]))

theorem sum_good {F : FloatText} {rows : List Row} (h : ∀ b ∈ rows, GoodRow F b) :
    (rows.length : Int) ≤ (sumShots (rows.map Prod.snd)).num_shots ∧ 0 ≤ (sumShots (rows.map Prod.snd)).num_correct ∧
      (sumShots (rows.map Prod.snd)).num_correct ≤ (sumShots (rows.map Prod.snd)).num_shots := by
  induction rows with
  | nil => simp [sumShots]
  | cons b rows ih =>
    obtain ⟨i1, i2, i3⟩ := ih fun c hc => h c (by simp [hc])
    obtain ⟨-, g2, g3, g4, -⟩ := h b (by simp)
    simp only [sumShots, List.map_cons, List.sum_cons, List.length_cons] at i1 i2 i3 ⊢
    push_cast
    omega

theorem totals_good {F : FloatText} {rows : List Row} {data : ProblemShotData} (h : ∀ b ∈ rows, GoodRow F b) (ht : HoldsTotals data rows) :
    Plottable data ∧ ∀ e ∈ data, e.1 ∈ allDescs := by
  have key : ∀ e ∈ data, e.1 ∈ allDescs ∧ 0 < e.2.num_shots ∧ 0 ≤ e.2.num_correct ∧ e.2.num_correct ≤ e.2.num_shots := by
    intro e he
    have h1 := PyDict.get?_of_mem ht.1 (k := e.1) (v := e.2) he
    rw [ht.2, totalFor] at h1
    split_ifs at h1 with h0
    have h2 := sum_good (F := F) (rows := rows.filter fun r => decide (r.1 = e.1)) fun b hb => h b (List.mem_of_mem_filter hb)
    have h3 : (0 : Int) < (rows.filter fun r => decide (r.1 = e.1)).length := by exact_mod_cast List.length_pos_of_ne_nil h0
    rw [Option.some.inj h1] at h2
    have h4 := lt_of_lt_of_le h3 h2.1
    obtain ⟨b, hb⟩ := List.exists_mem_of_ne_nil _ h0
    obtain ⟨hb, hbe⟩ := List.mem_filter.1 hb
    rw [← of_decide_eq_true hbe]
    exact ⟨(h b hb).1, h4, h2.2⟩
  have hall : ∀ e ∈ data, e.1 ∈ allDescs := fun e he => (key e he).1
  refine ⟨⟨ht.1, fun e he => (key e he).2.1, fun e he => (key e he).2.2, fun e he => ?_, fun e he => ?_⟩, hall⟩
  all_goals
    have := c66_cells e.1 (hall e he)
    omega

theorem faithful_descs {F : FloatText} (hF : ∀ p ∈ USED_NOISE_VALUES, F.Faithful p) : ∀ d ∈ allDescs, F.Faithful d.noise :=
  fun d hd => hF _ (collected_used ((mem_allDescs d).1 hd))

/-! ## C91: from the collection script to the figures -/

/-- C91: the figure scripts, given files that the collection script left behind, read the totals of all batches of all runs (except possibly the
last batch of runs that were killed), and this is data that the figures can show. -/
theorem c91_reads (F : FloatText) (hF : ∀ p ∈ USED_NOISE_VALUES, F.Faithful p) (fs : Files) (args : List String) (ha : args ≠ [])
    (runs : String → List (Bool × List Row))
    (hf : ∀ path ∈ namedFiles fs.isDir fs.glob args, ∃ text, fs.read path = .ok text ∧ CollectedFile F (some text) (runs path)) :
    ∃ (kept : String → List Row) (data : ProblemShotData), (∀ path ∈ namedFiles fs.isDir fs.glob args, KeptOf (runs path) (kept path)) ∧
      readArguments F fs args = .ok data ∧ HoldsTotals data ((namedFiles fs.isDir fs.glob args).flatMap kept) ∧ Plottable data ∧
      ∀ e ∈ data, e.1 ∈ allDescs := by
  have hk : ∀ path, ∃ kept, path ∈ namedFiles fs.isDir fs.glob args →
      KeptOf (runs path) kept ∧ (∀ b ∈ kept, GoodRow F b) ∧ fs.read path = .ok (dataFile F kept) := by
    intro path
    by_cases hp : path ∈ namedFiles fs.isDir fs.glob args
    · obtain ⟨text, h1, h2⟩ := hf path hp
      obtain ⟨kept, k1, k2, ⟨k3, -⟩ | k3⟩ := collectedFile_text h2
      · cases k3
      · cases k3
        exact ⟨kept, fun _ => ⟨k1, k2, h1⟩⟩
    · exact ⟨[], fun h => absurd h hp⟩
  choose kept hk using hk
  obtain ⟨data, h1, h2⟩ := c50_data_files F ((namedFiles fs.isDir fs.glob args).map kept) (by
    intro rows hr r hrr
    obtain ⟨path, hp, rfl⟩ := List.mem_map.1 hr
    exact goodRow_clean (faithful_descs hF) ((hk path hp).2.1 r hrr))
  rw [← List.flatMap_def] at h2
  have hgood : ∀ b ∈ (namedFiles fs.isDir fs.glob args).flatMap kept, GoodRow F b := by
    intro b hb
    obtain ⟨path, hp, hb⟩ := List.mem_flatMap.1 hb
    exact (hk path hp).2.1 b hb
  refine ⟨kept, data, fun path hp => (hk path hp).1, ?_, h2, totals_good hgood h2⟩
  rw [readArguments, if_neg ha, csvPaths_eq, readPaths_ok F (files := ((namedFiles fs.isDir fs.glob args).map kept).map (dataFile F)) ?_, h1]
  rw [List.map_map]
  exact forall₂_map_self fun path hp => (hk path hp).2.2

/-- C91: the threshold script then draws both figures without an exception, and they show these totals. -/
theorem c91_threshold (F : FloatText) (fs : Files) (args : List String) (data : ProblemShotData) (hr : readArguments F fs args = .ok data)
    (hp : Plottable data) (hk : ∀ e ∈ data, e.1 ∈ allDescs) :
    ∃ fig fig2, thresholdMain F fs args = .ok (fig, fig2) ∧ ThresholdFigure data true fig ∧ ThresholdFigure data false fig2 := by
  obtain ⟨fig, h1, h2⟩ := c71_panels data true hp hk
  obtain ⟨fig2, h3, h4⟩ := c71_panels data false hp hk
  refine ⟨fig, fig2, ?_, h2, h4⟩
  rw [thresholdMain, hr]
  show (plotThresholds data true >>= _) = _
  rw [h1]
  show (plotThresholds data false >>= _) = _
  rw [h3]
  rfl

/-- C91: the same for the detection fraction script. -/
theorem c91_fractions (F : FloatText) (fs : Files) (args : List String) (data : ProblemShotData) (hr : readArguments F fs args = .ok data)
    (hp : Plottable data) (hk : ∀ e ∈ data, e.1 ∈ allDescs) :
    ∃ cols, detectionFractionMain F fs args = .ok cols ∧ FractionFigure data cols := by
  obtain ⟨cols, h1, h2, h3, -⟩ := c72_columns data hp.nodup (by
    have : USED_NOISE_VALUES.toFinset.card ≤ 16 := le_trans (List.toFinset_card_le _) (by decide)
    refine le_trans (Finset.card_le_card ?_) this
    intro p hp
    rw [List.mem_toFinset, List.mem_map] at hp
    obtain ⟨e, he, rfl⟩ := hp
    exact List.mem_toFinset.2 (collected_used ((mem_allDescs _).1 (hk e he))))
  refine ⟨cols, ?_, ?_⟩
  · rw [detectionFractionMain, hr]
    exact h1
  · refine List.forall₂_iff_get.mpr ⟨h2.symm, fun i hi hi' => ?_⟩
    exact h3 i _ _ (List.getElem?_eq_getElem hi) (List.getElem?_eq_getElem hi')

/-- C91: the same for the four figures of the lambda script. -/
theorem c91_lambda (F : FloatText) (fs : Files) (args : List String) (data : ProblemShotData) (hr : readArguments F fs args = .ok data)
    (hp : Plottable data) (hk : ∀ e ∈ data, e.1 ∈ allDescs)
    {leastsq : (ℝ → ℝ) → ℝ} (hls : LeastsqMinimises leastsq) {linregress : List ℝ → List ℝ → LineFit}
    (hl : LinregressMinimises linregress) {isinf : ℝ → Prop} (hinf : ∀ j : Nat, ¬ isinf (1 * 2 ^ j) ∧ ¬ isinf (-1 * 2 ^ j)) :
    ∃ fuel figs, (∀ fuel', fuel ≤ fuel' → lambdaMain leastsq linregress isinf fuel' F fs args = some (.ok figs)) ∧
      LineFitFigure data false figs.linefits_all ∧ LineFitFigure data true figs.linefits ∧
      figs.lambda.map ComboColumn.title = ["SD6", "SI1000", "EM3"] ∧
      List.Forall₂ (fun col out => PanelShows data (fun _ => LambdaAt) col.2 out.curves ∧ out.marked = none) comboColumnsSpec figs.lambda ∧
      figs.teraquop.map ComboColumn.title = ["SD6", "SI1000", "EM3"] ∧
      List.Forall₂ (fun col out => PanelShows data (fun style D => QubitsAt D style) col.2 out.curves ∧
        MarksShown data col.2 out.curves (out.marked.getD [])) comboColumnsSpec figs.teraquop := by
  obtain ⟨p0, h0, h0'⟩ := c86_panels linregress hl data false hp hk
  obtain ⟨p1, h1, h1'⟩ := c86_panels linregress hl data true hp hk
  obtain ⟨f2, p2, h2, h2', h2''⟩ := c87_lambda hp hk hls hl hinf
  obtain ⟨f3, p3, h3, h3', h3''⟩ := c88_teraquop hp hk hls hl hinf
  refine ⟨max f2 f3, ⟨p0, p1, p2, p3⟩, fun fuel hf => ?_, h0', h1', h2', h2'', h3', h3''⟩
  have e2 := h2 fuel (by omega)
  have e3 := h3 fuel (by omega)
  rw [lambdaMain, hr]
  show ((liftM (plotLineFits linregress data false) : Search _) >>= _) = _
  rw [h0]
  show ((liftM (plotLineFits linregress data true) : Search _) >>= _) = _
  rw [h1]
  show ((plotLambda leastsq linregress isinf fuel data : Search _) >>= _) = _
  rw [e2]
  show ((plotTeraquop leastsq linregress isinf fuel data : Search _) >>= _) = _
  rw [e3]
  rfl

/-- C91: all figure scripts, given files that the collection script left behind, however many runs with whatever arguments wrote them and
whether or not they were killed: no script raises an exception, and all figures show the totals of the same batches. -/
theorem c91_pipeline (F : FloatText) (hF : ∀ p ∈ USED_NOISE_VALUES, F.Faithful p) (fs : Files) (args : List String) (ha : args ≠ [])
    (runs : String → List (Bool × List Row))
    (hf : ∀ path ∈ namedFiles fs.isDir fs.glob args, ∃ text, fs.read path = .ok text ∧ CollectedFile F (some text) (runs path))
    {leastsq : (ℝ → ℝ) → ℝ} (hls : LeastsqMinimises leastsq) {linregress : List ℝ → List ℝ → LineFit}
    (hl : LinregressMinimises linregress) {isinf : ℝ → Prop} (hinf : ∀ j : Nat, ¬ isinf (1 * 2 ^ j) ∧ ¬ isinf (-1 * 2 ^ j)) :
    ∃ (kept : String → List Row) (data : ProblemShotData), (∀ path ∈ namedFiles fs.isDir fs.glob args, KeptOf (runs path) (kept path)) ∧
      HoldsTotals data ((namedFiles fs.isDir fs.glob args).flatMap kept) ∧
      (∃ fig fig2, thresholdMain F fs args = .ok (fig, fig2) ∧ ThresholdFigure data true fig ∧ ThresholdFigure data false fig2) ∧
      (∃ cols, detectionFractionMain F fs args = .ok cols ∧ FractionFigure data cols) ∧
      ∃ fuel figs, (∀ fuel', fuel ≤ fuel' → lambdaMain leastsq linregress isinf fuel' F fs args = some (.ok figs)) ∧
        LineFitFigure data false figs.linefits_all ∧ LineFitFigure data true figs.linefits ∧
        List.Forall₂ (fun col out => PanelShows data (fun _ => LambdaAt) col.2 out.curves ∧ out.marked = none) comboColumnsSpec figs.lambda ∧
        List.Forall₂ (fun col out => PanelShows data (fun style D => QubitsAt D style) col.2 out.curves ∧
          MarksShown data col.2 out.curves (out.marked.getD [])) comboColumnsSpec figs.teraquop := by
  obtain ⟨kept, data, h1, h2, h3, h4, h5⟩ := c91_reads F hF fs args ha runs hf
  obtain ⟨fuel, figs, g1, g2, g3, -, g4, -, g5⟩ := c91_lambda F fs args data h2 h4 h5 hls hl hinf
  exact ⟨kept, data, h1, h3, c91_threshold F fs args data h2 h4 h5, c91_fractions F fs args data h2 h4 h5, fuel, figs, g1, g2, g3, g4, g5⟩

/-- The hypotheses are met: a directory with one file, written by a finished run for all problems and a second run that was killed as soon as it
started. All problems of the script have data. -/
example : ∃ (fs : Files) (runs : String → List (Bool × List Row)) (data : ProblemShotData),
    (∀ path ∈ namedFiles fs.isDir fs.glob ["data"], ∃ text, fs.read path = .ok text ∧ CollectedFile fractionText (some text) (runs path)) ∧
    readArguments fractionText fs ["data"] = .ok data ∧ ∀ d ∈ allDescs, data.get? d ≠ none := by
  obtain ⟨fuel, h⟩ := c81_terminates fractionText none none true none none none (by simp) oneError
    (fun d i n hn => ⟨n - 1, 1, rfl, by omega, by omega⟩) none
  obtain ⟨effs, h⟩ := h fuel (le_refl _)
  have hon : Honest fractionText oneError := by
    intro d i n c t hn hs
    cases hs
    exact ⟨by omega, by omega, fractionText_faithful _⟩
  have hc1 : CollectedFile fractionText (fileAfter none effs) ([] ++ [(true, batches effs)]) :=
    .run .start rfl (by simp [mainArgs]) hon h (List.prefix_refl _) (script_last h) fun _ => rfl
  have hall := c79_all fractionText _ oneError fuel none effs rfl h
  have hmem : ∀ d ∈ allDescs, ∃ b ∈ batches effs, b.1 = d := by
    intro d hd
    obtain ⟨b, hb⟩ := List.exists_mem_of_ne_nil _ ((hall d).2 (by simpa [scriptDescs, mainArgs, allDescs] using hd))
    obtain ⟨h1, h2⟩ := List.mem_filter.1 hb
    exact ⟨b, h1, by simpa using h2⟩
  obtain ⟨text, htext⟩ : ∃ text, fileAfter none effs = some text := by
    obtain ⟨kept, ⟨parts, hk, rfl⟩, -, ⟨-, k3⟩ | k3⟩ := collectedFile_text hc1
    · obtain ⟨b, hb, -⟩ := hmem _ ((mem_allDescs _).2 (.surface (1 / 1000) 3 "SD6" "X" "internal" (by decide +kernel) (by decide) (by simp) (by simp) (by decide)))
      cases hk with
      | cons hx hnil =>
        cases hnil
        rw [List.flatten_singleton, hx.2.2 rfl] at k3
        rw [show batches effs = [] from k3] at hb
        cases hb
    · exact ⟨_, k3⟩
  rw [htext] at hc1
  obtain ⟨fuel2, h2⟩ := c81_terminates fractionText none none true none none none (by simp) oneError
    (fun d i n hn => ⟨n - 1, 1, rfl, by omega, by omega⟩) (some text)
  obtain ⟨effs2, h2⟩ := h2 fuel2 (le_refl _)
  have hc2 : CollectedFile fractionText (some text) ([(true, batches effs)] ++ [(false, [])]) :=
    .run hc1 rfl (by simp [mainArgs]) hon h2 List.nil_prefix (by simp) (by simp) (part := [])
  let fs : Files := ⟨fun a => a == "data", fun _ => ["data/a.csv"], fun _ => ["data/a.csv"], fun _ => .ok text⟩
  have hf : ∀ path ∈ namedFiles fs.isDir fs.glob ["data"], ∃ t, fs.read path = .ok t ∧
      CollectedFile fractionText (some t) ([(true, batches effs)] ++ [(false, [])]) := fun path _ => ⟨text, rfl, hc2⟩
  obtain ⟨kept, data, k1, k2, k3, -⟩ := c91_reads fractionText (fun p _ => fractionText_faithful p) fs ["data"] (by simp)
    (fun _ => [(true, batches effs)] ++ [(false, [])]) hf
  refine ⟨fs, _, data, hf, k2, fun d hd => ?_⟩
  have hn : namedFiles fs.isDir fs.glob ["data"] = ["data/a.csv"] := rfl
  rw [k3.2, hn, totalFor]
  rw [hn] at k1
  obtain ⟨parts, hk, hk'⟩ := k1 "data/a.csv" (by simp)
  obtain ⟨b, hb, hbd⟩ := hmem d hd
  rw [if_neg]
  · simp
  · refine List.ne_nil_of_mem (a := b) (List.mem_filter.2 ⟨?_, by simpa using hbd⟩)
    rw [List.flatMap_singleton, hk']
    cases hk with
    | cons hx _ => rw [List.flatten_cons, hx.2.2 rfl]; exact List.mem_append_left _ hb

/-! ## C92: the command lines of the scripts -/

/-- C92: without arguments every script raises a ValueError. -/
theorem c92_no_arguments (F : FloatText) (fs : Files) (leastsq : (ℝ → ℝ) → ℝ) (linregress : List ℝ → List ℝ → LineFit) (isinf : ℝ → Prop)
    (fuel : Nat) : thresholdMain F fs [] = .error .valueError ∧ detectionFractionMain F fs [] = .error .valueError ∧
      lambdaMain leastsq linregress isinf fuel F fs [] = some (.error .valueError) ∧ aggregateMain F fs [] = .error .valueError :=
  ⟨rfl, rfl, rfl, rfl⟩

/-- C92: the figure scripts read the files that are named, and the csv files directly inside the directories that are named. Their data are the
sums over all rows of these files, a file counting as often as it is named. -/
theorem c92_reads (F : FloatText) (fs : Files) (args : List String) (ha : args ≠ []) (rows : String → List Row)
    (h : ∀ path ∈ namedFiles fs.isDir fs.glob args, ∃ text, fs.read path = .ok text ∧ (dictReader text).mapM (parseRow F) = .ok (rows path)) :
    ∃ data, readArguments F fs args = .ok data ∧ HoldsTotals data ((namedFiles fs.isDir fs.glob args).flatMap rows) := by
  obtain ⟨files, h1, h2⟩ : ∃ files, List.Forall₂ (fun p t => fs.read p = .ok t) (namedFiles fs.isDir fs.glob args) files ∧
      List.Forall₂ (fun t rows => (dictReader t).mapM (parseRow F) = .ok rows) files ((namedFiles fs.isDir fs.glob args).map rows) := by
    generalize namedFiles fs.isDir fs.glob args = l at h
    induction l with
    | nil => exact ⟨[], .nil, .nil⟩
    | cons p l ih =>
      obtain ⟨files, i1, i2⟩ := ih fun q hq => h q (by simp [hq])
      obtain ⟨t, t1, t2⟩ := h p (by simp)
      exact ⟨t :: files, .cons t1 i1, .cons t2 i2⟩
  obtain ⟨data, d1, d2⟩ := c50_succeeds F files _ h2
  rw [← List.flatMap_def] at d2
  refine ⟨data, ?_, d2⟩
  rw [readArguments, if_neg ha, csvPaths_eq, readPaths_ok F h1, d1]

/-- C92: the order of the arguments does not matter for the totals. -/
theorem c92_order (F : FloatText) (fs : Files) (args args' : List String) (hp : args.Perm args') (ha : args ≠ []) (rows : String → List Row)
    (h : ∀ path ∈ namedFiles fs.isDir fs.glob args, ∃ text, fs.read path = .ok text ∧ (dictReader text).mapM (parseRow F) = .ok (rows path)) :
    ∃ data data', readArguments F fs args = .ok data ∧ readArguments F fs args' = .ok data' ∧ ∀ d, data.get? d = data'.get? d := by
  have hn : (namedFiles fs.isDir fs.glob args).Perm (namedFiles fs.isDir fs.glob args') := hp.flatMap_right _
  obtain ⟨data, h1, h2⟩ := c92_reads F fs args ha rows h
  obtain ⟨data', h3, h4⟩ := c92_reads F fs args' (fun e => ha (by subst e; exact hp.eq_nil)) rows fun p hp' => h p (hn.mem_iff.2 hp')
  exact ⟨data, data', h1, h3, fun d => by rw [h2.2, h4.2, totalFor_perm (hn.flatMap_right rows)]⟩

theorem totalFor_twice (rows : List Row) (d : DecodingProblemDesc) : totalFor (rows ++ rows) d = (totalFor rows d).map fun v => v.add v := by
  unfold totalFor
  rw [List.filter_append]
  by_cases h : (rows.filter fun r => decide (r.1 = d)) = []
  · rw [h]; rfl
  · rw [if_neg h, if_neg (by simp [h])]
    simp [sumShots, ShotData.add]

/-- C92, a finding: nothing recognises a file that is named twice, or named together with its directory. Naming everything twice doubles all
counts, so the data look like twice as many independent samples. -/
theorem c92_twice (F : FloatText) (fs : Files) (args args' : List String) (ha : args ≠ [])
    (hp : namedFiles fs.isDir fs.glob args' = namedFiles fs.isDir fs.glob args) (rows : String → List Row)
    (h : ∀ path ∈ namedFiles fs.isDir fs.glob args, ∃ text, fs.read path = .ok text ∧ (dictReader text).mapM (parseRow F) = .ok (rows path)) :
    ∃ data data', readArguments F fs args = .ok data ∧ readArguments F fs (args ++ args') = .ok data' ∧
      ∀ d, data'.get? d = (data.get? d).map fun v => v.add v := by
  have hn : namedFiles fs.isDir fs.glob (args ++ args') = namedFiles fs.isDir fs.glob args ++ namedFiles fs.isDir fs.glob args := by
    conv_lhs => rw [namedFiles, List.flatMap_append]
    exact congrArg _ hp
  obtain ⟨data, h1, h2⟩ := c92_reads F fs args ha rows h
  obtain ⟨data', h3, h4⟩ := c92_reads F fs (args ++ args') (by simp [ha]) rows (by
    intro p hp'
    rw [hn, List.mem_append, or_self_iff] at hp'
    exact h p hp')
  refine ⟨data, data', h1, h3, fun d => ?_⟩
  rw [h2.2, h4.2, hn, List.flatMap_append, totalFor_twice]

/-- C92: the first file that cannot be opened ends the script with that exception, if the rows of the files before it can be read. -/
theorem c92_unreadable (F : FloatText) (fs : Files) (args : List String) (pre post : List String) (path : String) (e : PyErr)
    (hn : namedFiles fs.isDir fs.glob args = pre ++ path :: post) (rows : String → List Row)
    (h : ∀ p ∈ pre, ∃ text, fs.read p = .ok text ∧ (dictReader text).mapM (parseRow F) = .ok (rows p)) (he : fs.read path = .error e) :
    readArguments F fs args = .error e ∧ thresholdMain F fs args = .error e ∧ detectionFractionMain F fs args = .error e := by
  have ha : args ≠ [] := by
    rintro rfl
    simp [namedFiles] at hn
  have hr : readArguments F fs args = .error e := by
    rw [readArguments, if_neg ha, csvPaths_eq, hn, readPaths]
    generalize ([] : PyDict DecodingProblemDesc ShotData) = d
    clear hn
    induction pre generalizing d with
    | nil => rw [List.nil_append, List.foldlM_cons, he]; rfl
    | cons p pre ih =>
      obtain ⟨t, t1, t2⟩ := h p (by simp)
      rw [List.cons_append, List.foldlM_cons, t1]
      show ((dictReader t).foldlM (readOneRow F) d >>= _) = _
      rw [foldlM_rows F _ d _ t2]
      exact ih (fun q hq => h q (by simp [hq])) _
  refine ⟨hr, ?_, ?_⟩
  · rw [thresholdMain, hr]; rfl
  · rw [detectionFractionMain, hr]; rfl

/-- C92: directories without csv files are no error: there is no data. -/
theorem c92_empty_directories (F : FloatText) (fs : Files) (args : List String) (ha : args ≠ [])
    (h : ∀ a ∈ args, fs.isDir a = true ∧ fs.glob a = [] ∧ fs.rglob a = []) :
    readArguments F fs args = .ok [] ∧ aggregateMain F fs args = .ok (line csvHeader) := by
  have h1 : namedFiles fs.isDir fs.glob args = [] :=
    List.flatMap_eq_nil_iff.2 fun a hm => by rw [if_pos (h a hm).1, (h a hm).2.1]
  have h2 : namedFiles fs.isDir fs.rglob args = [] :=
    List.flatMap_eq_nil_iff.2 fun a hm => by rw [if_pos (h a hm).1, (h a hm).2.2]
  refine ⟨?_, ?_⟩
  · rw [readArguments, if_neg ha, csvPaths_eq, h1]; rfl
  · rw [aggregateMain, if_neg ha, csvPaths_eq, h2]
    show Except.ok (line csvHeader ++ (sortedItems []).flatMap _) = _
    rw [sortedItems, List.mergeSort_nil, List.flatMap_nil, List.append_nil]

/-- C92: the aggregating script prints one row for every description in the named files and in the csv files anywhere below the named
directories, in increasing order, with the sums over all their rows. -/
theorem c92_aggregate (F : FloatText) (fs : Files) (args : List String) (ha : args ≠ []) (rows : String → List Row)
    (h : ∀ path ∈ namedFiles fs.isDir fs.rglob args, ∃ text, fs.read path = .ok text ∧ (dictReader text).mapM (parseRow F) = .ok (rows path)) :
    ∃ out, aggregateMain F fs args = .ok (dataFile F out) ∧ HoldsTotals out ((namedFiles fs.isDir fs.rglob args).flatMap rows) ∧
      out.Pairwise fun a b => a.1.sortKey < b.1.sortKey := by
  have hd : ∃ files, readPaths F fs.read (csvPaths fs.isDir fs.rglob args) = readRecordedData F files ∧
      ∃ data, readRecordedData F files = .ok data ∧ HoldsTotals data ((namedFiles fs.isDir fs.rglob args).flatMap rows) := by
    rw [csvPaths_eq]
    obtain ⟨files, h1, h2⟩ : ∃ files, List.Forall₂ (fun p t => fs.read p = .ok t) (namedFiles fs.isDir fs.rglob args) files ∧
        List.Forall₂ (fun t rows => (dictReader t).mapM (parseRow F) = .ok rows) files ((namedFiles fs.isDir fs.rglob args).map rows) := by
      generalize namedFiles fs.isDir fs.rglob args = l at h
      induction l with
      | nil => exact ⟨[], .nil, .nil⟩
      | cons p l ih =>
        obtain ⟨files, i1, i2⟩ := ih fun q hq => h q (by simp [hq])
        obtain ⟨t, t1, t2⟩ := h p (by simp)
        exact ⟨t :: files, .cons t1 i1, .cons t2 i2⟩
    obtain ⟨data, d1, d2⟩ := c50_succeeds F files _ h2
    rw [← List.flatMap_def] at d2
    exact ⟨files, readPaths_ok F h1, data, d1, d2⟩
  obtain ⟨files, h1, data, h2, h3⟩ := hd
  have hagg := aggregate_eq F files data h2
  obtain ⟨data', rows', c1, c2, c3, c4, c5⟩ := c53_rows F files _ hagg
  cases c1.symm.trans h2
  refine ⟨rows', ?_, ⟨c4, fun k => ?_⟩, c5⟩
  · rw [← c2, aggregateMain, if_neg ha, h1, h2]; rfl
  · rw [← h3.2]
    cases hx : PyDict.get? data k with
    | some v => exact PyDict.get?_of_mem c4 (c3.mem_iff.2 (PyDict.mem_of_get? hx))
    | none =>
      cases hy : PyDict.get? rows' k with
      | none => rfl
      | some v =>
        have := PyDict.get?_of_mem h3.1 (c3.mem_iff.1 (PyDict.mem_of_get? hy))
        rw [hx] at this
        cases this

/-- Two files in a directory; the first is also named itself, and counts twice. -/
def argumentsDemo : Files where
  isDir a := a == "data"
  glob _ := ["data/a.csv", "data/b.csv"]
  rglob _ := ["data/a.csv", "data/b.csv"]
  read a :=
    if a = "data/a.csv" then .ok (dataFile fractionText [(demoDesc, ⟨10, 9, 1⟩)])
    else if a = "data/b.csv" then .ok (dataFile fractionText [(demoDesc, ⟨20, 16, 2⟩)])
    else .error .valueError

theorem demo_clean (v : ShotData) : CleanRow fractionText (demoDesc, v) :=
  ⟨fractionText_faithful _, fractionText_faithful _,
    show CleanText demoDesc.circuit_style.toList by unfold CleanText; decide, show CleanText demoDesc.preserved_observable.toList by unfold CleanText; decide,
    show CleanText demoDesc.decoder.toList by unfold CleanText; decide⟩

example : ∃ data, readArguments fractionText argumentsDemo ["data", "data/a.csv"] = .ok data ∧ data.get? demoDesc = some ⟨40, 34, 4⟩ := by
  obtain ⟨data, h1, h2⟩ := c92_reads fractionText argumentsDemo ["data", "data/a.csv"] (by simp)
    (fun p => if p = "data/a.csv" then [(demoDesc, ⟨10, 9, 1⟩)] else [(demoDesc, ⟨20, 16, 2⟩)]) (by
      intro path hp
      have : path = "data/a.csv" ∨ path = "data/b.csv" := by
        rw [show namedFiles argumentsDemo.isDir argumentsDemo.glob ["data", "data/a.csv"] = ["data/a.csv", "data/b.csv", "data/a.csv"] by decide] at hp
        simp only [List.mem_cons, List.not_mem_nil, or_false] at hp
        tauto
      rcases this with rfl | rfl
      · exact ⟨_, rfl, mapM_parse_dataFile fractionText _ fun r hr => by
          rw [List.mem_singleton] at hr; subst hr; exact demo_clean _⟩
      · exact ⟨_, rfl, mapM_parse_dataFile fractionText _ fun r hr => by
          rw [List.mem_singleton] at hr; subst hr; exact demo_clean _⟩)
  refine ⟨data, h1, ?_⟩
  rw [h2.2, show namedFiles argumentsDemo.isDir argumentsDemo.glob ["data", "data/a.csv"] = ["data/a.csv", "data/b.csv", "data/a.csv"] by decide]
  decide +kernel

/-! ## C93: the example -/

theorem exampleLayouts_descs : exampleLayouts.map (fun lay => lay.asDecoderProblemDesc "pymatching") =
    ([1, 2] : List Int).flatMap fun d => ([1 / 1000, 2 / 1000, 3 / 1000] : List Rat).map (exampleDesc d) := by
  decide +kernel

theorem filter_flatMap_key {l : List DecodingProblemDesc} (hl : l.Nodup) {f : DecodingProblemDesc → List Row} (hf : ∀ d, ∀ b ∈ f d, b.1 = d)
    (k : DecodingProblemDesc) : (l.flatMap f).filter (fun r => decide (r.1 = k)) = if k ∈ l then f k else [] := by
  induction l with
  | nil => rfl
  | cons d l ih =>
    rw [List.nodup_cons] at hl
    rw [List.flatMap_cons, List.filter_append, ih hl.2]
    by_cases hd : d = k
    · subst hd
      rw [if_neg hl.1, if_pos (by simp), List.append_nil, List.filter_eq_self]
      exact fun b hb => by simpa using hf d b hb
    · have : (f d).filter (fun r => decide (r.1 = k)) = [] := by
        rw [List.filter_eq_nil_iff]
        intro b hb
        simpa [hf d b hb] using hd
      rw [this, List.nil_append]
      simp only [List.mem_cons, Ne.symm hd, false_or]

theorem sum_shots_eq (bs : List Row) : (sumShots (bs.map Prod.snd)).num_shots = totalShots bs ∧
    (sumShots (bs.map Prod.snd)).num_shots - (sumShots (bs.map Prod.snd)).num_correct = totalErrors bs := by
  induction bs with
  | nil => simp [sumShots, totalShots, totalErrors]
  | cons b bs ih =>
    simp only [sumShots, totalShots, totalErrors, List.map_cons, List.sum_cons, List.map_map] at ih ⊢
    obtain ⟨i1, i2⟩ := ih
    exact ⟨by omega, by omega⟩

/-- The batches of one problem of the example. -/
theorem example_batches (F : FloatText) (d : DecodingProblemDesc) (sample : DecodingProblemDesc → Nat → Int → Except PyErr (Int × Rat))
    (hok : ∀ d i n, 1 ≤ n → ∃ c t, sample d i n = .ok (c, t) ∧ 0 ≤ c ∧ c ≤ n ∧ F.Faithful t) (fuel : Nat) (hf : 10 ^ 6 ≤ fuel) :
    ∃ bs : List Row, collectOne F exampleArgs ⟨d, sample d⟩ fuel = some (bs.flatMap (batchEffs F true), none) ∧ bs ≠ [] ∧
      (∀ b ∈ bs, b.1 = d ∧ 0 ≤ b.2.num_correct ∧ b.2.num_correct ≤ b.2.num_shots ∧ F.Faithful b.2.total_processing_seconds) ∧
      1000 ≤ totalShots bs ∧ totalShots bs ≤ 1000000 ∧ StopReason exampleArgs (totalShots bs) (totalErrors bs) := by
  have hbatch : 1 ≤ exampleArgs.batch := by decide
  have hfirst : exampleArgs.firstShots = 1000 := by decide
  obtain ⟨⟨effs, err⟩, hr⟩ := collectLoop_terminates F exampleArgs ⟨d, sample d⟩ hbatch fuel 0 exampleArgs.firstShots 0 0 (by rw [hfirst]; norm_num)
    (by omega) (by show (10 ^ 6 : Int) - 0 ≤ fuel; omega)
  obtain ⟨bs, hl, rfl⟩ := loop_of_collectLoop hr
  have := hl.no_exception hbatch (fun i n hn => by
    obtain ⟨c, t, h1, h2, h3, -⟩ := hok d i n hn
    exact ⟨c, t, h1, h2, h3⟩) (by rw [hfirst]; norm_num) (le_refl 0) (le_refl 0) (le_refl 0)
  subst this
  have hpos := hl.shots_pos hbatch (by rw [hfirst]; norm_num)
  have hne := hl.nonempty
  have hst := (hl.stopped bs (List.prefix_refl _) hne).2 rfl rfl
  have hbud := hl.budget (by rw [hfirst]; show (0 : Int) + 1000 ≤ 10 ^ 6; norm_num) bs (List.prefix_refl _) hne
  rw [zero_add] at hst hbud
  rw [zero_add] at hst
  refine ⟨bs, hr, hne, fun b hb => ?_, ?_, hbud, hst⟩
  · obtain ⟨k, hk, e⟩ := List.getElem_of_mem hb
    have hsm := hl.sampled k b (by rw [List.getElem?_eq_getElem hk, e])
    refine ⟨hsm.1, ?_⟩
    obtain ⟨c, t, h1, h2⟩ := hok d (0 + k) b.2.num_shots (hpos b hb)
    have h3 : sample d (0 + k) b.2.num_shots = .ok (b.2.num_correct, b.2.total_processing_seconds) := hsm.2
    obtain ⟨rfl, rfl⟩ := Prod.mk.inj (Except.ok.inj (h1.symm.trans h3))
    exact h2
  · cases bs with
    | nil => exact absurd rfl hne
    | cons b bs =>
      have h1 := hl.first b rfl
      rw [hfirst] at h1
      have h2 : 0 ≤ totalShots bs := List.sum_nonneg (by
        intro x hx
        obtain ⟨c, hc, rfl⟩ := List.mem_map.1 hx
        have := hpos c (by simp [hc])
        omega)
      rw [show totalShots (b :: bs) = b.2.num_shots + totalShots bs by simp [totalShots], h1]
      omega

/-- The problems of the example, in the order in which they are sampled. -/
def exampleDescs : List DecodingProblemDesc :=
  ([1, 2] : List Int).flatMap fun d => ([1 / 1000, 2 / 1000, 3 / 1000] : List Rat).map (exampleDesc d)

theorem mem_exampleDescs (k : DecodingProblemDesc) :
    k ∈ exampleDescs ↔ ∃ d ∈ ([1, 2] : List Int), ∃ p ∈ ([1 / 1000, 2 / 1000, 3 / 1000] : List Rat), k = exampleDesc d p := by
  simp only [exampleDescs, List.mem_flatMap, List.mem_map, eq_comm]

theorem example_clean {F : FloatText} (hF : ∀ p ∈ ([1 / 1000, 2 / 1000, 3 / 1000] : List Rat), F.Faithful p) {b : Row} (h : b.1 ∈ exampleDescs)
    (ht : F.Faithful b.2.total_processing_seconds) : CleanRow F b := by
  obtain ⟨d, -, p, hp, e⟩ := (mem_exampleDescs _).1 h
  refine ⟨by rw [e]; exact hF p hp, ht, ?_, ?_, ?_⟩
  · rw [e]; show CleanText "honeycomb_EM3_v2".toList; unfold CleanText; decide
  · rw [e]; show CleanText "H".toList; unfold CleanText; decide
  · rw [e]; show CleanText "pymatching".toList; unfold CleanText; decide

/-- C93: the example script, with a sampler that works, runs to its end without an exception. What `test.csv` held before does not matter.
Afterwards it holds data for two sizes and three noise levels and nothing else; every problem has between 1000 and a million shots and has met
one of the stop conditions: a million shots, 100 errors, or at least 10 errors in about half of the shots. The plot has one curve per size. -/
theorem c93_example (F : FloatText) (hF : ∀ p ∈ ([1 / 1000, 2 / 1000, 3 / 1000] : List Rat), F.Faithful p)
    (sample : DecodingProblemDesc → Nat → Int → Except PyErr (Int × Rat))
    (hok : ∀ d i n, 1 ≤ n → ∃ c t, sample d i n = .ok (c, t) ∧ 0 ≤ c ∧ c ≤ n ∧ F.Faithful t) (fuel : Nat) (hf : 10 ^ 6 ≤ fuel) :
    ∃ (rows : List Row) (data : ProblemShotData) (small large : Curve),
      (∀ file, exampleMain F sample fuel file = some (.ok (some (dataFile F rows), [small, large]))) ∧ HoldsTotals data rows ∧
      (∀ k, data.get? k ≠ none ↔ ∃ d ∈ ([1, 2] : List Int), ∃ p ∈ ([1 / 1000, 2 / 1000, 3 / 1000] : List Rat), k = exampleDesc d p) ∧
      (∀ k v, data.get? k = some v → 1000 ≤ v.num_shots ∧ v.num_shots ≤ 1000000 ∧ 0 ≤ v.num_correct ∧ v.num_correct ≤ v.num_shots ∧
        (v.num_shots = 1000000 ∨ 100 ≤ v.num_shots - v.num_correct ∨
          (10 ≤ v.num_shots - v.num_correct ∧ (48 : Int) * v.num_shots ≤ 100 * (v.num_shots - v.num_correct)))) ∧
      CurveShows data (exampleDesc 1 0) small ∧ CurveShows data (exampleDesc 2 0) large ∧
      small.label = "10 rounds, 4x6 data" ∧ large.label = "10 rounds, 8x12 data" := by
  have hB := fun d => example_batches F d sample hok fuel hf
  choose bs b1 b2 b3 b4 b5 b6 using hB
  have hnd : exampleDescs.Nodup := by decide +kernel
  have hkey := filter_flatMap_key hnd (f := bs) (fun d b hb => (b3 d b hb).1)
  have hprobs : (exampleLayouts.map fun lay => (⟨lay.asDecoderProblemDesc "pymatching", sample (lay.asDecoderProblemDesc "pymatching")⟩ : DecodingProblem)) =
      exampleDescs.map fun d => ⟨d, sample d⟩ := by
    rw [exampleDescs, ← exampleLayouts_descs, List.map_map]
    rfl
  have hcol : ∀ file, collect F exampleArgs fuel (exampleDescs.map fun d => ⟨d, sample d⟩) file =
      some (startEffs true true file ++ (exampleDescs.map fun d => (bs d).flatMap (batchEffs F true)).flatten, none) := by
    intro file
    refine (c48_composes F exampleArgs fuel _ file _).2 ⟨_, ?_, rfl⟩
    generalize exampleDescs = l
    induction l with
    | nil => exact .nil
    | cons d l ih => exact .cons (b1 d) ih
  have hbat : ∀ file, batches (startEffs true true file ++ (exampleDescs.map fun d => (bs d).flatMap (batchEffs F true)).flatten) =
      exampleDescs.flatMap bs := by
    intro file
    have h0 : batches (startEffs true true file) = [] := by
      unfold startEffs batches
      split_ifs <;> rfl
    rw [batches_append, h0, List.nil_append]
    generalize exampleDescs = l
    induction l with
    | nil => rfl
    | cons d l ih => rw [List.map_cons, List.flatten_cons, batches_append, ih, batches_flatMap, List.flatMap_cons]
  have hmem : ∀ b ∈ exampleDescs.flatMap bs, b.1 ∈ exampleDescs ∧ F.Faithful b.2.total_processing_seconds := by
    intro b hb
    obtain ⟨d, hd, hb⟩ := List.mem_flatMap.1 hb
    obtain ⟨h1, -, -, h4⟩ := b3 d b hb
    exact ⟨by rw [h1]; exact hd, h4⟩
  obtain ⟨data, hread, hdata⟩ := c50_data_files F [exampleDescs.flatMap bs] (by
    intro rows hr r hrr
    rw [List.mem_singleton] at hr
    subst hr
    exact example_clean hF (hmem r hrr).1 (hmem r hrr).2)
  rw [List.flatten_singleton] at hdata
  have hget : ∀ k, data.get? k = if k ∈ exampleDescs then some (sumShots ((bs k).map Prod.snd)) else none := by
    intro k
    rw [hdata.2, totalFor, hkey]
    by_cases hk : k ∈ exampleDescs
    · rw [if_pos hk, if_pos hk, if_neg (b2 k)]
    · rw [if_neg hk, if_neg hk, if_pos rfl]
  have hvals : ∀ k v, data.get? k = some v → k ∈ exampleDescs ∧ 1000 ≤ v.num_shots ∧ v.num_shots ≤ 1000000 ∧ 0 ≤ v.num_correct ∧
      v.num_correct ≤ v.num_shots ∧ StopReason exampleArgs v.num_shots (v.num_shots - v.num_correct) := by
    intro k v hv
    rw [hget] at hv
    split_ifs at hv with hk
    cases hv
    obtain ⟨e1, e2⟩ := sum_shots_eq (bs k)
    have h0 : 0 ≤ (sumShots ((bs k).map Prod.snd)).num_correct := List.sum_nonneg (by
      intro x hx
      obtain ⟨w, hw, rfl⟩ := List.mem_map.1 hx
      obtain ⟨b, hb, rfl⟩ := List.mem_map.1 hw
      exact (b3 k b hb).2.1)
    have h1 : 0 ≤ totalErrors (bs k) := List.sum_nonneg (by
      intro x hx
      obtain ⟨b, hb, rfl⟩ := List.mem_map.1 hx
      have := (b3 k b hb).2.2.1
      omega)
    refine ⟨hk, by rw [e1]; exact b4 k, by rw [e1]; exact b5 k, h0, by omega, ?_⟩
    rw [e2, e1]
    exact b6 k
  have hent : ∀ e ∈ data, data.get? e.1 = some e.2 := fun e he => PyDict.get?_of_mem hdata.1 he
  have hplot : Plottable data := by
    refine ⟨hdata.1, fun e he => ?_, fun e he => ?_, fun e he => ?_, fun e he => ?_⟩
    · have := (hvals _ _ (hent e he)).2.1; omega
    · have := hvals _ _ (hent e he); exact ⟨this.2.2.2.1, this.2.2.2.2.1⟩
    · obtain ⟨d, hd, p, -, e'⟩ := (mem_exampleDescs _).1 (hvals _ _ (hent e he)).1
      rw [e']; show (0 : Int) < 10; norm_num
    · obtain ⟨d, hd, p, -, e'⟩ := (mem_exampleDescs _).1 (hvals _ _ (hent e he)).1
      rw [e']; show (0 : Int) < 4 * d
      simp only [List.mem_cons, List.not_mem_nil, or_false] at hd
      omega
  have hzero : ∀ k, (∃ e ∈ data, k = { e.1 with noise := 0 }) ↔ k ∈ [exampleDesc 1 0, exampleDesc 2 0] := by
    intro k
    constructor
    · rintro ⟨e, he, rfl⟩
      obtain ⟨d, hd, p, -, e'⟩ := (mem_exampleDescs _).1 (hvals _ _ (hent e he)).1
      rw [e']
      simp only [List.mem_cons, List.not_mem_nil, or_false] at hd ⊢
      rcases hd with rfl | rfl
      · exact .inl rfl
      · exact .inr rfl
    · intro hk
      have hx : ∀ d ∈ ([1, 2] : List Int), ∃ e ∈ data, exampleDesc d 0 = { e.1 with noise := 0 } := by
        intro d hd
        have hm : exampleDesc d (1 / 1000) ∈ exampleDescs := (mem_exampleDescs _).2 ⟨d, hd, _, by simp, rfl⟩
        have := hget (exampleDesc d (1 / 1000))
        rw [if_pos hm] at this
        exact ⟨_, PyDict.mem_of_get? this, rfl⟩
      simp only [List.mem_cons, List.not_mem_nil, or_false] at hk
      rcases hk with rfl | rfl
      · exact hx 1 (by simp)
      · exact hx 2 (by simp)
  obtain ⟨curves, hcur, keys, k1, k2, k3, k4, -⟩ := plotData_shows hplot 0 (by
    have : (data.map fun e => { e.1 with noise := 0 }).toFinset ⊆ [exampleDesc 1 0, exampleDesc 2 0].toFinset := by
      intro k hk
      rw [List.mem_toFinset, List.mem_map] at hk
      obtain ⟨e, he, rfl⟩ := hk
      exact List.mem_toFinset.2 ((hzero _).1 ⟨e, he, rfl⟩)
    exact le_trans (Finset.card_le_card this) (le_trans (List.toFinset_card_le _) (by simp)))
  have hkeys : keys = [exampleDesc 1 0, exampleDesc 2 0] := by
    have hperm : keys.Perm [exampleDesc 1 0, exampleDesc 2 0] :=
      (List.perm_ext_iff_of_nodup k1 (by decide +kernel)).2 fun k => (k3 k).trans (hzero k)
    have hlen := hperm.length_eq
    match keys, hlen, hperm, k2 with
    | [a, b], _, hperm, k2 =>
      have ha := hperm.mem_iff.1 (show a ∈ [a, b] by simp)
      have hb := hperm.mem_iff.1 (show b ∈ [a, b] by simp)
      have hab : a ≠ b := by
        have := hperm.nodup_iff.2 (by decide +kernel)
        simpa using this
      have hle : descKey a ≤ descKey b := by simpa using k2
      simp only [List.mem_cons, List.not_mem_nil, or_false] at ha hb
      rcases ha with rfl | rfl <;> rcases hb with rfl | rfl
      · exact absurd rfl hab
      · rfl
      · exact absurd hle (by decide +kernel)
      · exact absurd rfl hab
  subst hkeys
  cases k4 with
  | @cons _ small _ _ c1 k4 =>
    cases k4 with
    | @cons _ large _ _ c2 k4 =>
      cases k4
      refine ⟨exampleDescs.flatMap bs, data, small, large, fun file => ?_, hdata, fun k => ?_, fun k v hv => ?_, c1, c2, ?_, ?_⟩
      · have hfile := c48_file F exampleArgs fuel _ file _ none rfl (hcol file)
        rw [if_pos (show exampleArgs.discard_previous_data = true from rfl), hbat] at hfile
        rw [exampleMain]
        simp only [hprobs, hcol, hfile]
        rw [show line csvHeader ++ rowsText F (exampleDescs.flatMap bs) = dataFile F (exampleDescs.flatMap bs) from rfl,
          show readRecordedData F [dataFile F (exampleDescs.flatMap bs)] = .ok data from hread]
        show some (plotData data 0 >>= _) = _
        rw [hcur]
        rfl
      · rw [← mem_exampleDescs, hget]
        split_ifs with hk <;> simp [hk]
      · obtain ⟨-, v1, v2, v3, v4, v5⟩ := hvals k v hv
        refine ⟨v1, v2, v3, v4, ?_⟩
        rcases v5 with h | ⟨h, -⟩ | ⟨h, h'⟩
        · exact .inl (le_antisymm v2 h)
        · exact .inr (.inl h)
        · refine .inr (.inr ⟨h', ?_⟩)
          have : (48 : ℝ) * (v.num_shots : ℝ) ≤ 100 * ((v.num_shots - v.num_correct : Int) : ℝ) := by linarith
          exact_mod_cast this
      · rw [c1.label]; decide +kernel
      · rw [c2.label]; decide +kernel

/-- The sampler with one error per batch: 1000 shots at first, then twice as many each time, and the million shots are used up. -/
example : ∃ rows curves, exampleMain fractionText oneError 1000000 (some ("old".toList)) = some (.ok (some (dataFile fractionText rows), curves)) ∧
    curves.length = 2 := by
  obtain ⟨rows, data, small, large, h, -⟩ := c93_example fractionText (fun p _ => fractionText_faithful p) oneError
    (fun d i n hn => ⟨n - 1, 1, rfl, by omega, by omega, fractionText_faithful _⟩) 1000000 (by norm_num)
  exact ⟨rows, _, h _, rfl⟩

end Honeycomb
