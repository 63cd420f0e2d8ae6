import Verif.Props.Collect

/-!
# Reading, round trips and aggregation of CSV files (C50, C52, C53)
-/

namespace Honeycomb

/-! ## C52: rows round-trip -/

/-- Reading a file with the header and one record gives the description and the counts that were written. -/
theorem c52_round_trip (F : FloatText) (r : Row) (h : CleanRow F r) : readRecordedData F [dataFile F [r]] = .ok [r] := by
  rw [read_dataFile F [r] (by simpa using h)]
  obtain ⟨d, v⟩ := r
  simp [addShots, PyDict.get?, PyDict.set, ShotData.add]

/-- The rows of a data file are exactly those that were written, in order. -/
theorem c52_rows (F : FloatText) (rows : List Row) (h : ∀ r ∈ rows, CleanRow F r) :
    (dictReader (dataFile F rows)).mapM (parseRow F) = .ok rows := mapM_parse_dataFile F rows h

/-- All integers round-trip. -/
theorem c52_int (n : Int) : parseInt (intStr n) = some n := parseInt_intStr n

/-- The condition on the texts is needed: a circuit style with a comma shifts the columns; here the observable `H` is then taken
for the code distance, and reading raises a ValueError. -/
theorem c52_comma_false (F : FloatText) (d : DecodingProblemDesc) (v : ShotData) (hn : F.Faithful d.noise)
    (hs : F.Faithful v.total_processing_seconds) (hst : d.circuit_style = "a,b") (ho : d.preserved_observable = "H")
    (hd : CleanText d.decoder.toList) : readRecordedData F [dataFile F [(d, v)]] = .error .valueError := by
  let fields : List Text := [intStr d.data_width, intStr d.data_height, intStr d.rounds, F.str d.noise, ['a'], ['b'], ['H'],
    intStr d.code_distance, intStr d.num_qubits, intStr v.num_shots, intStr v.num_correct,
    F.str v.total_processing_seconds, d.decoder.toList, intStr 2]
  have hf : LineOK fields := by
    refine ⟨?_, by simp [fields], by simp [fields]⟩
    intro f hf
    simp only [fields, List.mem_cons, List.not_mem_nil, or_false] at hf
    rcases hf with rfl | rfl | rfl | rfl | rfl | rfl | rfl | rfl | rfl | rfl | rfl | rfl | rfl | rfl
    all_goals first
      | exact intStr_clean _
      | exact hn.2
      | exact hs.2
      | exact hd
      | (unfold CleanText; decide)
  have hj : record F d v = joinComma fields := by
    rw [record, recordFields, hst, ho]
    simp only [fields, joinComma_cons, joinComma_one]
    rfl
  have e := dictReader_lines csvColumns [fields] csvColumns_ok (by simpa using hf)
  have hg := dictRow_get csvColumns fields csvColumns_nodup 6 "code_distance".toList rfl
  have hp : parseRow F (dictRow csvColumns fields) = .error .valueError := by
    have h6 : fields[6]? = some ['H'] := rfl
    rw [h6] at hg
    have hi : parseInt ['H'] = none := by decide
    generalize dictRow csvColumns fields = row at hg
    simp only [parseRow, rowInt, rowText, rowGet, hg, hi, bind, Except.bind]
  have ht : dataFile F [(d, v)] = line (joinComma csvColumns) ++ [fields].flatMap fun l => line (joinComma l) := by
    simp only [dataFile, rowsText, csvHeader, List.flatMap_cons, List.flatMap_nil, hj]
  rw [readRecordedData, List.foldlM_cons, ht, e, List.map_singleton, List.foldlM_cons]
  simp only [readOneRow, hp, bind, Except.bind]

example : CleanRow fractionText (demoDesc, ⟨1000, 998, 7 / 3⟩) := by
  refine ⟨fractionText_faithful _, fractionText_faithful _, ?_, ?_, ?_⟩ <;> (unfold CleanText; decide)

/-! ## C50: reading sums shots per problem -/

/-- Whatever is read holds, per distinct description, the sums over all rows of all files; descriptions without rows are
absent. -/
theorem c50_sums (F : FloatText) (files : List Text) (data : ProblemShotData) (h : readRecordedData F files = .ok data) :
    ∃ rowss : List (List Row), List.Forall₂ (fun t rows => (dictReader t).mapM (parseRow F) = .ok rows) files rowss ∧
      HoldsTotals data rowss.flatten := by
  obtain ⟨rowss, hr⟩ := read_ok_inv F files data h
  refine ⟨rowss, hr, ?_⟩
  rw [read_ok F files rowss hr] at h
  cases h
  exact holdsTotals_fold _ holdsTotals_nil

/-- Reading succeeds if every row of every file can be parsed. -/
theorem c50_succeeds (F : FloatText) (files : List Text) (rowss : List (List Row))
    (h : List.Forall₂ (fun t rows => (dictReader t).mapM (parseRow F) = .ok rows) files rowss) :
    ∃ data, readRecordedData F files = .ok data ∧ HoldsTotals data rowss.flatten :=
  ⟨_, read_ok F files rowss h, holdsTotals_fold _ holdsTotals_nil⟩

/-- The totals do not depend on the order of the rows, the order of the files, or how the rows are split over files. -/
theorem c50_order (F : FloatText) (files files' : List Text) (rowss rowss' : List (List Row))
    (h : List.Forall₂ (fun t rows => (dictReader t).mapM (parseRow F) = .ok rows) files rowss)
    (h' : List.Forall₂ (fun t rows => (dictReader t).mapM (parseRow F) = .ok rows) files' rowss')
    (hp : rowss.flatten.Perm rowss'.flatten) :
    ∃ data data', readRecordedData F files = .ok data ∧ readRecordedData F files' = .ok data' ∧
      ∀ d, data.get? d = data'.get? d := by
  obtain ⟨data, h1, h2⟩ := c50_succeeds F files rowss h
  obtain ⟨data', h3, h4⟩ := c50_succeeds F files' rowss' h'
  exact ⟨data, data', h1, h3, fun d => by rw [h2.2, h4.2, totalFor_perm hp]⟩

/-- In particular for files written by the collection: any way of distributing rows over files gives the sums over all rows. -/
theorem c50_data_files (F : FloatText) (rowss : List (List Row)) (h : ∀ rows ∈ rowss, ∀ r ∈ rows, CleanRow F r) :
    ∃ data, readRecordedData F (rowss.map (dataFile F)) = .ok data ∧ HoldsTotals data rowss.flatten := by
  refine c50_succeeds F _ rowss ?_
  induction rowss with
  | nil => exact .nil
  | cons rows rowss ih =>
    exact .cons (mapM_parse_dataFile F rows (h rows (by simp))) (ih (fun x hx => h x (by simp [hx])))

/-- Two files with three rows for two descriptions. -/
example : ∃ data, readRecordedData fractionText
      [dataFile fractionText [(demoDesc, ⟨10, 9, 1⟩), ({ demoDesc with rounds := 8 }, ⟨5, 5, 1⟩)],
        dataFile fractionText [(demoDesc, ⟨20, 16, 2⟩)]] = .ok data ∧
    data.get? demoDesc = some ⟨30, 25, 3⟩ ∧ data.get? { demoDesc with rounds := 8 } = some ⟨5, 5, 1⟩ ∧
    data.get? { demoDesc with rounds := 9 } = none := by
  obtain ⟨data, h1, h2⟩ := c50_data_files fractionText
    [[(demoDesc, ⟨10, 9, 1⟩), ({ demoDesc with rounds := 8 }, ⟨5, 5, 1⟩)], [(demoDesc, ⟨20, 16, 2⟩)]] (by
      intro rows hr r hrr
      simp only [List.mem_cons, List.not_mem_nil, or_false] at hr
      rcases hr with rfl | rfl <;> simp only [List.mem_cons, List.not_mem_nil, or_false] at hrr
      · rcases hrr with rfl | rfl <;> refine ⟨fractionText_faithful _, fractionText_faithful _, ?_, ?_, ?_⟩ <;>
          (unfold CleanText; decide)
      · subst hrr
        refine ⟨fractionText_faithful _, fractionText_faithful _, ?_, ?_, ?_⟩ <;> (unfold CleanText; decide))
  refine ⟨data, h1, ?_, ?_, ?_⟩
  · rw [h2.2]; with_unfolding_all rfl
  · rw [h2.2]; with_unfolding_all rfl
  · rw [h2.2]; with_unfolding_all rfl

/-! ## C53: aggregating CSV files -/

theorem sortKey_inj {a b : DecodingProblemDesc} (h : a.sortKey = b.sortKey) : a = b := by
  simp only [DecodingProblemDesc.sortKey, EmbeddingLike.apply_eq_iff_eq, Prod.mk.injEq] at h
  cases a
  cases b
  simp_all

theorem sortedItems_perm (data : ProblemShotData) : (sortedItems data).Perm data := List.mergeSort_perm _ _

theorem sortedItems_sorted (data : ProblemShotData) (h : (data.map Prod.fst).Nodup) :
    (sortedItems data).Pairwise fun a b => a.1.sortKey < b.1.sortKey := by
  have h1 : (sortedItems data).Pairwise fun a b => decide (a.1.sortKey ≤ b.1.sortKey) = true :=
    List.pairwise_mergeSort (fun a b c hab hbc => by simpa using le_trans (by simpa using hab) (by simpa using hbc))
      (fun a b => by simpa using le_total a.1.sortKey b.1.sortKey) data
  have h2 : ((sortedItems data).map Prod.fst).Nodup := ((sortedItems_perm data).map _).nodup_iff.mpr h
  rw [List.Nodup, List.pairwise_map] at h2
  exact (h1.and h2).imp fun {a b} hab => lt_of_le_of_ne (by simpa using hab.1) (fun he => hab.2 (sortKey_inj he))

theorem fold_of_nodup (rows : List Row) (h : (rows.map Prod.fst).Nodup) :
    rows.foldl (fun d r => addShots d r.1 r.2) [] = rows := by
  have key : ∀ (l d : List Row), ((d ++ l).map Prod.fst).Nodup → l.foldl (fun d r => addShots d r.1 r.2) d = d ++ l := by
    intro l
    induction l with
    | nil => simp
    | cons a l ih =>
      intro d hd
      have hn : a.1 ∉ d.map Prod.fst := by
        intro hm
        rw [List.map_append, List.nodup_append] at hd
        exact hd.2.2 _ hm _ (by simp) rfl
      have hset : addShots d a.1 a.2 = d ++ [a] := by
        have h0 : PyDict.get? d a.1 = none := (PyDict.get?_eq_none_iff _ _).mpr hn
        rw [addShots, h0]
        have hz : ((none : Option ShotData).getD {}).add a.2 = a.2 := by simp [ShotData.add]
        rw [hz]
        clear hd ih h0 hz
        induction d with
        | nil => rfl
        | cons x d ihd =>
          obtain ⟨x1, x2⟩ := x
          rw [PyDict.set, if_neg (by intro hh; exact hn (by simp [hh])), ihd (fun hh => hn (by simp [hh]))]
          rfl
      rw [List.foldl_cons, hset, ih (d ++ [a]) (by simpa using hd)]
      simp
  exact key rows [] (by simpa using h)

theorem read_nodup (F : FloatText) (files : List Text) (data : ProblemShotData) (h : readRecordedData F files = .ok data) :
    (data.map Prod.fst).Nodup := by
  obtain ⟨_, _, h⟩ := c50_sums F files data h
  exact h.1

theorem aggregate_eq (F : FloatText) (files : List Text) (data : ProblemShotData)
    (h : readRecordedData F files = .ok data) : aggregate F files = .ok (dataFile F (sortedItems data)) := by
  rw [aggregate, h]
  rfl

/-- Aggregating prints the header and one row per distinct description, in increasing order of the description. -/
theorem c53_rows (F : FloatText) (files : List Text) (text : Text) (h : aggregate F files = .ok text) :
    ∃ data rows, readRecordedData F files = .ok data ∧ text = dataFile F rows ∧ rows.Perm data ∧ (rows.map Prod.fst).Nodup ∧
      rows.Pairwise fun a b => a.1.sortKey < b.1.sortKey := by
  cases hr : readRecordedData F files with
  | error e =>
    rw [aggregate, hr] at h
    cases h
  | ok data =>
    rw [aggregate_eq F files data hr] at h
    cases h
    have hn := read_nodup F files data hr
    exact ⟨data, sortedItems data, rfl, rfl, sortedItems_perm data, ((sortedItems_perm data).map _).nodup_iff.mpr hn,
      sortedItems_sorted data hn⟩

/-- Reading the result gives the same totals as reading the originals. -/
theorem c53_preserves (F : FloatText) (files : List Text) (text : Text) (data : ProblemShotData)
    (h : aggregate F files = .ok text) (hr : readRecordedData F files = .ok data) (hc : ∀ r ∈ data, CleanRow F r) :
    ∃ data', readRecordedData F [text] = .ok data' ∧ data'.Perm data ∧ ∀ d, data'.get? d = data.get? d := by
  rw [aggregate_eq F files data hr] at h
  cases h
  have hn := read_nodup F files data hr
  have hp := sortedItems_perm data
  have hn' : ((sortedItems data).map Prod.fst).Nodup := (hp.map _).nodup_iff.mpr hn
  have hread := read_dataFile F (sortedItems data) (fun r hr => hc r (hp.mem_iff.mp hr))
  rw [fold_of_nodup _ hn'] at hread
  refine ⟨_, hread, hp, fun d => ?_⟩
  cases hd : PyDict.get? data d with
  | none =>
    rw [PyDict.get?_eq_none_iff] at hd ⊢
    exact fun hm => hd ((hp.map _).mem_iff.mp hm)
  | some v => exact PyDict.get?_of_mem hn' (hp.mem_iff.mpr (PyDict.mem_of_get? hd))

/-- Aggregating the result again changes nothing. -/
theorem c53_idempotent (F : FloatText) (files : List Text) (text : Text) (data : ProblemShotData)
    (h : aggregate F files = .ok text) (hr : readRecordedData F files = .ok data) (hc : ∀ r ∈ data, CleanRow F r) :
    aggregate F [text] = .ok text := by
  rw [aggregate_eq F files data hr] at h
  cases h
  have hn := read_nodup F files data hr
  have hp := sortedItems_perm data
  have hn' : ((sortedItems data).map Prod.fst).Nodup := (hp.map _).nodup_iff.mpr hn
  have hread := read_dataFile F (sortedItems data) (fun r hr => hc r (hp.mem_iff.mp hr))
  rw [fold_of_nodup _ hn'] at hread
  rw [aggregate_eq F _ _ hread]
  have hs : sortedItems (sortedItems data) = sortedItems data := by
    rw [sortedItems]
    exact List.mergeSort_of_pairwise ((sortedItems_sorted data hn).imp fun {a b} hab => by simpa using hab.le)
  rw [hs]

/-- Without arguments nothing is printed: a ValueError is raised. -/
theorem c53_no_files (F : FloatText) (fs : Files) : aggregateMain F fs [] = .error .valueError := rfl

/-- The order is that of the columns width, height, distance, qubits, rounds, noise, style, observable, decoder: the first
column that differs decides. -/
theorem c53_order (a b : DecodingProblemDesc) : a.sortKey < b.sortKey ↔
    a.data_width < b.data_width ∨ a.data_width = b.data_width ∧
    (a.data_height < b.data_height ∨ a.data_height = b.data_height ∧
    (a.code_distance < b.code_distance ∨ a.code_distance = b.code_distance ∧
    (a.num_qubits < b.num_qubits ∨ a.num_qubits = b.num_qubits ∧
    (a.rounds < b.rounds ∨ a.rounds = b.rounds ∧
    (a.noise < b.noise ∨ a.noise = b.noise ∧
    (a.circuit_style < b.circuit_style ∨ a.circuit_style = b.circuit_style ∧
    (a.preserved_observable < b.preserved_observable ∨ a.preserved_observable = b.preserved_observable ∧
    a.decoder < b.decoder))))))) := by
  simp only [DecodingProblemDesc.sortKey, Prod.Lex.toLex_lt_toLex]

/-- Three rows for two descriptions become two rows, sorted. -/
example : aggregate fractionText [dataFile fractionText [({ demoDesc with rounds := 8 }, ⟨5, 5, 1⟩), (demoDesc, ⟨10, 9, 1⟩),
      (demoDesc, ⟨20, 16, 2⟩)]]
    = .ok (dataFile fractionText [(demoDesc, ⟨30, 25, 3⟩), ({ demoDesc with rounds := 8 }, ⟨5, 5, 1⟩)]) := by
  have hc : ∀ r ∈ [(({ demoDesc with rounds := 8 }, ⟨5, 5, 1⟩) : Row), (demoDesc, ⟨10, 9, 1⟩), (demoDesc, ⟨20, 16, 2⟩)],
      CleanRow fractionText r := by
    intro r hr
    simp only [List.mem_cons, List.not_mem_nil, or_false] at hr
    rcases hr with rfl | rfl | rfl <;> refine ⟨fractionText_faithful _, fractionText_faithful _, ?_, ?_, ?_⟩ <;>
      (unfold CleanText; decide)
  rw [aggregate_eq fractionText _ [({ demoDesc with rounds := 8 }, ⟨5, 5, 1⟩), (demoDesc, ⟨30, 25, 3⟩)]]
  · congr 2
    have : ¬ ({ demoDesc with rounds := 8 } : DecodingProblemDesc).sortKey ≤ demoDesc.sortKey := by
      rw [not_le, c53_order]
      simp [demoDesc]
    simp [sortedItems, List.mergeSort, List.MergeSort.Internal.splitInTwo, List.merge, this]
  · rw [read_dataFile _ _ hc]
    with_unfolding_all rfl

end Honeycomb
