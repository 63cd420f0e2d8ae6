import Mathlib.Data.List.SplitOn
import Verif.Lemmas.Dict
import Verif.Lemmas.Py
import Verif.Lemmas.Text
import Verif.Spec.Collect

/-!
# Reading CSV texts
-/

namespace Honeycomb

theorem universalNewlines_clean (t : Text) (h : '\r' ∉ t) : universalNewlines t = t := by
  induction t with
  | nil => rfl
  | cons c t ih =>
    have hc : c ≠ '\r' := fun h' => h (by simp [h'])
    rw [universalNewlines, ih (fun h' => h (by simp [h']))]
    · intro t' h' _; exact hc h'
    · intro h'; exact hc h'

theorem csvGo_inField (f : Text) (hf : CleanText f) (fld : Text) (fs : List Text) (rest : Text) :
    csvGo .inField fld fs (f ++ rest) = csvGo .inField (f.reverse ++ fld) fs rest := by
  induction f generalizing fld with
  | nil => rfl
  | cons c f ih =>
    have hc := hf c (by simp)
    rw [List.cons_append, csvGo, if_neg hc.2.2.1, if_neg hc.1, ih (fun c hc => hf c (by simp [hc]))]
    simp

theorem csvGo_field_comma (f : Text) (hf : CleanText f) (fs : List Text) (rest : Text) :
    csvGo .startField [] fs (f ++ ',' :: rest) = csvGo .startField [] (f :: fs) rest := by
  cases f with
  | nil => rw [List.nil_append, csvGo]; simp
  | cons c f =>
    have hc := hf c (by simp)
    rw [List.cons_append, csvGo, if_neg hc.2.2.1, if_neg hc.2.1, if_neg hc.1,
      csvGo_inField f (fun c hc => hf c (by simp [hc])), csvGo]
    simp

theorem csvGo_field_newline (f : Text) (hf : CleanText f) (fs : List Text) (rest : Text) :
    csvGo .startField [] fs (f ++ '\n' :: rest) = (f :: fs).reverse :: csvGo .startRecord [] [] rest := by
  cases f with
  | nil => rw [List.nil_append, csvGo]; simp
  | cons c f =>
    have hc := hf c (by simp)
    rw [List.cons_append, csvGo, if_neg hc.2.2.1, if_neg hc.2.1, if_neg hc.1,
      csvGo_inField f (fun c hc => hf c (by simp [hc])), csvGo]
    simp

theorem joinComma_cons (f g : Text) (l : List Text) : joinComma (f :: g :: l) = f ++ ',' :: joinComma (g :: l) := by
  simp [joinComma, List.intercalate]

theorem joinComma_one (f : Text) : joinComma [f] = f := by simp [joinComma, List.intercalate]

theorem csvGo_fields (l : List Text) (f : Text) (h : ∀ g ∈ f :: l, CleanText g) (fs : List Text) (rest : Text) :
    csvGo .startField [] fs (joinComma (f :: l) ++ '\n' :: rest)
      = (fs.reverse ++ f :: l) :: csvGo .startRecord [] [] rest := by
  induction l generalizing f fs with
  | nil => rw [joinComma_one, csvGo_field_newline f (h f (by simp))]; simp
  | cons g l ih =>
    rw [joinComma_cons, List.append_assoc, List.cons_append, csvGo_field_comma f (h f (by simp)),
      ih g (fun x hx => h x (by simp_all))]
    simp

theorem csvGo_startRecord (c : Char) (t : Text) (h : c ≠ '\n') :
    csvGo .startRecord [] [] (c :: t) = csvGo .startField [] [] (c :: t) := by
  rw [csvGo, csvGo, if_neg h, if_neg h]
  simp

/-- Fields that are written as one line: clean, at least one, and not a single empty one. -/
def LineOK (fields : List Text) : Prop := (∀ f ∈ fields, CleanText f) ∧ fields ≠ [] ∧ fields ≠ [[]]

theorem csvGo_line (fields : List Text) (h : LineOK fields) (rest : Text) :
    csvGo .startRecord [] [] (line (joinComma fields) ++ rest) = fields :: csvGo .startRecord [] [] rest := by
  obtain ⟨hc, h0, h1⟩ := h
  obtain ⟨f, l, rfl⟩ := List.exists_cons_of_ne_nil h0
  have hs : csvGo .startRecord [] [] (line (joinComma (f :: l)) ++ rest)
      = csvGo .startField [] [] (joinComma (f :: l) ++ '\n' :: rest) := by
    have e : line (joinComma (f :: l)) ++ rest = joinComma (f :: l) ++ '\n' :: rest := by simp [line]
    rw [e]
    cases f with
    | nil =>
      cases l with
      | nil => exact absurd rfl h1
      | cons g l =>
        rw [joinComma_cons, List.nil_append, List.cons_append, csvGo_startRecord _ _ (by decide)]
    | cons c f =>
      have hcc := (hc (c :: f) (by simp)) c (by simp)
      cases l with
      | nil => rw [joinComma_one, List.cons_append, csvGo_startRecord _ _ hcc.2.2.1]
      | cons g l => rw [joinComma_cons, List.cons_append, List.cons_append, csvGo_startRecord _ _ hcc.2.2.1]
  rw [hs, csvGo_fields l f hc]
  simp

theorem csvGo_lines (rows : List (List Text)) (h : ∀ r ∈ rows, LineOK r) (rest : Text) :
    csvGo .startRecord [] [] ((rows.flatMap fun r => line (joinComma r)) ++ rest)
      = rows ++ csvGo .startRecord [] [] rest := by
  induction rows with
  | nil => rfl
  | cons r rows ih =>
    rw [List.flatMap_cons, List.append_assoc, csvGo_line r (h r (by simp)), ih (fun r hr => h r (by simp [hr]))]
    rfl

theorem not_mem_joinComma (c : Char) (hc : c ≠ ',') (l : List Text) (h : ∀ f ∈ l, c ∉ f) : c ∉ joinComma l := by
  match l with
  | [] => simp [joinComma, List.intercalate]
  | [f] => rw [joinComma_one]; exact h f (by simp)
  | f :: g :: l =>
    rw [joinComma_cons]
    have := not_mem_joinComma c hc (g :: l) (fun x hx => h x (by simp_all))
    have := h f (by simp)
    simp_all

theorem csvReader_lines (rows : List (List Text)) (h : ∀ r ∈ rows, LineOK r) :
    csvReader (rows.flatMap fun r => line (joinComma r)) = rows := by
  rw [csvReader, universalNewlines_clean]
  · have := csvGo_lines rows h []
    rw [List.append_nil] at this
    rw [this]
    simp [csvGo]
  · intro hm
    obtain ⟨r, hr, hm⟩ := List.mem_flatMap.mp hm
    rw [line, List.mem_append] at hm
    rcases hm with hm | hm
    · exact not_mem_joinComma '\r' (by decide) r (fun f hf hx => ((h r hr).1 f hf '\r' hx).2.2.2 rfl) hm
    · simp at hm

/-! ## Integers -/

theorem digits_clean (n : Nat) : CleanText (Nat.toDigits 10 n) := by
  intro c hc
  refine ⟨?_, ?_, ?_, ?_⟩ <;> (rintro rfl; exact not_mem_toDigits (by decide) n hc)

theorem toDigits_digit (n : Nat) : ∀ c ∈ Nat.toDigits 10 n, c.isDigit = true := by
  intro c hc
  by_contra h
  exact not_mem_toDigits (by simpa using h) n hc

theorem intStr_clean (n : Int) : CleanText (intStr n) := by
  cases n with
  | ofNat n => exact digits_clean n
  | negSucc n =>
    intro c hc
    rcases List.mem_cons.mp hc with rfl | hc
    · decide
    · exact digits_clean _ c hc

theorem parseNat_digits (n : Nat) : parseNat (Nat.toDigits 10 n) = some n := by
  have hs : (Nat.toDigits 10 n).splitOn '_' = [Nat.toDigits 10 n] := by
    have := List.splitOn_intercalate (ls := [Nat.toDigits 10 n]) '_'
      (by intro l hl; rw [List.mem_singleton.mp hl]; exact not_mem_toDigits (by decide) n) (by simp)
    simpa [List.intercalate] using this
  simp only [parseNat, hs]
  rw [if_pos]
  · simp [Nat.ofDigitChars_ten_toDigits]
  · intro g hg
    rw [List.mem_singleton.mp hg]
    exact ⟨Nat.toDigits_ne_nil, toDigits_digit n⟩

theorem strip_of_ends {t : Text} (h : ∀ c ∈ t, isBlank c = false) : strip t = t := by
  have h1 : ∀ l : Text, (∀ c ∈ l, isBlank c = false) → l.dropWhile isBlank = l := by
    intro l hl
    cases l with
    | nil => rfl
    | cons c l => rw [List.dropWhile_cons_of_neg (by simp [hl c (by simp)])]
  rw [strip, h1 t h, h1 t.reverse (fun c hc => h c (by simpa using hc)), List.reverse_reverse]

theorem digit_not_blank {c : Char} (h : c.isDigit = true) : isBlank c = false := by
  by_contra hb
  rw [Bool.not_eq_false] at hb
  simp only [isBlank, decide_eq_true_eq, List.mem_cons, List.not_mem_nil, or_false] at hb
  have h1 : 48 ≤ c.toNat ∧ c.toNat ≤ 57 := by
    simp only [Char.isDigit, Bool.and_eq_true, decide_eq_true_eq, ge_iff_le, UInt32.le_iff_toNat_le] at h
    exact h
  omega

theorem parseInt_intStr (n : Int) : parseInt (intStr n) = some n := by
  cases n with
  | ofNat n =>
    rw [parseInt, intStr, strip_of_ends (fun c hc => digit_not_blank (toDigits_digit n c hc))]
    have h := parseNat_digits n
    have hd := toDigits_digit n
    revert h hd
    generalize Nat.toDigits 10 n = t
    intro h hd
    split
    · exact absurd (hd '-' (by simp)) (by decide)
    · exact absurd (hd '+' (by simp)) (by decide)
    · rw [h]; rfl
  | negSucc n =>
    rw [parseInt, intStr, strip_of_ends]
    · simp only [parseNat_digits]
      rfl
    · intro c hc
      rcases List.mem_cons.mp hc with rfl | hc
      · decide
      · exact digit_not_blank (toDigits_digit _ c hc)

/-! ## Records -/

theorem recordFields_ok (F : FloatText) (r : Row) (h : CleanRow F r) : LineOK (recordFields F r.1 r.2) := by
  refine ⟨?_, by simp [recordFields], by simp [recordFields]⟩
  intro f hf
  simp only [recordFields, List.mem_cons, List.not_mem_nil, or_false] at hf
  rcases hf with rfl | rfl | rfl | rfl | rfl | rfl | rfl | rfl | rfl | rfl | rfl | rfl | rfl
  all_goals first
    | exact intStr_clean _
    | exact h.noise.2
    | exact h.seconds.2
    | exact h.style
    | exact h.observable
    | exact h.decoder

theorem csvColumns_ok : LineOK csvColumns := by
  refine ⟨?_, by simp [csvColumns], by simp [csvColumns]⟩
  unfold CleanText
  decide

theorem dictRow_get (header row : List Text) (hn : header.Nodup) (i : Nat) (name : Text) (h : header[i]? = some name) :
    (dictRow header row).get? name = some row[i]? := by
  have hm : ((header.zipIdx.map fun (name, i) => (name, row[i]?)).map Prod.fst) = header := by
    rw [List.map_map]
    exact (List.zipIdx_map_fst 0 header)
  have hnd : ((header.zipIdx.map fun (name, i) => (name, row[i]?)).map Prod.fst).Nodup := by rw [hm]; exact hn
  rw [dictRow, PyDict.ofItems_of_nodup hnd]
  refine PyDict.get?_of_mem hnd ?_
  refine List.mem_map.mpr ⟨(name, i), ?_, rfl⟩
  rw [List.mem_zipIdx_iff_getElem?]
  exact h

theorem csvColumns_nodup : csvColumns.Nodup := by decide

theorem csvColumns_names : csvColumns.zipIdx.map (fun x => (x.2, x.1)) =
    [(0, "data_width".toList), (1, "data_height".toList), (2, "rounds".toList), (3, "noise".toList), (4, "circuit_style".toList),
     (5, "preserved_observable".toList), (6, "code_distance".toList), (7, "num_qubits".toList), (8, "num_shots".toList),
     (9, "num_correct".toList), (10, "total_processing_seconds".toList), (11, "decoder".toList), (12, "version".toList)] := rfl

theorem parseRow_record (F : FloatText) (r : Row) (h : CleanRow F r) (extra : List Text) :
    parseRow F (dictRow csvColumns ((recordFields F r.1 r.2).take 12 ++ extra)) = .ok r := by
  obtain ⟨d, v⟩ := r
  have g : ∀ (i : Nat) (name : String) (t : Text), csvColumns[i]? = some name.toList → i < 12 →
      (recordFields F d v)[i]? = some t →
      rowText (dictRow csvColumns ((recordFields F d v).take 12 ++ extra)) name = .ok t := by
    intro i name t hc hi ht
    have h1 := dictRow_get csvColumns ((recordFields F d v).take 12 ++ extra) csvColumns_nodup i name.toList hc
    rw [List.getElem?_append_left (by simp [recordFields]; omega), List.getElem?_take_of_lt hi, ht] at h1
    simp only [rowText, rowGet, h1, bind, Except.bind]
  have e0 := g 0 "data_width" (intStr d.data_width) rfl (by decide) rfl
  have e1 := g 1 "data_height" (intStr d.data_height) rfl (by decide) rfl
  have e2 := g 2 "rounds" (intStr d.rounds) rfl (by decide) rfl
  have e3 := g 3 "noise" (F.str d.noise) rfl (by decide) rfl
  have e4 := g 4 "circuit_style" d.circuit_style.toList rfl (by decide) rfl
  have e5 := g 5 "preserved_observable" d.preserved_observable.toList rfl (by decide) rfl
  have e6 := g 6 "code_distance" (intStr d.code_distance) rfl (by decide) rfl
  have e7 := g 7 "num_qubits" (intStr d.num_qubits) rfl (by decide) rfl
  have e8 := g 8 "num_shots" (intStr v.num_shots) rfl (by decide) rfl
  have e9 := g 9 "num_correct" (intStr v.num_correct) rfl (by decide) rfl
  have e10 := g 10 "total_processing_seconds" (F.str v.total_processing_seconds) rfl (by decide) rfl
  have e11 := g 11 "decoder" d.decoder.toList rfl (by decide) rfl
  have hn := h.noise.1
  have hs := h.seconds.1
  simp only at hn hs
  clear g
  generalize dictRow csvColumns ((recordFields F d v).take 12 ++ extra) = row at *
  simp only [parseRow, rowInt, rowFloat, e0, e1, e2, e3, e4, e5, e6, e7, e8, e9, e10, e11, bind, Except.bind, parseInt_intStr,
    hn, hs, String.ofList_toList]

theorem parseRow_record' (F : FloatText) (r : Row) (h : CleanRow F r) :
    parseRow F (dictRow csvColumns (recordFields F r.1 r.2)) = .ok r := by
  have := parseRow_record F r h ((recordFields F r.1 r.2).drop 12)
  rwa [List.take_append_drop] at this

theorem dictReader_lines (header : List Text) (rows : List (List Text)) (hh : LineOK header) (h : ∀ r ∈ rows, LineOK r) :
    dictReader (line (joinComma header) ++ rows.flatMap fun l => line (joinComma l)) = rows.map (dictRow header) := by
  have e := csvReader_lines (header :: rows) (by
    intro r hr
    rcases List.mem_cons.mp hr with rfl | hr
    · exact hh
    · exact h r hr)
  rw [List.flatMap_cons] at e
  rw [dictReader, e]
  have hf : rows.filter (fun r => decide (r ≠ [])) = rows := by
    rw [List.filter_eq_self]
    intro r hr
    simpa using (h r hr).2.1
  simp only [hf]

theorem dictReader_dataFile (F : FloatText) (rows : List Row) (h : ∀ r ∈ rows, CleanRow F r) :
    dictReader (dataFile F rows) = rows.map fun r => dictRow csvColumns (recordFields F r.1 r.2) := by
  have e := dictReader_lines csvColumns (rows.map fun r => recordFields F r.1 r.2) csvColumns_ok (by
    intro x hx
    obtain ⟨r, hr, rfl⟩ := List.mem_map.mp hx
    exact recordFields_ok F r (h r hr))
  rw [List.flatMap_map, List.map_map] at e
  rw [dataFile, csvHeader, rowsText]
  simp only [record, Function.comp_def] at e ⊢
  rw [e]

theorem mapM_parse_dataFile (F : FloatText) (rows : List Row) (h : ∀ r ∈ rows, CleanRow F r) :
    (dictReader (dataFile F rows)).mapM (parseRow F) = .ok rows := by
  rw [dictReader_dataFile F rows h, List.mapM_map]
  have hp : ∀ r ∈ rows, (parseRow F ∘ fun r : Row => dictRow csvColumns (recordFields F r.1 r.2)) r = .ok r :=
    fun r hr => parseRow_record' F r (h r hr)
  generalize (parseRow F ∘ fun r : Row => dictRow csvColumns (recordFields F r.1 r.2)) = f at hp
  clear h
  induction rows with
  | nil => rfl
  | cons r rows ih =>
    rw [List.mapM_cons, hp r (by simp), ih (fun r hr => hp r (by simp [hr]))]
    rfl

theorem intStr_digits (n : Int) : ∀ c ∈ intStr n, c = '-' ∨ c.isDigit = true := by
  cases n with
  | ofNat n => exact fun c hc => Or.inr (toDigits_digit n c hc)
  | negSucc n =>
    intro c hc
    rcases List.mem_cons.mp hc with rfl | hc
    · exact Or.inl rfl
    · exact Or.inr (toDigits_digit _ c hc)

theorem fractionText_faithful (x : Rat) : fractionText.Faithful x := by
  have h1 : '/' ∉ intStr x.num := by
    intro h
    rcases intStr_digits _ _ h with h | h <;> revert h <;> decide
  have h2 : '/' ∉ Nat.toDigits 10 x.den := not_mem_toDigits (by decide) _
  refine ⟨?_, ?_⟩
  · have := List.splitOn_intercalate (ls := [intStr x.num, Nat.toDigits 10 x.den]) '/' (by
      intro l hl
      simp only [List.mem_cons, List.not_mem_nil, or_false] at hl
      rcases hl with rfl | rfl
      · exact h1
      · exact h2) (by simp)
    have e : ['/'].intercalate [intStr x.num, Nat.toDigits 10 x.den] = intStr x.num ++ '/' :: Nat.toDigits 10 x.den := by
      simp [List.intercalate]
    rw [e] at this
    simp only [fractionText, this, parseInt_intStr, parseNat_digits, Option.bind_some, Option.map_some]
    rw [Rat.num_div_den]
  · intro c hc
    simp only [fractionText, List.mem_append, List.mem_cons] at hc
    rcases hc with hc | rfl | hc
    · exact intStr_clean _ c hc
    · decide
    · exact digits_clean _ c hc

end Honeycomb
