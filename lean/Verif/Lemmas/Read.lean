import Verif.Lemmas.Csv
import Verif.Lemmas.Shots

/-!
# Reading files back
-/

namespace Honeycomb

theorem foldlM_rows (F : FloatText) (table : List (PyDict Text (Option Text))) (d : PyDict DecodingProblemDesc ShotData)
    (rows : List Row) (h : table.mapM (parseRow F) = .ok rows) :
    table.foldlM (readOneRow F) d = .ok (rows.foldl (fun d r => addShots d r.1 r.2) d) := by
  induction table generalizing d rows with
  | nil =>
    rw [List.mapM_nil] at h
    cases h
    rfl
  | cons t table ih =>
    rw [List.mapM_cons] at h
    cases hp : parseRow F t with
    | error e => rw [hp] at h; cases h
    | ok r =>
      rw [hp] at h
      cases hm : table.mapM (parseRow F) with
      | error e => rw [hm] at h; cases h
      | ok rs =>
        rw [hm] at h
        cases h
        rw [List.foldlM_cons]
        have : readOneRow F d t = .ok (addShots d r.1 r.2) := by simp only [readOneRow, hp, bind, Except.bind]
        rw [this]
        exact ih _ _ hm

theorem foldlM_rows_error (F : FloatText) (table : List (PyDict Text (Option Text))) (d : PyDict DecodingProblemDesc ShotData)
    (e : PyErr) (h : table.mapM (parseRow F) = .error e) : table.foldlM (readOneRow F) d = .error e := by
  induction table generalizing d with
  | nil => cases h
  | cons t table ih =>
    rw [List.mapM_cons] at h
    cases hp : parseRow F t with
    | error e' =>
      rw [hp] at h
      cases h
      rw [List.foldlM_cons]
      have : readOneRow F d t = .error e := by simp only [readOneRow, hp, bind, Except.bind]
      rw [this]
      rfl
    | ok r =>
      rw [hp] at h
      cases hm : table.mapM (parseRow F) with
      | ok rs => rw [hm] at h; cases h
      | error e' =>
        rw [hm] at h
        cases h
        rw [List.foldlM_cons]
        have : readOneRow F d t = .ok (addShots d r.1 r.2) := by simp only [readOneRow, hp, bind, Except.bind]
        rw [this]
        exact ih _ hm

theorem read_ok (F : FloatText) (files : List Text) (rowss : List (List Row))
    (h : List.Forall₂ (fun t rows => (dictReader t).mapM (parseRow F) = .ok rows) files rowss) :
    readRecordedData F files = .ok (rowss.flatten.foldl (fun d r => addShots d r.1 r.2) []) := by
  rw [readRecordedData]
  generalize ([] : PyDict DecodingProblemDesc ShotData) = d
  induction h generalizing d with
  | nil => rfl
  | @cons t rows files rowss h _ ih =>
    rw [List.foldlM_cons, foldlM_rows F _ d rows h, List.flatten_cons, List.foldl_append]
    exact ih _

theorem read_ok_inv (F : FloatText) (files : List Text) (data : PyDict DecodingProblemDesc ShotData)
    (h : readRecordedData F files = .ok data) :
    ∃ rowss, List.Forall₂ (fun t rows => (dictReader t).mapM (parseRow F) = .ok rows) files rowss := by
  rw [readRecordedData] at h
  generalize ([] : PyDict DecodingProblemDesc ShotData) = d at h
  induction files generalizing d with
  | nil => exact ⟨[], .nil⟩
  | cons t files ih =>
    rw [List.foldlM_cons] at h
    cases hm : (dictReader t).mapM (parseRow F) with
    | error e => rw [foldlM_rows_error F _ d e hm] at h; cases h
    | ok rows =>
      rw [foldlM_rows F _ d rows hm] at h
      obtain ⟨rowss, hr⟩ := ih _ h
      exact ⟨rows :: rowss, .cons hm hr⟩

theorem read_dataFile (F : FloatText) (rows : List Row) (h : ∀ r ∈ rows, CleanRow F r) :
    readRecordedData F [dataFile F rows] = .ok (rows.foldl (fun d r => addShots d r.1 r.2) []) := by
  have := read_ok F [dataFile F rows] [rows] (.cons (mapM_parse_dataFile F rows h) .nil)
  simpa using this

end Honeycomb
