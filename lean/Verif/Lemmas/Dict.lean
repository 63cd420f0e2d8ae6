import Mathlib.Data.List.Basic
import Verif.Model.Py

/-!
# Lookup in insertion ordered dictionaries
-/

namespace Honeycomb
namespace PyDict

variable {κ ν : Type} [DecidableEq κ]

theorem get?_set (d : PyDict κ ν) (k k' : κ) (v : ν) :
    (d.set k v).get? k' = if k = k' then some v else d.get? k' := by
  induction d with
  | nil => simp only [set, get?]
  | cons a d ih =>
    obtain ⟨a, b⟩ := a
    simp only [set]
    by_cases h : a = k
    · subst h
      rw [if_pos rfl]
      simp only [get?]
      split_ifs <;> rfl
    · rw [if_neg h]
      simp only [get?, ih]
      by_cases h1 : a = k'
      · subst h1
        simp [Ne.symm h]
      · simp [h1]

theorem get?_set_self (d : PyDict κ ν) (k : κ) (v : ν) : (d.set k v).get? k = some v := by simp [get?_set]

theorem get?_set_ne (d : PyDict κ ν) {k k' : κ} (v : ν) (h : k ≠ k') : (d.set k v).get? k' = d.get? k' := by
  simp [get?_set, h]

theorem get?_filter_ne (d : PyDict κ ν) {k k' : κ} (h : k' ≠ k) :
    PyDict.get? (d.filter fun e => e.1 ≠ k) k' = d.get? k' := by
  induction d with
  | nil => rfl
  | cons a d ih =>
    obtain ⟨a, b⟩ := a
    by_cases h1 : a = k
    · subst h1
      rw [List.filter_cons_of_neg (by simp), ih]
      simp [get?, h.symm]
    · rw [List.filter_cons_of_pos (by simpa using h1)]
      simp only [get?, ih]

theorem get?_isSome_iff (d : PyDict κ ν) (k : κ) : (d.get? k).isSome = true ↔ k ∈ d.map Prod.fst := by
  induction d with
  | nil => simp [get?]
  | cons a d ih =>
    obtain ⟨a, b⟩ := a
    by_cases h : a = k
    · simp [get?, h]
    · simp only [get?, h, if_false, ih, List.map_cons, List.mem_cons, Ne.symm h, false_or]

theorem get?_eq_none_iff (d : PyDict κ ν) (k : κ) : d.get? k = none ↔ k ∉ d.map Prod.fst := by
  rw [← get?_isSome_iff, Bool.not_eq_true, Option.isSome_eq_false_iff, Option.isNone_iff_eq_none]

theorem map_fst_set (d : PyDict κ ν) (k : κ) (v : ν) :
    (d.set k v).map Prod.fst = if k ∈ d.map Prod.fst then d.map Prod.fst else d.map Prod.fst ++ [k] := by
  induction d with
  | nil => simp [set]
  | cons a d ih =>
    obtain ⟨a, b⟩ := a
    by_cases h : a = k
    · subst h
      simp [set]
    · simp only [set, h, if_false, List.map_cons, ih, List.mem_cons, Ne.symm h, false_or]
      split_ifs <;> simp

theorem nodup_set {d : PyDict κ ν} (h : (d.map Prod.fst).Nodup) (k : κ) (v : ν) :
    ((d.set k v).map Prod.fst).Nodup := by
  rw [map_fst_set]
  split_ifs with hk
  · exact h
  · exact List.nodup_append.2 ⟨h, by simp, by intro a ha b hb e; simp at hb; subst hb; subst e; exact hk ha⟩

theorem mem_of_get? {d : PyDict κ ν} {k : κ} {v : ν} (h : d.get? k = some v) : (k, v) ∈ d := by
  induction d with
  | nil => simp [get?] at h
  | cons a d ih =>
    obtain ⟨a, b⟩ := a
    simp only [get?] at h
    split_ifs at h with h1
    · subst h1; cases h; simp
    · exact List.mem_cons_of_mem _ (ih h)

theorem get?_of_mem {d : PyDict κ ν} (hd : (d.map Prod.fst).Nodup) {k : κ} {v : ν} (h : (k, v) ∈ d) :
    d.get? k = some v := by
  induction d with
  | nil => simp at h
  | cons a d ih =>
    obtain ⟨a, b⟩ := a
    rw [List.map_cons, List.nodup_cons] at hd
    rcases List.mem_cons.1 h with h | h
    · cases h; simp [get?]
    · have : a ≠ k := by
        rintro rfl
        exact hd.1 (List.mem_map.2 ⟨_, h, rfl⟩)
      simp [get?, this, ih hd.2 h]

end PyDict
end Honeycomb
