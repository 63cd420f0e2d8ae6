import Mathlib.Data.List.Nodup
import Mathlib.Data.List.Perm.Basic
import Mathlib.Data.List.Dedup
import Mathlib.Tactic.Linarith
import Mathlib.Tactic.Ring
import Verif.Model.Py

/-! Helper lemmas about the Python notions of `Model/Py.lean`. -/

namespace Honeycomb

theorem mem_pyRange {n a : Int} : a ∈ pyRange n ↔ 0 ≤ a ∧ a < n := by
  simp only [pyRange, List.mem_map, List.mem_range]
  constructor
  · rintro ⟨k, hk, rfl⟩
    simp only [Int.ofNat_eq_natCast]
    omega
  · rintro ⟨h0, h1⟩
    exact ⟨a.toNat, by omega, by simp only [Int.ofNat_eq_natCast]; omega⟩

theorem nodup_pyRange (n : Int) : (pyRange n).Nodup :=
  List.Nodup.map (fun _ _ h => Int.ofNat.inj h) List.nodup_range

theorem length_pyRange (n : Int) : (pyRange n).length = n.toNat := by simp [pyRange]

theorem mem_pySet {α : Type} [DecidableEq α] {l : List α} {a : α} : a ∈ pySet l ↔ a ∈ l := by
  induction l with
  | nil => simp [pySet]
  | cons b l ih =>
    simp only [pySet]
    split
    · rename_i hb
      rw [ih, List.mem_cons]
      constructor
      · exact Or.inr
      · rintro (rfl | h)
        · exact hb
        · exact h
    · simp [ih]

theorem nodup_pySet {α : Type} [DecidableEq α] (l : List α) : (pySet l).Nodup := by
  induction l with
  | nil => simp [pySet]
  | cons b l ih =>
    simp only [pySet]
    split
    · exact ih
    · rename_i hb
      exact List.nodup_cons.2 ⟨fun h => hb (mem_pySet.1 h), ih⟩

theorem pySet_of_nodup {α : Type} [DecidableEq α] {l : List α} (h : l.Nodup) : pySet l = l := by
  induction l with
  | nil => rfl
  | cons b l ih =>
    have := List.nodup_cons.1 h
    simp [pySet, this.1, ih this.2]

theorem mem_sorted {α : Type} {le : α → α → Bool} {l : List α} {a : α} : a ∈ l.mergeSort le ↔ a ∈ l :=
  (List.mergeSort_perm l le).mem_iff

theorem nodup_sorted {α : Type} {le : α → α → Bool} {l : List α} : (l.mergeSort le).Nodup ↔ l.Nodup :=
  (List.mergeSort_perm l le).nodup_iff

namespace PyDict
variable {κ ν : Type} [DecidableEq κ]

theorem set_of_not_mem {d : PyDict κ ν} {k : κ} {v : ν} (h : k ∉ keys d) : set d k v = d ++ [(k, v)] := by
  induction d with
  | nil => rfl
  | cons kv d ih =>
    obtain ⟨k', v'⟩ := kv
    simp only [keys, List.map_cons, List.mem_cons, not_or] at h
    simp only [set, List.cons_append]
    rw [if_neg (fun e => h.1 e.symm), ih h.2]

theorem ofItems_of_nodup {items : List (κ × ν)} (h : (items.map Prod.fst).Nodup) : ofItems items = items := by
  suffices ∀ (d : PyDict κ ν) (l : List (κ × ν)), ((d ++ l).map Prod.fst).Nodup →
      l.foldl (fun d kv => set d kv.1 kv.2) d = d ++ l by
    exact (this [] items (by simpa using h)).trans (List.nil_append _)
  intro d l
  induction l generalizing d with
  | nil => simp
  | cons kv l ih =>
    intro hn
    have hk : kv.1 ∉ keys d := by
      rw [List.map_append, List.map_cons] at hn
      have := List.disjoint_of_nodup_append hn
      intro hmem
      exact this hmem (List.mem_cons_self)
    rw [List.foldl_cons, set_of_not_mem hk, ih]
    · simp
    · simpa using hn

theorem get?_eq_some_of_nodup {d : PyDict κ ν} (h : (d.map Prod.fst).Nodup) {k : κ} {v : ν} :
    d.get? k = some v ↔ (k, v) ∈ d := by
  induction d with
  | nil => simp [get?]
  | cons kv d ih =>
    obtain ⟨k', v'⟩ := kv
    rw [List.map_cons] at h
    have hh := List.nodup_cons.1 h
    simp only [get?]
    split
    · rename_i e
      subst e
      constructor
      · intro h; simp only [Option.some.injEq] at h; subst h; simp
      · intro hm
        rcases List.mem_cons.1 hm with h' | h'
        · simp only [Prod.mk.injEq, true_and] at h'; rw [h']
        · exact absurd (List.mem_map.2 ⟨_, h', rfl⟩) hh.1
    · rename_i e
      rw [ih hh.2, List.mem_cons]
      constructor
      · exact Or.inr
      · rintro (h' | h')
        · exact absurd (Prod.mk.inj h').1.symm e
        · exact h'

end PyDict

/-- Python's `a % m` on values at most one period outside of `[0, m)`. -/
theorem emod_cases {a m : Int} (h0 : -m ≤ a) (h1 : a < 2 * m) :
    (0 ≤ a ∧ a < m ∧ a % m = a) ∨ (a < 0 ∧ a % m = a + m) ∨ (m ≤ a ∧ a % m = a - m) := by
  rcases lt_trichotomy a 0 with h | h | h
  · right; left
    refine ⟨h, ?_⟩
    rw [← Int.add_emod_right, Int.emod_eq_of_lt (by omega) (by omega)]
  · left; subst h
    exact ⟨le_refl _, by omega, by simp⟩
  · by_cases hm : a < m
    · left
      exact ⟨by omega, hm, Int.emod_eq_of_lt (by omega) hm⟩
    · right; right
      refine ⟨by omega, ?_⟩
      rw [← Int.sub_emod_right, Int.emod_eq_of_lt (by omega) (by omega)]

end Honeycomb
