import Verif.Lemmas.Dict
import Verif.Lemmas.Py
import Verif.Model.CircuitPlot
import Verif.Spec.CircuitPlot

/-!
# Lemmas about `diagram_3d`
-/

namespace Honeycomb
open PyDict

variable {κ ν α : Type} [DecidableEq κ]

/-- What a loop of assignments does to a dictionary. -/
structure Sets (key : α → κ) (V : ν → Prop) (l : List α) (d d' : PyDict κ ν) : Prop where
  there : ∀ a ∈ l, d'.get? (key a) ≠ none
  keeps : ∀ k, d.get? k ≠ none → d'.get? k ≠ none
  only : ∀ k c, d'.get? k = some c → d.get? k = some c ∨ (V c ∧ ∃ a ∈ l, k = key a)
  nodup : (d.map Prod.fst).Nodup → (d'.map Prod.fst).Nodup

theorem foldl_sets {g : PyDict κ ν → α → PyDict κ ν} {key : α → κ} {V : ν → Prop}
    (hg : ∀ d a, ∃ v, V v ∧ g d a = d.set (key a) v) (l : List α) (d : PyDict κ ν) : Sets key V l d (l.foldl g d) := by
  induction l generalizing d with
  | nil => exact ⟨by simp, fun _ h => h, fun _ _ h => Or.inl h, fun h => h⟩
  | cons a l ih =>
    obtain ⟨v, hv, e⟩ := hg d a
    have := ih (g d a)
    rw [List.foldl_cons]
    have hk : ∀ k, d.get? k ≠ none → (g d a).get? k ≠ none := by
      intro k hk
      rw [e, get?_set]
      split_ifs <;> simp_all
    refine ⟨?_, fun k h => this.keeps k (hk k h), ?_, fun h => this.nodup (by rw [e]; exact nodup_set h _ _)⟩
    · intro b hb
      rcases List.mem_cons.1 hb with rfl | hb
      · refine this.keeps _ ?_
        rw [e, get?_set_self]
        simp
      · exact this.there b hb
    · intro k c h
      rcases this.only k c h with h | ⟨h1, b, hb, h2⟩
      · rw [e, get?_set] at h
        split_ifs at h with h'
        · simp only [Option.some.injEq] at h
          subst h
          exact Or.inr ⟨hv, a, List.mem_cons_self, h'.symm⟩
        · exact Or.inl h
      · exact Or.inr ⟨h1, b, List.mem_cons_of_mem _ hb, h2⟩

/-- The dictionary that results from assigning items: a key with only one value has it, other keys are unchanged. -/
theorem get?_foldl_set (l : List (κ × ν)) (d : PyDict κ ν) (k : κ) :
    (∀ c, (k, c) ∈ l → (∀ c', (k, c') ∈ l → c' = c) → (l.foldl (fun d e => d.set e.1 e.2) d).get? k = some c) ∧
    (k ∉ l.map Prod.fst → (l.foldl (fun d e => d.set e.1 e.2) d).get? k = d.get? k) := by
  induction l generalizing d with
  | nil => simp
  | cons e l ih =>
    obtain ⟨h1, h2⟩ := ih (d.set e.1 e.2)
    rw [List.foldl_cons]
    constructor
    · intro c hc huniq
      by_cases hm : k ∈ l.map Prod.fst
      · obtain ⟨⟨k', c'⟩, hmem, rfl⟩ := List.mem_map.1 hm
        have hc' : c' = c := huniq c' (List.mem_cons_of_mem _ hmem)
        subst hc'
        exact h1 c' hmem fun c' h => huniq c' (List.mem_cons_of_mem _ h)
      · rw [h2 hm]
        rcases List.mem_cons.1 hc with h | h
        · rw [← h, get?_set_self]
        · exact absurd (List.mem_map_of_mem (f := Prod.fst) h) hm
    · intro hm
      rw [List.map_cons, List.mem_cons, not_or] at hm
      rw [h2 hm.2, get?_set_ne _ _ (Ne.symm hm.1)]

theorem foldl_set_sets (l : List (κ × ν)) (d : PyDict κ ν) :
    Sets Prod.fst (fun c => ∃ k, (k, c) ∈ l) l d (l.foldl (fun d e => d.set e.1 e.2) d) := by
  induction l generalizing d with
  | nil => exact ⟨by simp, fun _ h => h, fun _ _ h => Or.inl h, fun h => h⟩
  | cons e l ih =>
    have := ih (d.set e.1 e.2)
    rw [List.foldl_cons]
    refine ⟨?_, ?_, ?_, fun h => this.nodup (nodup_set h _ _)⟩
    · intro b hb
      rcases List.mem_cons.1 hb with rfl | hb
      · exact this.keeps _ (by rw [get?_set_self]; simp)
      · exact this.there b hb
    · intro k h
      refine this.keeps k ?_
      rw [get?_set]
      split_ifs <;> simp_all
    · intro k c h
      rcases this.only k c h with h | ⟨⟨k', h1⟩, b, hb, h2⟩
      · rw [get?_set] at h
        split_ifs at h with h'
        · simp only [Option.some.injEq] at h
          subst h
          exact Or.inr ⟨⟨e.1, List.mem_cons_self⟩, e, List.mem_cons_self, h'.symm⟩
        · exact Or.inl h
      · exact Or.inr ⟨⟨k', List.mem_cons_of_mem _ h1⟩, b, List.mem_cons_of_mem _ hb, h2⟩

/-! ## Connectors -/

/-- The characters of lines and crossings. -/
def IsLine (c : Char) : Prop := c ∈ ['|', '-', '+', '=']

theorem mem_pyRange2 {a b k : Int} : k ∈ pyRange2 a b ↔ a ≤ k ∧ k < b := by
  simp only [pyRange2, List.mem_map, mem_pyRange]
  constructor
  · rintro ⟨i, hi, rfl⟩; omega
  · intro h; exact ⟨k - a, by omega, by omega⟩

/-- The cells of the connectors from `p1` to `p2`, if it is drawn. -/
def onConnector (p1 p2 k : Int × Int) : Prop :=
  (p1.1 = p2.1 ∧ k.1 = p1.1 ∧ min p1.2 p2.2 ≤ k.2 ∧ k.2 ≤ max p1.2 p2.2) ∨
  (p1.2 = p2.2 ∧ k.2 = p1.2 ∧ min p1.1 p2.1 ≤ k.1 ∧ k.1 ≤ max p1.1 p2.1)

/-- What drawing lines does. -/
structure Drawn (on : Int × Int → Prop) (d d' : PyDict (Int × Int) Char) : Prop where
  there : ∀ k, on k → d'.get? k ≠ none
  keeps : ∀ k, d.get? k ≠ none → d'.get? k ≠ none
  only : ∀ k c, d'.get? k = some c → d.get? k = some c ∨ (IsLine c ∧ on k)
  nodup : (d.map Prod.fst).Nodup → (d'.map Prod.fst).Nodup

theorem Drawn.trans {on on' : Int × Int → Prop} {d d' d'' : PyDict (Int × Int) Char} (h : Drawn on d d') (h' : Drawn on' d' d'') :
    Drawn (fun k => on k ∨ on' k) d d'' where
  there k hk := hk.elim (fun h1 => h'.keeps k (h.there k h1)) (h'.there k)
  keeps k hk := h'.keeps k (h.keeps k hk)
  only k c hk := by
    rcases h'.only k c hk with h1 | ⟨h1, h2⟩
    · rcases h.only k c h1 with h3 | ⟨h3, h4⟩
      · exact Or.inl h3
      · exact Or.inr ⟨h3, Or.inl h4⟩
    · exact Or.inr ⟨h1, Or.inr h2⟩
  nodup hn := h'.nodup (h.nodup hn)

theorem Drawn.congr {on on' : Int × Int → Prop} {d d' : PyDict (Int × Int) Char} (h : Drawn on d d') (e : ∀ k, on k ↔ on' k) :
    Drawn on' d d' := by
  have : on = on' := funext fun k => propext (e k)
  rw [← this]; exact h

theorem drawColumn_drawn (p1 p2 : Int × Int) (d : PyDict (Int × Int) Char) :
    Drawn (fun k => p1.1 = p2.1 ∧ k.1 = p1.1 ∧ min p1.2 p2.2 ≤ k.2 ∧ k.2 ≤ max p1.2 p2.2) d (drawColumn p1 p2 d) := by
  rw [drawColumn]
  split_ifs with h
  · have := foldl_sets (g := fun (projected : PyDict (Int × Int) Char) k =>
      let key := (p1.1, k)
      if (projected.get? key).getD ' ' ∈ ['-', '+'] then projected.set key '+' else projected.set key '|')
      (key := fun k => (p1.1, k)) (V := IsLine)
      (by
        intro d a
        simp only
        split_ifs
        · exact ⟨'+', by simp [IsLine], rfl⟩
        · exact ⟨'|', by simp [IsLine], rfl⟩) (pyRange2 (min p1.2 p2.2) (max p1.2 p2.2 + 1)) d
    refine ⟨?_, this.keeps, ?_, this.nodup⟩
    · rintro ⟨a, b⟩ ⟨_, h1, h2, h3⟩
      simp only at h1 h2 h3
      subst h1
      exact this.there b (mem_pyRange2.2 ⟨h2, by omega⟩)
    · intro k c hk
      rcases this.only k c hk with h1 | ⟨h1, b, hb, h2⟩
      · exact Or.inl h1
      · refine Or.inr ⟨h1, h, ?_⟩
        rw [mem_pyRange2] at hb
        subst h2
        exact ⟨rfl, hb.1, by simp only; omega⟩
  · exact ⟨fun k hk => absurd hk.1 h, fun _ h => h, fun _ _ h => Or.inl h, fun h => h⟩

theorem drawLine_drawn (p1 p2 : Int × Int) (d : PyDict (Int × Int) Char) :
    Drawn (fun k => p1.2 = p2.2 ∧ k.2 = p1.2 ∧ min p1.1 p2.1 ≤ k.1 ∧ k.1 ≤ max p1.1 p2.1) d (drawLine p1 p2 d) := by
  rw [drawLine]
  split_ifs with h
  · have := foldl_sets (g := fun (projected : PyDict (Int × Int) Char) k =>
      let key := (k, p1.2)
      if (projected.get? key).getD ' ' ∈ ['|', '+'] then projected.set key '+'
      else if (projected.get? key).getD ' ' = '-' then projected.set key '='
      else projected.set key '-')
      (key := fun k => (k, p1.2)) (V := IsLine)
      (by
        intro d a
        simp only
        split_ifs
        · exact ⟨'+', by simp [IsLine], rfl⟩
        · exact ⟨'=', by simp [IsLine], rfl⟩
        · exact ⟨'-', by simp [IsLine], rfl⟩) (pyRange2 (min p1.1 p2.1) (max p1.1 p2.1 + 1)) d
    refine ⟨?_, this.keeps, ?_, this.nodup⟩
    · rintro ⟨a, b⟩ ⟨_, h1, h2, h3⟩
      simp only at h1 h2 h3
      subst h1
      exact this.there a (mem_pyRange2.2 ⟨h2, by omega⟩)
    · intro k c hk
      rcases this.only k c hk with h1 | ⟨h1, b, hb, h2⟩
      · exact Or.inl h1
      · refine Or.inr ⟨h1, h, ?_⟩
        rw [mem_pyRange2] at hb
        subst h2
        exact ⟨rfl, hb.1, by simp only; omega⟩
  · exact ⟨fun k hk => absurd hk.1 h, fun _ h => h, fun _ _ h => Or.inl h, fun h => h⟩

theorem connectors_drawn (l : List ((Int × Int) × (Int × Int))) (d : PyDict (Int × Int) Char) :
    Drawn (fun k => ∃ p ∈ l, onConnector p.1 p.2 k) d (l.foldl (fun d p => drawLine p.1 p.2 (drawColumn p.1 p.2 d)) d) := by
  induction l generalizing d with
  | nil => exact ⟨by simp, fun _ h => h, fun _ _ h => Or.inl h, fun h => h⟩
  | cons p l ih =>
    rw [List.foldl_cons]
    refine (((drawColumn_drawn p.1 p.2 d).trans (drawLine_drawn p.1 p.2 _)).trans (ih _)).congr fun k => ?_
    simp only [List.mem_cons, exists_eq_or_imp, onConnector]

end Honeycomb
