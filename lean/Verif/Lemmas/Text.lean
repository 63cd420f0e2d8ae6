import Mathlib.Data.List.TakeWhile
import Verif.Model.Decoding

/-!
# Text written for and read from the internal decoder
-/

namespace Honeycomb

theorem toDigits_inj {m n : Nat} (h : Nat.toDigits 10 m = Nat.toDigits 10 n) : m = n := by
  rw [← Nat.ofDigitChars_ten_toDigits (n := m), h, Nat.ofDigitChars_ten_toDigits]

theorem not_mem_toDigits {c : Char} (hc : c.isDigit = false) (n : Nat) : c ∉ Nat.toDigits 10 n := by
  intro h
  rw [Nat.isDigit_of_mem_toDigits (by decide) (by decide) h] at hc
  exact absurd hc (by simp)

/-- Texts that do not contain a terminator are determined by a text that starts with them and the terminator. -/
theorem append_term_inj {α : Type} [DecidableEq α] {c : α} {a b x y : List α} (ha : c ∉ a) (hb : c ∉ b)
    (h : a ++ c :: x = b ++ c :: y) : a = b ∧ x = y := by
  induction a generalizing b with
  | nil =>
    cases b with
    | nil => simpa using h
    | cons e b =>
      simp only [List.nil_append, List.cons_append, List.cons.injEq] at h
      exact absurd (h.1 ▸ List.mem_cons_self) hb
  | cons d a ih =>
    cases b with
    | nil =>
      simp only [List.nil_append, List.cons_append, List.cons.injEq] at h
      exact absurd (h.1 ▸ List.mem_cons_self) ha
    | cons e b =>
      simp only [List.cons_append, List.cons.injEq] at h
      obtain ⟨h1, h2⟩ := ih (fun h => ha (List.mem_cons_of_mem _ h)) (fun h => hb (List.mem_cons_of_mem _ h)) h.2
      exact ⟨by rw [h.1, h1], h2⟩

/-- A list of tokens, each preceded by a separator that does not occur in them. -/
theorem flatMap_sep_inj {α β : Type} [DecidableEq α] (c : α) (f : β → List α) (hf : ∀ b, c ∉ f b)
    (hinj : ∀ a b, f a = f b → a = b) :
    ∀ l l' : List β, (l.flatMap fun b => c :: f b) = (l'.flatMap fun b => c :: f b) → l = l' := by
  have aux : ∀ (l l' : List β) (a b : List α), c ∉ a → c ∉ b →
      a ++ (l.flatMap fun b => c :: f b) = b ++ (l'.flatMap fun b => c :: f b) → a = b ∧ l = l' := by
    intro l
    induction l with
    | nil =>
      intro l' a b ha hb h
      cases l' with
      | nil => simpa using h
      | cons x l' =>
        simp only [List.flatMap_nil, List.append_nil, List.flatMap_cons] at h
        exact absurd (h ▸ by simp) ha
    | cons x l ih =>
      intro l' a b ha hb h
      cases l' with
      | nil =>
        simp only [List.flatMap_nil, List.append_nil, List.flatMap_cons] at h
        exact absurd (h ▸ by simp) hb
      | cons y l' =>
        simp only [List.flatMap_cons, List.cons_append] at h
        obtain ⟨h1, h2⟩ := append_term_inj ha hb h
        obtain ⟨h3, h4⟩ := ih l' _ _ (hf x) (hf y) h2
        exact ⟨h1, by rw [hinj x y h3, h4]⟩
  intro l l' h
  exact (aux l l' [] [] (by simp) (by simp) (by simpa using h)).2

theorem detsLine_eq (row : List Bool) :
    detsLine row = ("shot".toList ++ ((nonzero row).flatMap fun k => ' ' :: ('D' :: Nat.toDigits 10 k))) ++ ['\n'] := rfl

theorem newline_not_mem (row : List Bool) :
    '\n' ∉ "shot".toList ++ ((nonzero row).flatMap fun k => ' ' :: ('D' :: Nat.toDigits 10 k)) := by
  intro h
  rcases List.mem_append.1 h with h | h
  · revert h; decide
  · obtain ⟨k, -, h⟩ := List.mem_flatMap.1 h
    rcases List.mem_cons.1 h with h | h
    · exact absurd h (by decide)
    · rcases List.mem_cons.1 h with h | h
      · exact absurd h (by decide)
      · exact not_mem_toDigits (by decide) k h

theorem nonzero_inj {a b : List Bool} (hl : a.length = b.length) (h : nonzero a = nonzero b) : a = b := by
  apply List.ext_getElem hl
  intro i h1 h2
  have hm : i ∈ nonzero a ↔ i ∈ nonzero b := by rw [h]
  simp only [nonzero, List.mem_filter, List.mem_range, h1, h2, true_and, List.getD_eq_getElem?_getD,
    List.getElem?_eq_getElem h1, List.getElem?_eq_getElem h2, Option.getD_some] at hm
  exact Bool.eq_iff_iff.2 hm

theorem detsFile_inj (n : Nat) : ∀ m m' : BitMatrix, (∀ r ∈ m, r.length = n) → (∀ r ∈ m', r.length = n) →
    detsFile m = detsFile m' → m = m'
  | [], [], _, _, _ => rfl
  | [], r :: m', _, _, h => by simp [detsFile, detsLine] at h
  | r :: m, [], _, _, h => by simp [detsFile, detsLine] at h
  | r :: m, r' :: m', hm, hm', h => by
    simp only [detsFile, List.flatMap_cons, detsLine_eq, List.append_assoc] at h
    simp only [← List.append_assoc, List.singleton_append] at h
    obtain ⟨h1, h2⟩ := append_term_inj (newline_not_mem r) (newline_not_mem r')
      (by simpa only [List.append_assoc, List.singleton_append] using h)
    have h3 := flatMap_sep_inj ' ' (fun k => 'D' :: Nat.toDigits 10 k)
      (by
        intro k hk
        rcases List.mem_cons.1 hk with hk | hk
        · exact absurd hk (by decide)
        · exact not_mem_toDigits (by decide) k hk)
      (by intro a b hab; exact toDigits_inj (List.cons.inj hab).2) _ _ (List.append_cancel_left h1)
    have h4 := nonzero_inj ((hm r (by simp)).trans (hm' r' (by simp)).symm) h3
    have h5 := detsFile_inj n m m' (fun x hx => hm x (by simp [hx])) (fun x hx => hm' x (by simp [hx])) h2
    rw [h4, h5]

/-! ### Predictions -/

/-- The text of one shot's predictions. -/
def encodeRow (r : List Bool) : List Char := r.map fun b => if b then '1' else '0'

theorem readRow_append (r : List Bool) (f : List Char) : readRow r.length (encodeRow r ++ f) = .ok (r, f) := by
  induction r with
  | nil => rfl
  | cons b r ih =>
    rw [encodeRow, List.map_cons, List.length_cons, List.cons_append, readRow]
    rw [encodeRow] at ih
    rw [if_pos (by cases b <;> decide), ih]
    cases b <;> rfl

theorem readRow_nil (n : Nat) : readRow n [] = .ok (List.replicate n false, []) := by
  induction n with
  | zero => rfl
  | succ n ih => rw [readRow, ih]; rfl

/-- A row that was read and is followed by more text was spelled out in the file. -/
theorem readRow_ok (n : Nat) (f : List Char) (r : List Bool) (c : Char) (f' : List Char)
    (h : readRow n f = .ok (r, c :: f')) : r.length = n ∧ f = encodeRow r ++ c :: f' := by
  induction n generalizing f r with
  | zero => simp only [readRow, Except.ok.injEq, Prod.mk.injEq] at h; obtain ⟨rfl, rfl⟩ := h; simp [encodeRow]
  | succ n ih =>
    cases f with
    | nil => rw [readRow_nil] at h; simp at h
    | cons d f =>
      rw [readRow] at h
      by_cases hd : d = '0' ∨ d = '1'
      · rw [if_pos hd] at h
        cases hr : readRow n f with
        | error e => rw [hr] at h; simp [bind, Except.bind] at h
        | ok v =>
          obtain ⟨r', g⟩ := v
          rw [hr] at h
          simp only [bind, Except.bind, Except.ok.injEq, Prod.mk.injEq] at h
          obtain ⟨rfl, rfl⟩ := h
          obtain ⟨h1, h2⟩ := ih f r' hr
          refine ⟨by simp [h1], ?_⟩
          rw [h2]
          rcases hd with rfl | rfl <;> rfl
      · rw [if_neg hd] at h; simp at h

end Honeycomb
