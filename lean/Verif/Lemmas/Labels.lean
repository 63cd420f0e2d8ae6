import Verif.Model.Labels
import Verif.Lemmas.Csv

/-!
Lemmas about texts: where a text splits, and that the texts for numbers, points and edges can be read back.
-/

namespace Honeycomb

/-- A text splits in one way at the first character of some kind. -/
theorem split_first (p : Char → Prop) {x x' y y' : Text} {c c' : Char} (hx : ∀ a ∈ x, ¬p a) (hx' : ∀ a ∈ x', ¬p a)
    (hc : p c) (hc' : p c') (h : x ++ c :: y = x' ++ c' :: y') : x = x' ∧ c = c' ∧ y = y' := by
  induction x generalizing x' with
  | nil =>
    cases x' with
    | nil => simpa using h
    | cons a x' =>
      simp only [List.nil_append, List.cons_append, List.cons.injEq] at h
      exact absurd (h.1 ▸ hc) (hx' a (by simp))
  | cons a x ih =>
    cases x' with
    | nil =>
      simp only [List.nil_append, List.cons_append, List.cons.injEq] at h
      exact absurd (h.1.symm ▸ hc') (hx a (by simp))
    | cons a' x' =>
      simp only [List.cons_append, List.cons.injEq] at h
      obtain ⟨h1, h2, h3⟩ := ih (x' := x') (fun a ha => hx a (by simp [ha])) (fun a ha => hx' a (by simp [ha])) h.2
      exact ⟨by rw [h.1, h1], h2, h3⟩

/-- A text splits in one way at the last occurrence of a character. -/
theorem split_last {x x' y y' : Text} {c : Char} (hy : c ∉ y) (hy' : c ∉ y') (h : x ++ c :: y = x' ++ c :: y') :
    x = x' ∧ y = y' := by
  have h' := congrArg List.reverse h
  simp only [List.reverse_append, List.reverse_cons, List.append_assoc, List.singleton_append] at h'
  obtain ⟨h1, _, h2⟩ := split_first (· = c) (by intro a ha he; subst he; exact hy (List.mem_reverse.mp ha))
    (by intro a ha he; subst he; exact hy' (List.mem_reverse.mp ha)) rfl rfl h'
  exact ⟨List.reverse_injective h2, List.reverse_injective h1⟩

theorem intStr_injective {m n : Int} (h : intStr m = intStr n) : m = n := by
  have := congrArg parseInt h
  rwa [parseInt_intStr, parseInt_intStr, Option.some_inj] at this

theorem toDigits_injective {m n : Nat} (h : Nat.toDigits 10 m = Nat.toDigits 10 n) : m = n := by
  have := congrArg parseNat h
  rwa [parseNat_digits, parseNat_digits, Option.some_inj] at this

theorem not_mem_intStr {c : Char} (h : c ≠ '-') (hd : c.isDigit = false) (n : Int) : c ∉ intStr n := by
  intro hc
  rcases intStr_digits n c hc with h' | h'
  · exact h h'
  · rw [hd] at h'
    exact Bool.noConfusion h'

/-- The characters of a number without sign. -/
def NumChar (c : Char) : Prop := c.isDigit = true ∨ c = '.'

theorem halfDigits_chars (n : Nat) : ∀ c ∈ halfDigits n, NumChar c := by
  intro c hc
  unfold halfDigits at hc
  rcases List.mem_append.mp hc with hc | hc
  · exact Or.inl (toDigits_digit _ c hc)
  · split at hc
    · have : c = '.' ∨ c = '5' := by simpa using hc
      rcases this with rfl | rfl
      · exact Or.inr rfl
      · exact Or.inl (by decide)
    · cases hc

theorem halfDigits_injective {m n : Nat} (h : halfDigits m = halfDigits n) : m = n := by
  have hdot : ∀ k, ∀ a ∈ Nat.toDigits 10 k, ¬a = '.' := by
    intro k a ha he
    subst he
    have := toDigits_digit k _ ha
    revert this
    decide
  have key : ∀ {k k' : Nat} {s : Text}, Nat.toDigits 10 k = Nat.toDigits 10 k' ++ '.' :: s → False := by
    intro k k' s hk
    exact hdot k '.' (by rw [hk]; simp) rfl
  unfold halfDigits at h
  split at h <;> split at h
  · have := toDigits_injective (List.append_cancel_right h)
    omega
  · rw [List.append_nil] at h
    exact (key h.symm).elim
  · rw [List.append_nil] at h
    exact (key h).elim
  · simp only [List.append_nil] at h
    have := toDigits_injective h
    omega

theorem halfSigned_injective {m n : Int} (h : halfSigned [] m = halfSigned [] n) : m = n := by
  have key : ∀ {k l : Nat}, '-' :: halfDigits k = halfDigits l → False := by
    intro k l hk
    rcases halfDigits_chars l '-' (by rw [← hk]; simp) with h | h <;> revert h <;> decide
  unfold halfSigned at h
  split at h <;> split at h
  · have := halfDigits_injective (List.append_cancel_left h)
    omega
  · exact (key h).elim
  · exact (key h.symm).elim
  · have := halfDigits_injective (List.append_cancel_left h)
    omega

/-- The characters of a number with sign. -/
theorem halfSigned_chars (n : Int) : ∀ c ∈ halfSigned [] n, NumChar c ∨ c = '-' := by
  intro c hc
  unfold halfSigned at hc
  rcases List.mem_append.mp hc with hc | hc
  · split at hc
    · exact Or.inr (by simpa using hc)
    · cases hc
  · exact Or.inl (halfDigits_chars _ c hc)

/-- The second number of a point: its sign and its digits. -/
theorem halfSigned_plus (n : Int) : halfSigned ['+'] n = (if n < 0 then '-' else '+') :: halfDigits n.natAbs := by
  unfold halfSigned
  split <;> rfl

theorem Pt.repr_injective {z w : Pt} (h : z.repr = w.repr) : z = w := by
  have hpar : ∀ n : Int, '(' ∉ halfSigned [] n := by
    intro n hn
    rcases halfSigned_chars n _ hn with (h | h) | h <;> revert h <;> decide
  have mixed : ∀ {n : Int} {s : Text}, halfSigned [] n ++ ['j'] = '(' :: s → False := by
    intro n s hs
    have : '(' ∈ halfSigned [] n ++ ['j'] := by rw [hs]; simp
    rcases List.mem_append.mp this with h | h
    · exact hpar n h
    · revert h
      decide
  unfold Pt.repr at h
  split at h <;> split at h
  · next h1 h2 =>
    have := halfSigned_injective (List.append_cancel_right h)
    exact Pt.ext (by rw [h1, h2]) this
  · exact (mixed h).elim
  · exact (mixed h.symm).elim
  · rw [List.cons.injEq, halfSigned_plus, halfSigned_plus] at h
    have h := h.2
    simp only [List.cons_append] at h
    -- the first sign
    have hnum : ∀ n : Nat, ∀ a ∈ halfDigits n, ¬(a = '+' ∨ a = '-') := by
      intro n a ha he
      rcases halfDigits_chars n a ha with h | h <;> rcases he with he | he <;> subst he <;> revert h <;> decide
    have hsign : ∀ n : Int, (if n < 0 then '-' else '+') = '+' ∨ (if n < 0 then '-' else '+') = '-' := by
      intro n
      split
      · exact Or.inr rfl
      · exact Or.inl rfl
    have hne : ∀ n : Nat, ∃ a l, halfDigits n = a :: l := by
      intro n
      have : Nat.toDigits 10 (n / 2) ≠ [] := Nat.toDigits_ne_nil
      unfold halfDigits
      cases hd : Nat.toDigits 10 (n / 2) with
      | nil => exact absurd hd this
      | cons a l => exact ⟨a, _, rfl⟩
    have first : ∀ {m n : Nat} {s t : Text}, '-' :: (halfDigits m ++ s) = halfDigits n ++ t → False := by
      intro m n s t hh
      obtain ⟨a, l, ha⟩ := hne n
      rw [ha, List.cons_append, List.cons.injEq] at hh
      exact hnum n a (by rw [ha]; simp) (Or.inr hh.1.symm)
    have tail : ∀ {m n m' n' : Int}, halfDigits m.natAbs ++ (if n < 0 then '-' else '+') :: (halfDigits n.natAbs ++ "j)".toList) =
        halfDigits m'.natAbs ++ (if n' < 0 then '-' else '+') :: (halfDigits n'.natAbs ++ "j)".toList) →
        m.natAbs = m'.natAbs ∧ n = n' := by
      intro m n m' n' hh
      obtain ⟨h1, h2, h3⟩ := split_first (fun a => a = '+' ∨ a = '-') (hnum _) (hnum _) (hsign _) (hsign _) hh
      have h4 := halfDigits_injective h1
      have h5 := halfDigits_injective (List.append_cancel_right h3)
      refine ⟨h4, ?_⟩
      split at h2 <;> split at h2
      · omega
      · exact absurd h2 (by decide)
      · exact absurd h2 (by decide)
      · omega
    unfold halfSigned at h
    by_cases hz : z.x < 0 <;> by_cases hw : w.x < 0
    · rw [if_pos hz, if_pos hw] at h
      simp only [List.cons_append, List.nil_append, List.cons.injEq, true_and] at h
      obtain ⟨h1, h2⟩ := tail h
      exact Pt.ext (by omega) h2
    · rw [if_pos hz, if_neg hw] at h
      exact (first h).elim
    · rw [if_neg hz, if_pos hw] at h
      exact (first h.symm).elim
    · rw [if_neg hz, if_neg hw] at h
      simp only [List.nil_append] at h
      obtain ⟨h1, h2⟩ := tail h
      exact Pt.ext (by omega) h2

theorem Pt.repr_no_comma (z : Pt) : ',' ∉ z.repr := by
  have hs : ∀ n : Int, ',' ∉ halfSigned [] n := by
    intro n hn
    rcases halfSigned_chars n _ hn with (h | h) | h <;> revert h <;> decide
  have hd : ∀ n : Nat, ',' ∉ halfDigits n := by
    intro n hn
    rcases halfDigits_chars n _ hn with h | h <;> revert h <;> decide
  unfold Pt.repr
  split
  · simp [hs]
  · rw [halfSigned_plus]
    have : ',' ≠ (if z.y < 0 then '-' else '+') := by split <;> decide
    simp [hs, hd, this]

end Honeycomb
