import Mathlib.Topology.Order.IntermediateValue
import Mathlib.Topology.MetricSpace.Pseudo.Defs
import Mathlib.Topology.MetricSpace.ProperSpace
import Mathlib.Analysis.SpecificLimits.Basic
import Verif.Model.Probability
import Verif.Spec.Probability

/-! # Lemmas for `binary_search` and `binary_intercept` -/

namespace Honeycomb

open Classical

theorem searchDelta_eq (a b : EReal) : searchDelta a b = gap a b := by
  unfold searchDelta gap
  split_ifs <;> simp

theorem gap_self (a : EReal) : gap a a = 0 := by simp [gap]

theorem gap_of_le_lt {a b t : EReal} (hab : a ≤ b) (hbt : b < t) : gap b t ≤ gap a t := by
  unfold gap
  rw [if_neg hbt.ne, if_neg (hab.trans_lt hbt).ne]
  induction t with
  | bot => exact absurd hbt (by simp)
  | top =>
    induction a with
    | bot => simp
    | top => exact absurd (hab.trans_lt hbt) (by simp)
    | coe a => simp
  | coe t =>
    induction b with
    | bot =>
      have : a = ⊥ := by simpa using hab
      rw [this]
    | top => exact absurd hbt (by simp)
    | coe b =>
      induction a with
      | bot => simp
      | top => exact absurd hab (by simp)
      | coe a =>
        rw [← EReal.coe_sub, ← EReal.coe_sub, EReal.abs_def, EReal.abs_def]
        refine ENNReal.ofReal_le_ofReal ?_
        have h1 : a ≤ b := by exact_mod_cast hab
        have h2 : b < t := by exact_mod_cast hbt
        rw [abs_of_neg (by linarith), abs_of_neg (by linarith)]
        linarith

theorem gap_neg (a b : EReal) : gap (-a) (-b) = gap a b := by
  unfold gap
  by_cases h : a = b
  · simp [h]
  · rw [if_neg h, if_neg (by simpa using h)]
    induction a <;> induction b <;> first | exact absurd rfl h | skip
    all_goals try simp
    · rename_i a b
      rw [← EReal.coe_neg, ← EReal.coe_neg, ← EReal.coe_sub, ← EReal.coe_sub, EReal.abs_def, EReal.abs_def]
      rw [show -a - -b = -(a - b) by ring, abs_neg]

theorem gap_of_ge_gt {a b t : EReal} (hab : b ≤ a) (hbt : t < b) : gap b t ≤ gap a t := by
  rw [← gap_neg b t, ← gap_neg a t]
  exact gap_of_le_lt (EReal.neg_le_neg_iff.2 hab) (EReal.neg_lt_neg_iff.2 hbt)

/-- Invariant of the loop: outside the current bracket nothing is closer than its ends. -/
theorem binarySearch_spec (func : Int → EReal) (target : EReal) (lo hi : Int)
    (hmono : ∀ x y, lo ≤ x → x ≤ y → y ≤ hi → func x ≤ func y) :
    ∀ (n : Nat) (a b : Int), (b - a).toNat = n → lo ≤ a → a ≤ b → b ≤ hi →
      (a = lo ∨ func a < target) → (b = hi ∨ target < func b) →
      a ≤ binarySearch func target a b ∧ binarySearch func target a b ≤ b ∧
        ∀ y, lo ≤ y → y ≤ hi → gap (func (binarySearch func target a b)) target ≤ gap (func y) target := by
  intro n
  induction n using Nat.strong_induction_on with
  | _ n ih =>
    intro a b hn ha hab hb hA hB
    have hlow : ∀ y, lo ≤ y → y ≤ a → gap (func a) target ≤ gap (func y) target := by
      intro y h1 h2
      rcases hA with h | h
      · have : y = a := by omega
        rw [this]
      · exact gap_of_le_lt (hmono y a h1 h2 (by omega)) h
    have hhigh : ∀ y, b ≤ y → y ≤ hi → gap (func b) target ≤ gap (func y) target := by
      intro y h1 h2
      rcases hB with h | h
      · have : y = b := by omega
        rw [this]
      · exact gap_of_ge_gt (hmono b y (by omega) h1 h2) h
    rw [binarySearch]
    by_cases hgt : b > a + 1
    · rw [dif_pos hgt]
      simp only
      by_cases h1 : func ((a + b) / 2) < target
      · rw [if_pos h1]
        obtain ⟨h2, h3, h4⟩ := ih (b - (a + b) / 2).toNat (by omega) ((a + b) / 2) b rfl (by omega) (by omega) hb (.inr h1) hB
        exact ⟨by omega, h3, h4⟩
      · rw [if_neg h1]
        by_cases h1' : func ((a + b) / 2) > target
        · rw [if_pos h1']
          obtain ⟨h2, h3, h4⟩ := ih ((a + b) / 2 - a).toNat (by omega) a ((a + b) / 2) rfl ha (by omega) (by omega) hA (.inr h1')
          exact ⟨h2, by omega, h4⟩
        · rw [if_neg h1']
          have : func ((a + b) / 2) = target := le_antisymm (not_lt.1 h1') (not_lt.1 h1)
          refine ⟨by omega, by omega, fun y _ _ => ?_⟩
          rw [this, gap_self]
          exact zero_le
    · rw [dif_neg hgt]
      simp only [searchDelta_eq]
      have hcov : ∀ y, y ≤ a ∨ b ≤ y := by intro y; omega
      split_ifs with hlt
      · refine ⟨hab, le_refl _, fun y hy1 hy2 => ?_⟩
        rcases hcov y with h | h
        · exact hlt.le.trans (hlow y hy1 h)
        · exact hhigh y h hy2
      · refine ⟨le_refl _, hab, fun y hy1 hy2 => ?_⟩
        rcases hcov y with h | h
        · exact hlow y hy1 h
        · exact (not_lt.1 hlt).trans (hhigh y h hy2)

/-! ## `binary_intercept` -/

theorem interceptExpand_ok {func isinf start_x start_y target_y} : ∀ (fuel : Nat) (step r : ℝ),
    interceptExpand func isinf start_x start_y target_y fuel step = some (.ok r) →
      (∃ k : Nat, r = step * 2 ^ k) ∧ ¬ ((func (start_x + r) ≥ target_y) = (start_y ≥ target_y)) := by
  intro fuel
  induction fuel with
  | zero => intro step r h; simp [interceptExpand] at h
  | succ fuel ih =>
    intro step r h
    rw [interceptExpand] at h
    simp only at h
    split_ifs at h with h1 h2
    · simp at h
    · obtain ⟨⟨k, hk⟩, h3⟩ := ih _ _ h
      exact ⟨⟨k + 1, by rw [hk]; ring⟩, h3⟩
    · simp only [Option.some.injEq, Except.ok.injEq] at h
      subst h
      exact ⟨⟨0, by simp⟩, h1⟩

theorem interceptBisect_ok {func target_y atol increasing} : ∀ (fuel : Nat) (a b x : ℝ), a < b →
    interceptBisect func target_y atol increasing fuel a b = some (.ok x) → |func x - target_y| ≤ atol ∧ a < x ∧ x < b := by
  intro fuel
  induction fuel with
  | zero => intro a b x _ h; simp [interceptBisect] at h
  | succ fuel ih =>
    intro a b x hab h
    rw [interceptBisect] at h
    split_ifs at h with h1 h2 h3
    · simp only [Option.some.injEq, Except.ok.injEq] at h
      subst h
      exact ⟨h1, by linarith, by linarith⟩
    · simp at h
    · obtain ⟨h4, h5, h6⟩ := ih _ _ _ (by linarith) h
      exact ⟨h4, by linarith, h6⟩
    · obtain ⟨h4, h5, h6⟩ := ih _ _ _ (by linarith) h
      exact ⟨h4, h5, by linarith⟩

theorem interceptBisect_no_error {func target_y atol increasing} : ∀ (fuel : Nat) (a b : ℝ) (e : PyErr), a < b →
    interceptBisect func target_y atol increasing fuel a b ≠ some (.error e) := by
  intro fuel
  induction fuel with
  | zero => intro a b e _ h; simp [interceptBisect] at h
  | succ fuel ih =>
    intro a b e hab h
    rw [interceptBisect] at h
    split_ifs at h with h1 h2 h3
    · simp at h
    · rcases h2 with h2 | h2 <;> linarith
    · exact ih _ _ _ (by linarith) h
    · exact ih _ _ _ (by linarith) h

theorem interceptExpand_mono {func isinf start_x start_y target_y} : ∀ (fuel fuel' : Nat) (step : ℝ) r, fuel ≤ fuel' →
    interceptExpand func isinf start_x start_y target_y fuel step = some r →
      interceptExpand func isinf start_x start_y target_y fuel' step = some r := by
  intro fuel
  induction fuel with
  | zero => intro _ step r _ h; simp [interceptExpand] at h
  | succ fuel ih =>
    intro fuel' step r hle h
    obtain ⟨f, rfl⟩ : ∃ f, fuel' = f + 1 := ⟨fuel' - 1, by omega⟩
    rw [interceptExpand] at h ⊢
    simp only at h ⊢
    split_ifs at h ⊢ with h1 h2
    · exact h
    · exact ih _ _ _ (by omega) h
    · exact h

theorem interceptBisect_mono {func target_y atol increasing} : ∀ (fuel fuel' : Nat) (a b : ℝ) r, fuel ≤ fuel' →
    interceptBisect func target_y atol increasing fuel a b = some r →
      interceptBisect func target_y atol increasing fuel' a b = some r := by
  intro fuel
  induction fuel with
  | zero => intro _ a b r _ h; simp [interceptBisect] at h
  | succ fuel ih =>
    intro fuel' a b r hle h
    obtain ⟨f, rfl⟩ : ∃ f, fuel' = f + 1 := ⟨fuel' - 1, by omega⟩
    rw [interceptBisect] at h ⊢
    split_ifs at h ⊢ with h1 h2 h3
    · exact h
    · exact h
    · exact ih _ _ _ _ (by omega) h
    · exact ih _ _ _ _ (by omega) h

/-- The doubling loop finds a crossing if there is one and no overflow happens before it. -/
theorem interceptExpand_total {func isinf start_x start_y target_y} : ∀ (k : Nat) (step : ℝ), step ≠ 0 →
    (∀ j, j ≤ k → ¬ isinf (step * 2 ^ j)) →
    ¬ ((func (start_x + step * 2 ^ k) ≥ target_y) = (start_y ≥ target_y)) →
      ∃ r, interceptExpand func isinf start_x start_y target_y (k + 1) step = some (.ok r) := by
  intro k
  induction k with
  | zero =>
    intro step _ _ h
    rw [interceptExpand, if_neg (by simpa using h)]
    exact ⟨_, rfl⟩
  | succ k ih =>
    intro step h0 hinf h
    rw [interceptExpand]
    by_cases h1 : (func (start_x + step) ≥ target_y) = (start_y ≥ target_y)
    · rw [if_pos h1]
      simp only
      rw [if_neg (by
        rintro (h2 | h2)
        · exact hinf 1 (by omega) (by simpa using h2)
        · exact h0 (by linarith))]
      refine ih (step * 2) (by simpa using h0) (fun j hj => ?_) ?_
      · have := hinf (j + 1) (by omega)
        rwa [pow_succ', ← mul_assoc] at this
      · rwa [pow_succ', ← mul_assoc] at h
    · rw [if_neg h1]
      exact ⟨_, rfl⟩

/-- If the ends are separated by the target then bisection keeps them separated, and stops by continuity. -/
theorem interceptBisect_total {func : ℝ → ℝ} {target_y atol : ℝ} {increasing : Prop} (δ : ℝ) (hδ : 0 < δ) (lo hi : ℝ)
    (hfc : ContinuousOn func (Set.Icc lo hi))
    (huc : ∀ x ∈ Set.Icc lo hi, ∀ y ∈ Set.Icc lo hi, |x - y| < δ → |func x - func y| ≤ atol) :
    ∀ (n : Nat) (a b : ℝ), lo ≤ a → a < b → b ≤ hi → b - a < δ * 2 ^ n →
      ((func a < target_y) = increasing) → ((func b < target_y) ≠ increasing) →
      ∃ x, interceptBisect func target_y atol increasing (n + 1) a b = some (.ok x) := by
  intro n
  induction n with
  | zero =>
    intro a b h1 hab h2 hw hA hB
    have hmid : (a + b) / 2 ∈ Set.Icc a b := ⟨by linarith, by linarith⟩
    have hsub : Set.Icc a b ⊆ Set.Icc lo hi := Set.Icc_subset_Icc h1 h2
    obtain ⟨c, hc, hct⟩ : ∃ c ∈ Set.Icc a b, func c = target_y := by
      by_cases hi' : increasing
      · have e1 : func a < target_y := by rw [hA]; exact hi'
        have e2 : target_y ≤ func b := by
          by_contra hcon
          exact hB (propext ⟨fun _ => hi', fun _ => not_le.1 hcon⟩)
        exact intermediate_value_Icc hab.le (hfc.mono hsub) ⟨e1.le, e2⟩
      · have e1 : target_y ≤ func a := not_lt.1 (by rw [hA]; exact hi')
        have e2 : func b ≤ target_y := by
          by_contra hcon
          exact hB (propext ⟨fun h => absurd h (not_lt.2 (not_le.1 hcon).le), fun h => absurd h hi'⟩)
        exact intermediate_value_Icc' hab.le (hfc.mono hsub) ⟨e2, e1⟩
    have : |func ((a + b) / 2) - target_y| ≤ atol := by
      rw [← hct]
      refine huc _ (hsub hmid) _ (hsub hc) ?_
      rw [abs_lt]
      have := hc.1; have := hc.2
      simp at hw
      constructor <;> linarith
    rw [interceptBisect]
    rw [if_pos this]
    exact ⟨_, rfl⟩
  | succ n ih =>
    intro a b h1 hab h2 hw hA hB
    rw [interceptBisect]
    by_cases h3 : |func ((a + b) / 2) - target_y| ≤ atol
    · rw [if_pos h3]; exact ⟨_, rfl⟩
    · rw [if_neg h3, if_neg (by rintro (h | h) <;> linarith)]
      have hw' : b - a < 2 * (δ * 2 ^ n) := by rw [pow_succ] at hw; linarith
      by_cases h4 : (func ((a + b) / 2) < target_y) = increasing
      · rw [if_pos h4]
        exact ih _ _ (by linarith) (by linarith) h2 (by linarith) h4 hB
      · rw [if_neg h4]
        exact ih _ _ h1 (by linarith) (by linarith) (by linarith) hA h4

end Honeycomb
