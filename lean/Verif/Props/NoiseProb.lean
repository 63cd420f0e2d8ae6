import Verif.Model.NoiseProb
import Mathlib.Data.ZMod.Basic
import Mathlib.Algebra.BigOperators.Ring.Finset
import Mathlib.Algebra.BigOperators.Pi
import Mathlib.Data.Fintype.BigOperators
import Mathlib.Tactic.Linarith
import Mathlib.Tactic.FieldSimp
import Mathlib.Tactic.Ring
import Mathlib.Tactic.LinearCombination

/-!
# C31: the correlated noise has the documented distribution

An error on `n` independent components is a vector in `(Z/2)^n` (which components are applied); combined
errors add up. (For the parity measurement `n = 5`: two bits per Pauli and the flip.)
-/

namespace Honeycomb
open Finset

/-- The probability that the combined error is `w` when each non-identity error is applied independently with
probability `q`. -/
noncomputable def combinedProb (n : ℕ) (q : ℝ) (w : Fin n → ZMod 2) : ℝ :=
  ∑ S ∈ (univ.filter fun v : Fin n → ZMod 2 => v ≠ 0).powerset,
    if ∑ v ∈ S, v = w then q ^ #S * (1 - q) ^ (#(univ.filter fun v : Fin n → ZMod 2 => v ≠ 0) - #S) else 0

/-- Sign of a bit. -/
private noncomputable def sgn (a : ZMod 2) : ℝ := if a = 0 then 1 else -1

private theorem sgn_add (a b : ZMod 2) : sgn (a + b) = sgn a * sgn b := by
  have : ∀ a : ZMod 2, a = 0 ∨ a = 1 := by decide
  have h1 : (1 : ZMod 2) ≠ 0 := by decide
  have h2 : (1 + 1 : ZMod 2) = 0 := by decide
  rcases this a with rfl | rfl <;> rcases this b with rfl | rfl <;> simp [sgn, h1, h2]

private theorem sgn_zero : sgn 0 = 1 := by simp [sgn]

private noncomputable def chi {n : ℕ} (u v : Fin n → ZMod 2) : ℝ := sgn (∑ i, u i * v i)

private theorem chi_add {n : ℕ} (u v w : Fin n → ZMod 2) : chi u (v + w) = chi u v * chi u w := by
  unfold chi
  rw [← sgn_add, ← sum_add_distrib]
  congr 1
  exact sum_congr rfl fun i _ => by rw [Pi.add_apply]; ring

private theorem chi_comm {n : ℕ} (u v : Fin n → ZMod 2) : chi u v = chi v u := by
  unfold chi
  congr 1
  exact sum_congr rfl fun i _ => mul_comm _ _

private theorem chi_zero {n : ℕ} (u : Fin n → ZMod 2) : chi u 0 = 1 := by simp [chi, sgn_zero]

private theorem chi_sum {n : ℕ} (u : Fin n → ZMod 2) (S : Finset (Fin n → ZMod 2)) :
    chi u (∑ v ∈ S, v) = ∏ v ∈ S, chi u v := by
  classical
  induction S using Finset.induction_on with
  | empty => simp [chi_zero]
  | insert a S ha ih => rw [sum_insert ha, prod_insert ha, chi_add, ih]

private theorem sum_chi {n : ℕ} (w : Fin n → ZMod 2) (hw : w ≠ 0) : ∑ u, chi u w = 0 := by
  classical
  obtain ⟨i, hi⟩ := Function.ne_iff.1 hw
  have hi1 : w i = 1 := by
    have : ∀ a : ZMod 2, a ≠ 0 → a = 1 := by decide
    exact this _ hi
  have hflip : ∀ u, chi (u + Pi.single i 1) w = - chi u w := by
    intro u
    rw [chi_comm, chi_add, chi_comm w u]
    have : chi w (Pi.single i 1) = -1 := by
      unfold chi
      have : ∑ j, w j * (Pi.single i 1 : Fin n → ZMod 2) j = 1 := by
        rw [sum_eq_single i]
        · simp [hi1]
        · intro j _ hj; simp [hj]
        · simp
      rw [this]
      simp [sgn]
    rw [this]
    ring
  have h := Equiv.sum_comp (Equiv.addRight (Pi.single i (1 : ZMod 2) : Fin n → ZMod 2)) (fun u => chi u w)
  simp only [Equiv.coe_addRight, hflip, sum_neg_distrib] at h
  linarith only [h]

private theorem chi_cases {n : ℕ} (u v : Fin n → ZMod 2) : chi u v = 1 ∨ chi u v = -1 := by
  unfold chi sgn
  split_ifs
  · exact Or.inl rfl
  · exact Or.inr rfl

/-- Half of the errors anticommute with a given non-trivial character. -/
private theorem card_minus {n : ℕ} (u : Fin n → ZMod 2) (hu : u ≠ 0) :
    2 * #(univ.filter fun v => chi u v = -1) = 2 ^ n := by
  have h1 : ∑ v, chi u v = 0 := by
    simp only [chi_comm u]
    exact sum_chi u hu
  have h2 : ∀ v, chi u v = 1 - 2 * (if chi u v = -1 then 1 else 0 : ℝ) := by
    intro v
    rcases chi_cases u v with h | h <;> rw [h] <;> norm_num
  have h3 : ∑ v, chi u v = 2 ^ n - 2 * #(univ.filter fun v => chi u v = -1) := by
    rw [sum_congr rfl fun v _ => h2 v, sum_sub_distrib, ← mul_sum, ← sum_filter]
    simp
  have h4 : (2 * #(univ.filter fun v => chi u v = -1) : ℝ) = 2 ^ n := by linarith
  exact_mod_cast h4

private theorem expectation {n : ℕ} (q : ℝ) (u : Fin n → ZMod 2) :
    ∑ w, chi u w * combinedProb n q w =
      ∏ v ∈ univ.filter (fun v : Fin n → ZMod 2 => v ≠ 0), (q * chi u v + (1 - q)) := by
  rw [prod_add]
  unfold combinedProb
  simp only [mul_sum]
  rw [sum_comm]
  refine sum_congr rfl fun S hS => ?_
  rw [sum_eq_single (∑ v ∈ S, v)]
  · rw [if_pos rfl, chi_sum, prod_mul_distrib, prod_const, prod_const, card_sdiff_of_subset (mem_powerset.1 hS)]
    ring
  · intro w _ hw
    rw [if_neg (Ne.symm hw), mul_zero]
  · simp

private theorem expectation_eq {n : ℕ} (q : ℝ) (u : Fin n → ZMod 2) :
    ∑ w, chi u w * combinedProb n q w = (1 - 2 * q) ^ #(univ.filter fun v => chi u v = -1) := by
  classical
  rw [expectation]
  have h0 : ∏ v ∈ univ.filter (fun v : Fin n → ZMod 2 => v ≠ 0), (q * chi u v + (1 - q)) =
      ∏ v, (q * chi u v + (1 - q)) := by
    refine prod_subset (filter_subset _ _) ?_
    intro v _ hv
    have : v = 0 := by simpa using hv
    subst this
    rw [chi_zero]; ring
  rw [h0, ← prod_filter_mul_prod_filter_not univ (fun v => chi u v = -1)]
  have h1 : ∏ v ∈ univ.filter (fun v => chi u v = -1), (q * chi u v + (1 - q)) =
      (1 - 2 * q) ^ #(univ.filter fun v => chi u v = -1) := by
    rw [prod_congr rfl fun v hv => ?_, prod_const]
    rw [(mem_filter.1 hv).2]; ring
  have h2 : ∏ v ∈ univ.filter (fun v => ¬ chi u v = -1), (q * chi u v + (1 - q)) = 1 := by
    refine prod_eq_one fun v hv => ?_
    rw [(chi_cases u v).resolve_right (mem_filter.1 hv).2]; ring
  rw [h1, h2, mul_one]

private theorem inversion {n : ℕ} (q : ℝ) (w : Fin n → ZMod 2) :
    2 ^ n * combinedProb n q w = ∑ u, chi u w * ∑ w', chi u w' * combinedProb n q w' := by
  have : ∀ u w', chi u w * (chi u w' * combinedProb n q w') = chi u (w + w') * combinedProb n q w' := by
    intro u w'; rw [chi_add]; ring
  simp only [mul_sum, this]
  rw [sum_comm, sum_eq_single w]
  · rw [← sum_mul]
    have hww : w + w = 0 := by
      funext i
      have : ∀ a : ZMod 2, a + a = 0 := by decide
      exact this _
    simp [hww, chi_zero]
  · intro w' _ hw'
    rw [← sum_mul, sum_chi, zero_mul]
    intro h
    apply hw'
    have : w' = w + (w + w') := by
      rw [← add_assoc]
      have hww : w + w = 0 := by
        funext i
        have : ∀ a : ZMod 2, a + a = 0 := by decide
        exact this _
      rw [hww, zero_add]
    rw [this, h, add_zero]
  · simp

/-- C31: applying each non-identity error independently with the returned probability gives exactly: with
probability `p` a uniformly random error (the identity included), otherwise none. -/
theorem c31_distribution (n : ℕ) (hn : 1 ≤ n) (p : ℝ) (_hp0 : 0 ≤ p) (hp1 : p ≤ 1) (w : Fin n → ZMod 2) :
    combinedProb n (mixToIndependent p n) w = if w = 0 then 1 - p + p / 2 ^ n else p / 2 ^ n := by
  set q := mixToIndependent p n with hq
  have hpow : (1 - 2 * q) ^ (2 ^ (n - 1)) = 1 - p := by
    have h1 : 1 - 2 * q = (1 - p) ^ (1 / (2 : ℝ) ^ ((n : ℝ) - 1)) := by
      rw [hq, mixToIndependent]; ring
    have h2 : ((2 : ℝ) ^ ((n : ℝ) - 1)) = ((2 ^ (n - 1) : ℕ) : ℝ) := by
      have : (n : ℝ) - 1 = ((n - 1 : ℕ) : ℝ) := by rw [Nat.cast_sub hn]; simp
      rw [this, Real.rpow_natCast]; push_cast; rfl
    rw [h1, h2, one_div]
    exact Real.rpow_inv_natCast_pow (by linarith) (by positivity)
  have hE : ∀ u : Fin n → ZMod 2, ∑ w', chi u w' * combinedProb n q w' = if u = 0 then 1 else 1 - p := by
    intro u
    rw [expectation_eq]
    split_ifs with hu
    · subst hu
      have : (univ.filter fun v : Fin n → ZMod 2 => chi 0 v = -1) = ∅ := by
        refine filter_eq_empty_iff.2 fun v _ => ?_
        rw [chi_comm, chi_zero]; norm_num
      rw [this]; simp
    · have hc := card_minus u hu
      have : #(univ.filter fun v => chi u v = -1) = 2 ^ (n - 1) := by
        have h2 : 2 ^ n = 2 * 2 ^ (n - 1) := by
          rw [← pow_succ']; congr 1; omega
        omega
      rw [this, hpow]
  have hinv := inversion q w
  simp only [hE] at hinv
  have hsum : ∑ u : Fin n → ZMod 2, chi u w * (if u = 0 then 1 else 1 - p) = p + (1 - p) * ∑ u, chi u w := by
    have : ∀ u : Fin n → ZMod 2, chi u w * (if u = 0 then 1 else 1 - p) =
        (if u = 0 then p else 0) + (1 - p) * chi u w := by
      intro u
      split_ifs with hu
      · subst hu; rw [chi_comm, chi_zero]; ring
      · ring
    rw [sum_congr rfl fun u _ => this u, sum_add_distrib, ← mul_sum]
    simp
  rw [hsum] at hinv
  have h2n : (2 : ℝ) ^ n ≠ 0 := by positivity
  split_ifs with hw
  · subst hw
    have h1 : ∑ u : Fin n → ZMod 2, chi u 0 = 2 ^ n := by simp [chi_zero]
    rw [h1] at hinv
    field_simp
    linarith
  · rw [sum_chi w hw] at hinv
    field_simp
    linarith

/-- C31: the returned value is a probability of at most one half. -/
theorem c31_probability (n : ℕ) (p : ℝ) (hp0 : 0 ≤ p) (hp1 : p ≤ 1) :
    0 ≤ mixToIndependent p n ∧ mixToIndependent p n ≤ 1 / 2 := by
  unfold mixToIndependent
  have h1 : (0 : ℝ) ≤ (1 - p) ^ (1 / (2 : ℝ) ^ ((n : ℝ) - 1)) := Real.rpow_nonneg (by linarith) _
  have h2 : (1 - p) ^ (1 / (2 : ℝ) ^ ((n : ℝ) - 1)) ≤ 1 :=
    Real.rpow_le_one (by linarith) (by linarith) (by positivity)
  constructor <;> linarith

/-- The case used by the parity measurement: 5 bits, mixing probability 1/1000. -/
example : combinedProb 5 (mixToIndependent (1 / 1000) 5) (fun _ => 1) = 1 / 32000 := by
  have := c31_distribution 5 (by norm_num) (1 / 1000) (by norm_num) (by norm_num) (fun _ => 1)
  rw [show ((5 : ℕ) : ℝ) = 5 by norm_num] at this
  rw [this, if_neg]
  · norm_num
  · intro h
    exact absurd (congrFun h 0) (by decide)

end Honeycomb
