import Mathlib.Algebra.Order.Ring.Rat
import Mathlib.Tactic.Linarith
import Mathlib.Tactic.Ring
import Verif.Spec.Dem

/-!
# The probability of an odd number of events
-/

namespace Honeycomb

theorem sum_sets_prod (n : Nat) (f g : Fin n → Rat) :
    ∑ s : Finset (Fin n), ∏ i, (if i ∈ s then f i else g i) = ∏ i, (f i + g i) := by
  rw [Finset.prod_add, Finset.powerset_univ]
  refine Finset.sum_congr rfl fun s _ => ?_
  rw [← Finset.prod_filter_mul_prod_filter_not Finset.univ (fun i => i ∈ s)]
  congr 1
  · rw [Finset.filter_mem_eq_inter, Finset.univ_inter]
    exact Finset.prod_congr rfl fun i hi => by simp [hi]
  · apply Finset.prod_congr
    · ext i; simp
    · intro i hi
      have : i ∉ s := by simpa using hi
      simp [this]

/-- Closed form. -/
theorem probOdd_eq (ps : List Rat) : probOdd ps = (1 - ∏ i : Fin ps.length, (1 - 2 * ps[i])) / 2 := by
  have h1 := sum_sets_prod ps.length (fun i => ps[i]) (fun i => 1 - ps[i])
  have h2 := sum_sets_prod ps.length (fun i => -ps[i]) (fun i => 1 - ps[i])
  have e1 : ∏ i : Fin ps.length, (ps[i] + (1 - ps[i])) = 1 := Finset.prod_eq_one fun i _ => by ring
  have e2 : ∏ i : Fin ps.length, (-ps[i] + (1 - ps[i])) = ∏ i : Fin ps.length, (1 - 2 * ps[i]) :=
    Finset.prod_congr rfl fun i _ => by ring
  rw [e1] at h1
  rw [e2] at h2
  have e3 : ∀ s : Finset (Fin ps.length), ∏ i, (if i ∈ s then -ps[i] else 1 - ps[i])
      = (-1) ^ s.card * ∏ i, (if i ∈ s then ps[i] else 1 - ps[i]) := by
    intro s
    have : ∏ i : Fin ps.length, (if i ∈ s then (-1 : Rat) else 1) = (-1) ^ s.card := by
      rw [Finset.prod_ite_mem]
      simp
    rw [← this, ← Finset.prod_mul_distrib]
    exact Finset.prod_congr rfl fun i _ => by split_ifs <;> ring
  simp only [e3] at h2
  have e4 : probOdd ps * 2 = 1 - ∏ i : Fin ps.length, (1 - 2 * ps[i]) := by
    have e5 : (1 : Rat) - ∏ i : Fin ps.length, (1 - 2 * ps[i]) =
        (∑ s : Finset (Fin ps.length), ∏ i, if i ∈ s then ps[i] else 1 - ps[i]) -
          ∑ s : Finset (Fin ps.length), (-1) ^ s.card * ∏ i, if i ∈ s then ps[i] else 1 - ps[i] := by rw [h1, h2]
    rw [e5, ← Finset.sum_sub_distrib, probOdd, Finset.sum_filter, Finset.sum_mul]
    refine Finset.sum_congr rfl fun s _ => ?_
    split_ifs with h
    · rw [h.neg_one_pow]; ring
    · rw [(Nat.not_odd_iff_even.1 h).neg_one_pow]; ring
  linarith

theorem probOdd_nil : probOdd [] = 0 := by
  rw [probOdd_eq]
  simp

theorem probOdd_cons (p : Rat) (ps : List Rat) :
    probOdd (p :: ps) = p * (1 - probOdd ps) + probOdd ps * (1 - p) := by
  have e : ∏ i : Fin (p :: ps).length, (1 - 2 * (p :: ps)[i]) = (1 - 2 * p) * ∏ i : Fin ps.length, (1 - 2 * ps[i]) := by
    exact Fin.prod_univ_succ (n := ps.length) fun i => 1 - 2 * (p :: ps)[i]
  rw [probOdd_eq, probOdd_eq, e]
  ring

theorem probOdd_single (p : Rat) : probOdd [p] = p := by
  rw [probOdd_cons, probOdd_nil]; ring

theorem probOdd_bounds (ps : List Rat) (h : ∀ p ∈ ps, 0 < p ∧ p < 1) :
    0 ≤ probOdd ps ∧ probOdd ps < 1 ∧ (ps ≠ [] → 0 < probOdd ps) := by
  induction ps with
  | nil => simp [probOdd_nil]
  | cons p ps ih =>
    obtain ⟨h1, h2⟩ := h p (by simp)
    obtain ⟨h3, h4, -⟩ := ih fun q hq => h q (by simp [hq])
    rw [probOdd_cons]
    have a1 : 0 < p * (1 - probOdd ps) := mul_pos h1 (by linarith)
    have a2 : 0 ≤ probOdd ps * (1 - p) := mul_nonneg h3 (by linarith)
    have a3 : 0 < (1 - p) * (1 - probOdd ps) := mul_pos (by linarith) (by linarith)
    have a4 : 0 ≤ p * probOdd ps := mul_nonneg h1.le h3
    have a5 : (1 - p) * (1 - probOdd ps) + p * probOdd ps = 1 - (p * (1 - probOdd ps) + probOdd ps * (1 - p)) := by ring
    exact ⟨by linarith, by linarith, fun _ => by linarith⟩

end Honeycomb
