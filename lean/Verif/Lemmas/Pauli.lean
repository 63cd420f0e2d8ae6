import Verif.Spec.Pauli
import Mathlib.Data.Fintype.Prod
import Mathlib.Algebra.BigOperators.Ring.List
import Mathlib.Tactic.FinCases
import Mathlib.Tactic.Ring

/-! Symplectic product lemmas. -/

namespace Honeycomb

theorem zmod2_add_self (a : ZMod 2) : a + a = 0 := by revert a; decide
theorem pauli_add_self (a : Pauli) : a + a = 0 := by revert a; decide

theorem anti_comm (a b : Pauli) : anti a b = anti b a := by revert a b; decide
theorem anti_add_left (a b c : Pauli) : anti (a + b) c = anti a c + anti b c := by revert a b c; decide
theorem anti_add_right (a b c : Pauli) : anti a (b + c) = anti a b + anti a c := by revert a b c; decide
@[simp] theorem anti_zero_left (a : Pauli) : anti 0 a = 0 := by revert a; decide
@[simp] theorem anti_zero_right (a : Pauli) : anti a 0 = 0 := by revert a; decide
@[simp] theorem anti_self (a : Pauli) : anti a a = 0 := by revert a; decide

theorem sum_map_add {α : Type} (l : List α) (f g : α → ZMod 2) :
    (l.map fun a => f a + g a).sum = (l.map f).sum + (l.map g).sum := by
  induction l with
  | nil => simp
  | cons a l ih => simp only [List.map_cons, List.sum_cons, ih]; ring

theorem sum_map_zero {α : Type} (l : List α) : (l.map fun _ => (0 : ZMod 2)).sum = 0 := by
  simp

theorem sum_map_congr {α : Type} {l : List α} {f g : α → ZMod 2} (h : ∀ a ∈ l, f a = g a) :
    (l.map f).sum = (l.map g).sum := by rw [List.map_congr_left h]

theorem sum_map_eq_zero {α : Type} {l : List α} {f : α → ZMod 2} (h : ∀ a ∈ l, f a = 0) :
    (l.map f).sum = 0 := by rw [sum_map_congr h, sum_map_zero]

/-- Sum of an indicator over a duplicate free list. -/
theorem sum_ite_eq {α : Type} [DecidableEq α] {l : List α} (hl : l.Nodup) (f : α → ZMod 2) (a : α) :
    (l.map fun q => if q = a then f q else 0).sum = if a ∈ l then f a else 0 := by
  induction l with
  | nil => simp
  | cons b l ih =>
    have := List.nodup_cons.1 hl
    rw [List.map_cons, List.sum_cons, ih this.2]
    by_cases hb : b = a
    · subst hb; simp [this.1]
    · have hb' : ¬ a = b := fun h => hb h.symm
      simp [hb, hb']

/-- A sum over the members of `qs` among `l`. -/
theorem sum_ite_mem {α : Type} [DecidableEq α] {l qs : List α} (hl : l.Nodup) (hq : qs.Nodup)
    (hs : ∀ q ∈ qs, q ∈ l) (f : α → ZMod 2) :
    (l.map fun q => if q ∈ qs then f q else 0).sum = (qs.map f).sum := by
  induction qs with
  | nil => simp
  | cons a qs ih =>
    have hn := List.nodup_cons.1 hq
    have e : (fun q => if q ∈ a :: qs then f q else 0) =
        fun q => (if q = a then f q else 0) + (if q ∈ qs then f q else 0) := by
      funext q
      by_cases h1 : q = a
      · subst h1; simp [hn.1]
      · simp [h1]
    rw [e, sum_map_add, sum_ite_eq hl, ih hn.2 (fun q h => hs q (List.mem_cons_of_mem _ h)),
      if_pos (hs a List.mem_cons_self), List.map_cons, List.sum_cons]

theorem anti_opOn {lay : HoneycombLayout} (hn : lay.data_qubit_coords.Nodup) {b : Basis} {qs : List Pt}
    (hq : qs.Nodup) (hs : ∀ q ∈ qs, q ∈ lay.data_qubit_coords) (B : PauliOp) :
    antiOp lay (opOn b qs) B = (qs.map fun q => anti b.pauli (B q)).sum := by
  rw [antiOp, ← sum_ite_mem hn hq hs]
  apply sum_map_congr
  intro q _
  simp only [opOn]
  split <;> simp

theorem antiOp_comm (lay : HoneycombLayout) (A B : PauliOp) : antiOp lay A B = antiOp lay B A :=
  sum_map_congr fun _ _ => anti_comm _ _

/-- `P_{c+1} P_{c+2} = P_c` up to sign. -/
theorem pauli_mul_next (c : Int) :
    (Basis.ofIdx (c + 1)).pauli + (Basis.ofIdx (c + 2)).pauli = (Basis.ofIdx c).pauli := by
  have h : c % 3 = 0 ∨ c % 3 = 1 ∨ c % 3 = 2 := by omega
  have e1 : (c + 1) % 3 = (c % 3 + 1) % 3 := by omega
  have e2 : (c + 2) % 3 = (c % 3 + 2) % 3 := by omega
  simp only [Basis.ofIdx, e1, e2]
  rcases h with h | h | h <;> rw [h] <;> decide

theorem ofIdx_congr {k k' : Int} (h : k % 3 = k' % 3) : Basis.ofIdx k = Basis.ofIdx k' := by
  simp only [Basis.ofIdx, h]

theorem ofIdx_emod (k : Int) : Basis.ofIdx (k % 3) = Basis.ofIdx k := ofIdx_congr (by omega)

theorem ofIdx_index (b : Basis) : Basis.ofIdx b.index = b := by cases b <;> decide

theorem index_ofIdx (k : Int) : (Basis.ofIdx k).index = k % 3 := by
  have h : k % 3 = 0 ∨ k % 3 = 1 ∨ k % 3 = 2 := by omega
  simp only [Basis.ofIdx]
  rcases h with h | h | h <;> rw [h] <;> decide

end Honeycomb
