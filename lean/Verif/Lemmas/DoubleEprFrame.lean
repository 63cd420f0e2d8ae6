import Verif.Lemmas.DoubleEprRun
import Verif.Spec.DoubleEpr
import Verif.Props.Layout

/-! Pauli frames of the double EPR circuit. -/

namespace Honeycomb

theorem flips_mul (F : Frame) (q : Nat) (r : ZMod 2) (b : Basis) (Q : List (Basis × Nat)) :
    (F.mul q (r * b.pauli.1, r * b.pauli.2)).flips Q = F.flips Q + r * (Q.map fun y => if q = y.2 then anti b.pauli y.1.pauli else 0).sum := by
  induction Q with
  | nil => simp [Frame.flips]
  | cons y Q ih =>
    have key : ∀ (a : Pauli) (c : Basis), anti (a + (r * b.pauli.1, r * b.pauli.2)) c.pauli = anti a c.pauli + r * anti b.pauli c.pauli := by
      intro a c
      rw [anti_add_left]
      congr 1
      exact HoneycombLayout.anti_smul_left r b.pauli c.pauli
    simp only [Frame.flips, List.map_cons, List.sum_cons] at ih ⊢
    rw [ih]
    by_cases h : q = y.2
    · subst h
      rw [show (F.mul y.2 (r * b.pauli.1, r * b.pauli.2)) y.2 = F y.2 + (r * b.pauli.1, r * b.pauli.2) by simp [Frame.mul], key, if_pos rfl]
      ring
    · rw [show (F.mul q (r * b.pauli.1, r * b.pauli.2)) y.2 = F y.2 by simp [Frame.mul, Ne.symm h], if_neg h]
      ring

/-- Multiplying a product onto the frame. -/
theorem flips_kick (F : Frame) (r : ZMod 2) (P Q : List (Basis × Nat)) : (F.kick r P).flips Q = F.flips Q + r * crossing P Q := by
  induction P generalizing F with
  | nil => simp [Frame.kick, crossing]
  | cons x P ih =>
    have h : F.kick r (x :: P) = (F.mul x.2 (r * x.1.pauli.1, r * x.1.pauli.2)).kick r P := rfl
    rw [h, ih, flips_mul]
    simp only [crossing, List.map_cons, List.sum_cons]
    ring

/-- Measuring products that commute with each other and with `Q`. -/
theorem runs_products {ι : Type} {P : ι → List (Basis × Nat)} {ids : List ι} {S : ι → Prop} (hS : ∀ i ∈ ids, S i)
    (hc : ∀ i j, S i → S j → crossing (P i) (P j) = 0) {F F' : Frame} {rec : List (ZMod 2)} (h : Runs F (ids.map fun i => .measure (P i)) rec F') :
    rec = ids.map (fun i => F.flips (P i)) ∧ ∀ i, S i → F'.flips (P i) = F.flips (P i) := by
  induction ids generalizing F rec with
  | nil => obtain ⟨rfl, rfl⟩ := runs_nil h; simp
  | cons j ids ih =>
    cases h with
    | measure _ r h =>
      obtain ⟨e1, e2⟩ := ih (fun i hi => hS i (by simp [hi])) h
      have hk : ∀ i, S i → (F.kick r (P j)).flips (P i) = F.flips (P i) := by
        intro i hi
        rw [flips_kick, hc j i (hS j (by simp)) hi, mul_zero, add_zero]
      refine ⟨?_, fun i hi => (e2 i hi).trans (hk i hi)⟩
      rw [e1, List.map_cons]
      congr 1
      exact List.map_congr_left fun i hi => hk i (hS i (by simp [hi]))

namespace HoneycombLayout
variable {lay : HoneycombLayout}

/-- The product of ancilla and logical observable `i` before sub-round `k`. -/
def eprProduct (lay : HoneycombLayout) (k : Int) (i : Nat) : List (Basis × Nat) :=
  lay.eprAncilla i :: (lay.eprLogical k i).2.map fun q => ((lay.eprLogical k i).1, lay.idx q)

theorem mppGroups_chain (a : Basis) (n : Nat) (b : Basis) (qs : List Nat) :
    mppGroups (.pauli a n :: qs.flatMap fun q => [.comb, .pauli b q]) = [(a, n) :: qs.map fun q => (b, q)] := by
  induction qs generalizing a n with
  | nil => rfl
  | cons q qs ih =>
    simp only [List.flatMap_cons, List.cons_append, List.nil_append, mppGroups]
    rw [ih b q]
    rfl

theorem eprParity_measures (k : Int) (i : Nat) : measured (lay.eprParity k i) = [lay.eprProduct k i] := by
  have h := mppGroups_chain (lay.eprAncilla i).1 (lay.eprAncilla i).2 (lay.eprLogical k i).1 ((lay.eprLogical k i).2.map lay.idx)
  rw [List.flatMap_map, List.map_map] at h
  rw [measured, eprParity]
  simp only [List.flatMap_cons, List.flatMap_nil, List.append_nil, Instr.measures, Instr.observable]
  exact h

theorem actions_eprParity (k : Int) (i : Nat) : actions (lay.eprParity k i) = [.measure (lay.eprProduct k i)] := by
  have h := eprParity_measures (lay := lay) k i
  rw [measured, eprParity] at h
  rw [actions, eprParity]
  simp only [List.flatMap_cons, List.flatMap_nil, List.append_nil, Instr.actions, Instr.observable] at h ⊢
  rw [show Instr.measures { gate := .OBSERVABLE_INCLUDE, targets := List.map Target.record [-1], args := [Arg.lit i] } = [] from rfl, List.append_nil] at h
  rw [h]
  rfl

theorem actions_parities (k : Int) (ids : List Nat) :
    actions (lay.measureObsAncParities k ids) = ids.map fun i => .measure (lay.eprProduct k i) := by
  induction ids with
  | nil => rfl
  | cons i ids ih =>
    have h : lay.measureObsAncParities k (i :: ids) = lay.eprParity k i ++ lay.measureObsAncParities k ids := rfl
    rw [h, actions_append, ih, actions_eprParity]
    rfl

theorem eprLogical_nodup (k : Int) (i : Nat) : (lay.eprLogical k i).2.Nodup := by
  rw [eprLogical]
  split_ifs
  all_goals first | exact nodup_obs_h lay _ | exact nodup_obs_v lay _

theorem eprLogical_data {k : Int} {i : Nat} {q : Pt} (h : q ∈ (lay.eprLogical k i).2) : q ∈ lay.data_qubit_coords := by
  rw [eprLogical] at h
  split_ifs at h
  all_goals first | exact obs_h_data h | exact obs_v_data h

theorem eprLogical_commute (hv : lay.Valid) (k : Int) {i j : Nat} (hi : i < 4) (hj : j < 4) :
    antiOp lay (obsOp (lay.eprLogical k i)) (obsOp (lay.eprLogical k j)) =
      if (lay.eprAncilla i).2 = (lay.eprAncilla j).2 then anti (lay.eprAncilla i).1.pauli (lay.eprAncilla j).1.pauli else 0 := by
  obtain ⟨c1, c2, c3, c4, c5, c6, _⟩ := c11_logical_qubits lay hv k
  simp only [Anticommute', Commute'] at c1 c2 c3 c4 c5 c6
  have hself : ∀ A : PauliOp, antiOp lay A A = 0 := fun A => sum_map_eq_zero fun q _ => anti_self _
  have d1 := (antiOp_comm lay (obsOp (lay.obs_v_before_sub_round k)) _).trans c1
  have d2 := (antiOp_comm lay (obsOp (lay.obs_v_before_sub_round (k + 3))) _).trans c2
  have d3 := (antiOp_comm lay (obsOp (lay.obs_v_before_sub_round (k + 3))) _).trans c3
  have d4 := (antiOp_comm lay (obsOp (lay.obs_v_before_sub_round k)) _).trans c4
  have d5 := (antiOp_comm lay (obsOp (lay.obs_h_before_sub_round (k + 3))) _).trans c5
  have d6 := (antiOp_comm lay (obsOp (lay.obs_v_before_sub_round (k + 3))) _).trans c6
  have hi' : i = 0 ∨ i = 1 ∨ i = 2 ∨ i = 3 := by omega
  have hj' : j = 0 ∨ j = 1 ∨ j = 2 ∨ j = 3 := by omega
  rcases hi' with rfl | rfl | rfl | rfl <;> rcases hj' with rfl | rfl | rfl | rfl <;> simp [eprLogical, eprAncilla, hself, c1, c2, c3, c4, c5, c6, d1, d2, d3, d4, d5, d6] <;> decide

theorem flips_eprProduct (F : Frame) (k : Int) (i : Nat) : F.flips (lay.eprProduct k i) =
    anti (F (lay.eprAncilla i).2) (lay.eprAncilla i).1.pauli + antiOp lay (lay.pos F) (obsOp (lay.eprLogical k i)) := by
  rw [antiOp_comm, obsOp, anti_opOn (nodup_data_qubit_coords lay) (eprLogical_nodup k i) fun q h => eprLogical_data h]
  simp only [Frame.flips, eprProduct, List.map_cons, List.sum_cons, List.map_map]
  congr 2
  refine List.map_congr_left fun q _ => ?_
  simp only [Function.comp_apply, pos]
  exact anti_comm _ _

end HoneycombLayout
end Honeycomb
