import Verif.Lemmas.Pauli
import Verif.Spec.Frame

/-! # Frames after simple groups of actions -/

namespace Honeycomb

theorem Frame.kick_one (F : Frame) (r : ZMod 2) (b : Basis) (q : Nat) : F.kick r [(b, q)] = F.mul q (r • b.pauli) := rfl

theorem runs_append {a b : List Action} {F F' : Frame} {rec : List (ZMod 2)} :
    Runs F (a ++ b) rec F' ↔ ∃ r1 r2 F1, Runs F a r1 F1 ∧ Runs F1 b r2 F' ∧ rec = r1 ++ r2 := by
  constructor
  · intro h
    induction a generalizing F rec with
    | nil => exact ⟨[], rec, F, .nil F, h, rfl⟩
    | cons x a ih =>
      cases h with
      | clifford1 f q h => obtain ⟨r1, r2, F1, h1, h2, e⟩ := ih h; exact ⟨r1, r2, F1, .clifford1 f q h1, h2, e⟩
      | control P Q x y h => obtain ⟨r1, r2, F1, h1, h2, e⟩ := ih h; exact ⟨r1, r2, F1, .control P Q x y h1, h2, e⟩
      | reset b q r h => obtain ⟨r1, r2, F1, h1, h2, e⟩ := ih h; exact ⟨r1, r2, F1, .reset b q r h1, h2, e⟩
      | measure P r h =>
        obtain ⟨r1, r2, F1, h1, h2, e⟩ := ih h
        exact ⟨_ :: r1, r2, F1, .measure P r h1, h2, by rw [e]; rfl⟩
  · rintro ⟨r1, r2, F1, h1, h2, rfl⟩
    induction h1 with
    | nil => exact h2
    | clifford1 f q _ ih => exact .clifford1 f q (ih h2)
    | control P Q x y _ ih => exact .control P Q x y (ih h2)
    | reset b q r _ ih => exact .reset b q r (ih h2)
    | measure P r _ ih => exact .measure P r (ih h2)

theorem actions_append (a b : List Instr) : actions (a ++ b) = actions a ++ actions b := by simp [actions]

theorem runs_nil {F F' : Frame} {rec : List (ZMod 2)} (h : Runs F [] rec F') : rec = [] ∧ F' = F := by
  cases h; exact ⟨rfl, rfl⟩

theorem qubits_on (g : Gate) (qs : List Nat) : (Instr.on g qs).qubits = qs := by
  simp only [Instr.on, Instr.qubits, List.filterMap_map]
  induction qs with
  | nil => rfl
  | cons q qs ih => simp_all [Target.qubit?]

theorem runs_clifford1 {f : Pauli → Pauli} {qs : List Nat} (hn : qs.Nodup) {F F' : Frame} {rec : List (ZMod 2)}
    (h : Runs F (qs.map (.clifford1 f)) rec F') : rec = [] ∧ ∀ q, F' q = if q ∈ qs then f (F q) else F q := by
  induction qs generalizing F with
  | nil => obtain ⟨rfl, rfl⟩ := runs_nil h; simp
  | cons a qs ih =>
    rw [List.nodup_cons] at hn
    cases h with
    | clifford1 _ _ h =>
      obtain ⟨e, h⟩ := ih hn.2 h
      refine ⟨e, fun q => ?_⟩
      rw [h q]
      by_cases hq : q = a
      · subst hq; simp [hn.1, Frame.set]
      · simp [hq, Frame.set]

theorem runs_reset {b : Basis} {qs : List Nat} {F F' : Frame} {rec : List (ZMod 2)}
    (h : Runs F (qs.map (.reset b)) rec F') :
    rec = [] ∧ (∀ q ∈ qs, ∃ r : ZMod 2, F' q = r • b.pauli) ∧ ∀ q, q ∉ qs → F' q = F q := by
  induction qs generalizing F with
  | nil => obtain ⟨rfl, rfl⟩ := runs_nil h; simp
  | cons a qs ih =>
    cases h with
    | reset _ _ r h =>
      obtain ⟨e, h1, h2⟩ := ih h
      refine ⟨e, fun q hq => ?_, fun q hq => ?_⟩
      · by_cases hq' : q ∈ qs
        · exact h1 q hq'
        · have : q = a := by simpa [hq'] using hq
          subst this
          refine ⟨r, ?_⟩
          rw [h2 q hq', Frame.kick_one]
          simp [Frame.mul, Frame.set]
      · simp only [List.mem_cons, not_or] at hq
        rw [h2 q hq.2, Frame.kick_one]
        simp [Frame.mul, Frame.set, hq.1]

theorem anti_Z (p : Pauli) : anti p Basis.Z.pauli = p.1 := by revert p; decide

theorem smul_Z_fst (r : ZMod 2) : (r • Basis.Z.pauli : Pauli).1 = 0 := by revert r; decide

theorem runs_measure_Z {qs : List Nat} {F F' : Frame} {rec : List (ZMod 2)}
    (h : Runs F (qs.map fun q => .measure [(.Z, q)]) rec F') :
    rec = qs.map (fun q => (F q).1) ∧ (∀ q, (F' q).1 = (F q).1) ∧ ∀ q, q ∉ qs → F' q = F q := by
  induction qs generalizing F rec with
  | nil => obtain ⟨rfl, rfl⟩ := runs_nil h; simp
  | cons a qs ih =>
    cases h with
    | measure _ r h =>
      obtain ⟨e, h1, h2⟩ := ih h
      have hx : ∀ q, (F.kick r [(.Z, a)] q).1 = (F q).1 := by
        intro q
        rw [Frame.kick_one, Frame.mul]
        split_ifs
        · simp only [Prod.fst_add, smul_Z_fst, add_zero]
        · rfl
      refine ⟨?_, fun q => (h1 q).trans (hx q), fun q hq => ?_⟩
      · rw [e, List.map_cons, Frame.flips, List.map_cons, List.map_nil, List.sum_singleton, anti_Z]
        congr 1
        exact List.map_congr_left fun q _ => hx q
      · simp only [List.mem_cons, not_or] at hq
        rw [h2 q hq.2, Frame.kick_one, Frame.mul, if_neg hq.1]

theorem runs_control {P Q : Basis} {ps : List (Nat × Nat)} (hn : (ps.flatMap fun x => [x.1, x.2]).Nodup) {F F' : Frame}
    {rec : List (ZMod 2)} (h : Runs F (ps.map fun x => .control P Q x.1 x.2) rec F') :
    rec = [] ∧ (∀ x ∈ ps, F' x.1 = F x.1 + anti (F x.2) Q.pauli • P.pauli ∧ F' x.2 = F x.2 + anti (F x.1) P.pauli • Q.pauli) ∧
    ∀ q, q ∉ ps.flatMap (fun x => [x.1, x.2]) → F' q = F q := by
  induction ps generalizing F with
  | nil => obtain ⟨rfl, rfl⟩ := runs_nil h; simp
  | cons x ps ih =>
    obtain ⟨a, b⟩ := x
    simp only [List.flatMap_cons, List.cons_append, List.nil_append, List.nodup_cons, List.mem_cons, not_or] at hn
    obtain ⟨⟨hab, ha⟩, hb, hn⟩ := hn
    cases h with
    | control _ _ _ _ h =>
      obtain ⟨e, h1, h2⟩ := ih hn h
      rw [Frame.kick_one, Frame.kick_one] at h1 h2
      refine ⟨e, ?_, ?_⟩
      · intro y hy
        rcases List.mem_cons.1 hy with rfl | hy
        · constructor
          · rw [h2 a ha]; simp [Frame.mul, hab]
          · rw [h2 b hb]; simp [Frame.mul, Ne.symm hab]
        · have h3 : y.1 ∈ ps.flatMap fun x => [x.1, x.2] := List.mem_flatMap.2 ⟨y, hy, by simp⟩
          have h4 : y.2 ∈ ps.flatMap fun x => [x.1, x.2] := List.mem_flatMap.2 ⟨y, hy, by simp⟩
          have e1 : y.1 ≠ a := fun h => ha (h ▸ h3)
          have e2 : y.1 ≠ b := fun h => hb (h ▸ h3)
          have e3 : y.2 ≠ a := fun h => ha (h ▸ h4)
          have e4 : y.2 ≠ b := fun h => hb (h ▸ h4)
          obtain ⟨g1, g2⟩ := h1 y hy
          rw [g1, g2]
          simp [Frame.mul, e1, e2, e3, e4]
      · intro q hq
        simp only [List.flatMap_cons, List.cons_append, List.nil_append, List.mem_cons, not_or] at hq
        rw [h2 q hq.2.2]
        simp [Frame.mul, hq.1, hq.2.1]

theorem runs_measure_pairs {P : Basis} {ps : List (Nat × Nat)} (hn : (ps.flatMap fun x => [x.1, x.2]).Nodup) {F F' : Frame}
    {rec : List (ZMod 2)} (h : Runs F (ps.map fun x => .measure [(P, x.1), (P, x.2)]) rec F') :
    rec = ps.map (fun x => anti (F x.1) P.pauli + anti (F x.2) P.pauli) ∧
    (∀ x ∈ ps, ∃ r : ZMod 2, F' x.1 = F x.1 + r • P.pauli ∧ F' x.2 = F x.2 + r • P.pauli) ∧
    ∀ q, q ∉ ps.flatMap (fun x => [x.1, x.2]) → F' q = F q := by
  induction ps generalizing F rec with
  | nil => obtain ⟨rfl, rfl⟩ := runs_nil h; simp
  | cons x ps ih =>
    obtain ⟨a, b⟩ := x
    simp only [List.flatMap_cons, List.cons_append, List.nil_append, List.nodup_cons, List.mem_cons, not_or] at hn
    obtain ⟨⟨hab, ha⟩, hb, hn⟩ := hn
    cases h with
    | measure _ r h =>
      obtain ⟨e, h1, h2⟩ := ih hn h
      have hk : F.kick r [(P, a), (P, b)] = (F.mul a (r • P.pauli)).mul b (r • P.pauli) := rfl
      rw [hk] at h1 h2 e
      have hoff : ∀ y ∈ ps, ((F.mul a (r • P.pauli)).mul b (r • P.pauli)) y.1 = F y.1 ∧
          ((F.mul a (r • P.pauli)).mul b (r • P.pauli)) y.2 = F y.2 := by
        intro y hy
        have h3 : y.1 ∈ ps.flatMap fun x => [x.1, x.2] := List.mem_flatMap.2 ⟨y, hy, by simp⟩
        have h4 : y.2 ∈ ps.flatMap fun x => [x.1, x.2] := List.mem_flatMap.2 ⟨y, hy, by simp⟩
        have e1 : y.1 ≠ a := fun h => ha (h ▸ h3)
        have e2 : y.1 ≠ b := fun h => hb (h ▸ h3)
        have e3 : y.2 ≠ a := fun h => ha (h ▸ h4)
        have e4 : y.2 ≠ b := fun h => hb (h ▸ h4)
        simp [Frame.mul, e1, e2, e3, e4]
      refine ⟨?_, ?_, ?_⟩
      · rw [e, List.map_cons, Frame.flips]
        simp only [List.map_cons, List.map_nil, List.sum_cons, List.sum_nil, add_zero]
        congr 1
        exact List.map_congr_left fun y hy => by rw [(hoff y hy).1, (hoff y hy).2]
      · intro y hy
        rcases List.mem_cons.1 hy with rfl | hy
        · refine ⟨r, ?_, ?_⟩
          · rw [h2 a ha]; simp [Frame.mul, hab]
          · rw [h2 b hb]; simp [Frame.mul, Ne.symm hab]
        · obtain ⟨r', g1, g2⟩ := h1 y hy
          refine ⟨r', ?_, ?_⟩
          · rw [g1, (hoff y hy).1]
          · rw [g2, (hoff y hy).2]
      · intro q hq
        simp only [List.flatMap_cons, List.cons_append, List.nil_append, List.mem_cons, not_or] at hq
        rw [h2 q hq.2.2]
        simp [Frame.mul, hq.1, hq.2.1]

/-- From any frame, any sequence of actions can be run. -/
theorem runs_exists (F : Frame) (as : List Action) : ∃ rec F', Runs F as rec F' := by
  induction as generalizing F with
  | nil => exact ⟨_, _, .nil F⟩
  | cons a as ih =>
    cases a with
    | clifford1 f q => obtain ⟨r, F', h⟩ := ih (F.set q (f (F q))); exact ⟨r, F', .clifford1 f q h⟩
    | control P Q a b => obtain ⟨r, F', h⟩ := ih _; exact ⟨r, F', .control P Q a b h⟩
    | reset b q => obtain ⟨r, F', h⟩ := ih _; exact ⟨r, F', .reset b q 0 h⟩
    | measure P => obtain ⟨r, F', h⟩ := ih _; exact ⟨_, F', .measure P 0 h⟩

end Honeycomb
