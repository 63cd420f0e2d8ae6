import Verif.Lemmas.Symptoms

/-! # Every data fault is a product of two elementary faults

The elementary faults are the Pauli measured in sub-round `j`, on one qubit, before sub-round `j` (or at the end), and the Pauli of sub-round `-1`
before the first sub-round. -/

namespace Honeycomb
namespace HoneycombLayout
variable {lay : HoneycombLayout} {N : Nat} {ψ : (Nat → PauliOp) → ZMod 2}

theorem pauli_zero_smul (Q : Pauli) : (0 : ZMod 2) • Q = 0 := by revert Q; decide

/-- A quantity read off the frames: additive, zero on frames that flip no result, and zero without faults. -/
structure Meter (lay : HoneycombLayout) (N : Nat) (ψ : (Nat → PauliOp) → ZMod 2) : Prop where
  zero : ∀ F, lay.Recorded N F (fun _ => 0) → ψ F = 0
  add : ∀ F G, ψ (fun k q => F k q + G k q) = ψ F + ψ G
  still : ∀ F, lay.Trajectory N F → ψ F = 0

theorem Reads.meter (hv : lay.Valid) {key : Nat × Pt} {s : Finset Nat} (h : lay.Reads N key s ψ) : lay.Meter N ψ where
  zero F hr := by rw [← h.val F _ hr]; exact Finset.sum_eq_zero fun _ _ => rfl
  add := h.add
  still F ht := h.calm F (ht.calm hv)

theorem meter_obs (hv : lay.Valid) : lay.Meter N fun F => lay.loopValue F lay.obsLoop N where
  zero F hr := by
    have z : ∀ s : Finset Nat, val (fun _ => 0) s = 0 := fun s => Finset.sum_eq_zero fun _ _ => rfl
    rw [← obs_value hv hr, z, add_zero]
    exact sum_map_eq_zero fun k _ => z _
  add F G := by
    have e1 : ∀ (f g h : Pt → ZMod 2), (∀ q, f q = g q + h q) → (lay.data_qubit_coords.map f).sum =
        (lay.data_qubit_coords.map g).sum + (lay.data_qubit_coords.map h).sum := fun f g h e => by
      rw [← sum_map_add]; exact sum_map_congr fun q _ => e q
    have e2 : ∀ k : Nat, lay.loopMeas (fun k q => F k q + G k q) lay.obsLoop k = lay.loopMeas F lay.obsLoop k + lay.loopMeas G lay.obsLoop k :=
      fun k => e1 _ _ _ fun q => by rw [anti_add_left]; ring
    have e3 : lay.loopFlip (fun k q => F k q + G k q) lay.obsLoop N = lay.loopFlip F lay.obsLoop N + lay.loopFlip G lay.obsLoop N :=
      e1 _ _ _ fun q => by rw [anti_add_left]; ring
    simp only [loopValue, e2, e3, sum_map_add]
    ring
  still F ht := by
    have ht' : lay.FaultyTrajectory N (fun _ _ => 0) F := by
      refine ⟨fun q hq => ?_, fun k hk e he => ?_⟩
      · obtain ⟨r, h⟩ := ht.init q hq
        exact ⟨r, by rw [h, add_zero]⟩
      · obtain ⟨r, h1, h2⟩ := ht.step k hk e he
        exact ⟨r, by rw [h1, add_zero], by rw [h2, add_zero]⟩
    have := ht'.membrane hv (G := fun _ => lay.obsLoop) (fun _ => isLoop_obs hv) (fun _ _ _ _ => rfl) (le_refl N)
    rw [loopValue, this]
    exact sum_map_eq_zero fun k _ => sum_map_eq_zero fun q _ => by rw [anti_zero_left, mul_zero]

/-- One fault, as a list of errors. -/
def oneErr (j : Nat) (q : Pt) (P : Pauli) : Nat → PauliOp := fun k p => if k = j ∧ p = q then P else 0

/-- The errors that can matter. -/
theorem FaultyTrajectory.trim {E F : Nat → PauliOp} (ht : lay.FaultyTrajectory N E F) : lay.FaultyTrajectory N (fun k q => if k ≤ N then E k q else 0) F := by
  refine ⟨fun q hq => ?_, fun k hk e he => ?_⟩
  · simpa using ht.init q hq
  · simp only [show k + 1 ≤ N by omega, if_true]
    exact ht.step k hk e he

/-- What several faults do is the sum of what each of them does. -/
theorem Meter.sum (hv : lay.Valid) (hψ : lay.Meter N ψ) : ∀ (locs : List (Nat × Pt)) (E F : Nat → PauliOp), locs.Nodup → lay.FaultyTrajectory N E F →
    lay.Located E locs → ψ F = (locs.map fun l => ψ (oneFault l.1 l.2 (E l.1 l.2))).sum
  | [], E, F, _, ht, hl => by
    refine hψ.still F ⟨fun q hq => ?_, fun k hk e he => ?_⟩
    · obtain ⟨r, h⟩ := ht.init q hq
      have : E 0 q = 0 := by by_contra hne; exact absurd (hl 0 q hq hne) (by simp)
      exact ⟨r, by rw [h, this, add_zero]⟩
    · obtain ⟨r, h1, h2⟩ := ht.step k hk e he
      have hd := edge_ends_data hv (round_edges_subset_all he)
      have a : E (k + 1) e.left = 0 := by by_contra hne; exact absurd (hl _ _ hd.1 hne) (by simp)
      have b : E (k + 1) e.right = 0 := by by_contra hne; exact absurd (hl _ _ hd.2 hne) (by simp)
      exact ⟨r, by rw [h1, a, add_zero], by rw [h2, b, add_zero]⟩
  | (j, q) :: locs, E, F, hn, ht, hl => by
    have self : ∀ a : Pauli, a + a = 0 := by decide
    rw [List.nodup_cons] at hn
    have e : ψ F = ψ (fun k p => F k p + oneFault j q (E j q) k p) + ψ (oneFault j q (E j q)) := by
      rw [← hψ.add]
      congr 1
      funext k p
      rw [add_assoc, self, add_zero]
    rw [List.map_cons, List.sum_cons, e, Meter.sum hv hψ locs _ _ hn.2 (ht.remove j q) (fun k p hp hk => by
        by_cases hkp : k = j ∧ p = q
        · simp [hkp] at hk
        · rw [if_neg hkp] at hk
          rcases List.mem_cons.1 (hl k p hp hk) with h | h
          · obtain ⟨rfl, rfl⟩ := Prod.mk.inj h
            exact absurd ⟨rfl, rfl⟩ hkp
          · exact h), add_comm]
    congr 1
    refine sum_map_congr fun l hm => ?_
    have : ¬ (l.1 = j ∧ l.2 = q) := by
      rintro ⟨rfl, rfl⟩
      exact hn.1 hm
    simp only [this, if_false]

theorem Meter.one (hv : lay.Valid) (hψ : lay.Meter N ψ) {j : Nat} {q : Pt} {P : Pauli} {F : Nat → PauliOp} (ht : lay.FaultyTrajectory N (oneErr j q P) F) :
    ψ F = ψ (oneFault j q P) := by
  have := hψ.sum hv [(j, q)] _ F (by simp) ht (fun k p _ hk => by
    rw [oneErr] at hk
    split_ifs at hk with h
    · obtain ⟨rfl, rfl⟩ := h; simp
    · exact absurd rfl hk)
  simpa [oneErr] using this

theorem Meter.none (hψ : lay.Meter N ψ) (j : Nat) (q : Pt) : ψ (oneFault j q 0) = 0 := by
  have self : oneFault j q 0 = fun k p => oneFault j q 0 k p + oneFault j q 0 k p := by
    funext k p; simp [oneFault]
  have h := hψ.add (oneFault j q 0) (oneFault j q 0)
  rw [← self] at h
  rw [h]
  exact zmod2_add_self _

theorem Meter.mul (hψ : lay.Meter N ψ) (j : Nat) (q : Pt) (P Q : Pauli) : ψ (oneFault j q (P + Q)) = ψ (oneFault j q P) + ψ (oneFault j q Q) := by
  rw [← hψ.add]
  congr 1
  funext k p
  simp only [oneFault]
  split_ifs <;> simp

/-- The Pauli of a sub-round does the same before and after this sub-round. -/
theorem Meter.slide (hv : lay.Valid) (hψ : lay.Meter N ψ) {j : Nat} (hj : j < N) (q : Pt) :
    ψ (oneFault (j + 1) q (Basis.ofIdx j).pauli) = ψ (oneFault j q (Basis.ofIdx j).pauli) := by
  have e : oneFault j q (Basis.ofIdx j).pauli = fun k p => oneFault (j + 1) q (Basis.ofIdx j).pauli k p + oneErr j q (Basis.ofIdx j).pauli k p := by
    funext k p
    simp only [oneFault, oneErr]
    by_cases hp : p = q
    · rcases lt_trichotomy k j with h | h | h
      · simp [hp, show ¬ j ≤ k by omega, show ¬ j + 1 ≤ k by omega, show ¬ k = j by omega]
      · simp [hp, h]
      · simp [hp, show j ≤ k by omega, show j + 1 ≤ k by omega, show ¬ k = j by omega]
    · simp [hp]
  rw [e, hψ.add, hψ.zero (oneErr j q _), add_zero]
  constructor
  · intro k hk e he
    have z : ∀ s : Finset Nat, val (fun _ => 0) s = 0 := fun s => Finset.sum_eq_zero fun _ _ => rfl
    rw [z, par, oneErr, oneErr]
    by_cases hkj : k = j
    · subst hkj
      split_ifs <;> simp [anti_same]
    · simp [hkj]
  · intro p _
    simp [oneErr, show ¬ N = j by omega]

/-! ## Elementary faults -/

/-- The elementary faults. -/
def Elem (lay : HoneycombLayout) (N : Nat) (x : Nat × Pt × Pauli) : Prop :=
  x.2.1 ∈ lay.data_qubit_coords ∧ ((x.1 ≤ N ∧ x.2.2 = (Basis.ofIdx x.1).pauli) ∨ (x.1 = 0 ∧ x.2.2 = (Basis.ofIdx (-1)).pauli))

/-- The elementary faults whose product is `P` on `q` before sub-round `j`. -/
def parts (j : Nat) (q : Pt) (P : Pauli) : List (Nat × Pt × Pauli) :=
  (if anti P (Basis.ofIdx ((j : Int) - 1)).pauli ≠ 0 then [(j, q, (Basis.ofIdx j).pauli)] else []) ++
  (if anti P (Basis.ofIdx j).pauli ≠ 0 then [(j - 1, q, (Basis.ofIdx ((j : Int) - 1)).pauli)] else [])

theorem parts_length (j : Nat) (q : Pt) (P : Pauli) : (parts j q P).length ≤ 2 := by
  rw [parts]; split_ifs <;> simp

theorem parts_qubit {j : Nat} {q : Pt} {P : Pauli} {x : Nat × Pt × Pauli} (hx : x ∈ parts j q P) : x.2.1 = q := by
  rw [parts] at hx
  split_ifs at hx <;> simp at hx
  all_goals first | (rcases hx with rfl | rfl <;> rfl) | (subst hx; rfl)

theorem parts_elem {j : Nat} (hj : j ≤ N) {q : Pt} (hq : q ∈ lay.data_qubit_coords) {P : Pauli} {x : Nat × Pt × Pauli} (hx : x ∈ parts j q P) :
    lay.Elem N x := by
  have h1 : lay.Elem N (j, q, (Basis.ofIdx j).pauli) := ⟨hq, Or.inl ⟨hj, rfl⟩⟩
  have h2 : lay.Elem N (j - 1, q, (Basis.ofIdx ((j : Int) - 1)).pauli) := by
    refine ⟨hq, ?_⟩
    rcases Nat.eq_zero_or_pos j with rfl | h0
    · exact Or.inr ⟨rfl, rfl⟩
    · exact Or.inl ⟨by simp only; omega, by simp only; rw [Nat.cast_sub h0]; rfl⟩
  rw [parts] at hx
  split_ifs at hx <;> simp at hx
  all_goals first | (rcases hx with rfl | rfl <;> assumption) | (subst hx; assumption)

theorem pauli_parts (P : Pauli) (k : Int) : P = anti P (Basis.ofIdx (k - 1)).pauli • (Basis.ofIdx k).pauli + anti P (Basis.ofIdx k).pauli • (Basis.ofIdx (k - 1)).pauli := by
  have h : k % 3 = 0 ∨ k % 3 = 1 ∨ k % 3 = 2 := by omega
  rcases h with h | h | h
  · rw [ofIdx_congr (k := k) (k' := 0) (by omega), ofIdx_congr (k := k - 1) (k' := 2) (by omega)]; revert P; decide
  · rw [ofIdx_congr (k := k) (k' := 1) (by omega), ofIdx_congr (k := k - 1) (k' := 0) (by omega)]; revert P; decide
  · rw [ofIdx_congr (k := k) (k' := 2) (by omega), ofIdx_congr (k := k - 1) (k' := 1) (by omega)]; revert P; decide

theorem Meter.parts (hv : lay.Valid) (hψ : lay.Meter N ψ) {j : Nat} (hj : j ≤ N) (q : Pt) (P : Pauli) :
    ψ (oneFault j q P) = ((HoneycombLayout.parts j q P).map fun x => ψ (oneFault x.1 x.2.1 x.2.2)).sum := by
  have hs : ψ (oneFault (j - 1) q (Basis.ofIdx ((j : Int) - 1)).pauli) = ψ (oneFault j q (Basis.ofIdx ((j : Int) - 1)).pauli) := by
    rcases Nat.eq_zero_or_pos j with rfl | h0
    · rfl
    · have := hψ.slide hv (j := j - 1) (by omega) q
      rw [Nat.sub_add_cancel h0, Nat.cast_sub h0] at this
      exact this.symm
  have sm : ∀ (r : ZMod 2) (Q : Pauli), ψ (oneFault j q (r • Q)) = if r ≠ 0 then ψ (oneFault j q Q) else 0 := by
    intro r Q
    have : r = 0 ∨ r = 1 := by revert r; decide
    rcases this with rfl | rfl
    · rw [pauli_zero_smul, if_neg (by simp), hψ.none]
    · simp
  conv_lhs => rw [pauli_parts P j]
  rw [hψ.mul, sm, sm, HoneycombLayout.parts, List.map_append, List.sum_append]
  congr 1 <;> split_ifs <;> simp [hs]

/-- The detectors that an elementary fault before a sub-round can fire. -/
theorem elem_mid (hv : lay.Valid) {j : Nat} (hlt : j < N) {q : Pt} (hq : q ∈ lay.data_qubit_coords) {key : Nat × Pt} {s : Finset Nat}
    {φ : (Nat → PauliOp) → ZMod 2} (hφ : lay.Reads N key s φ) (hne : φ (oneFault j q (Basis.ofIdx j).pauli) ≠ 0) :
    key ∈ [(min (j + 1) N, lay.faceAt q ((j : Int) - 1)), (min (j + 3) N, lay.faceAt q ((j : Int) + 1))] := by
  have h1 := (hφ.hits _ _ _ hne).2.2
  have h2 := (faultHits_place hv hq (show j + 1 ≤ N by omega) (hφ.hits (j + 1) q _ (by rw [(hφ.meter hv).slide hv hlt q]; exact hne)).2.2).1
  have h3 := hφ.pairs.own j q hlt hne
  rw [faultHits, if_neg (by omega)] at h1
  split_ifs at h1 with h0
  · obtain ⟨rfl, -⟩ := h0
    simp only [List.mem_cons, List.not_mem_nil, or_false] at h1 ⊢
    rcases h1 with rfl | h | rfl | h
    · simp only at h2; omega
    · exact Or.inl h
    · exact absurd rfl h3
    · exact Or.inr h
  · simp only [List.mem_cons, List.not_mem_nil, or_false] at h1 ⊢
    rcases h1 with rfl | h | rfl | h
    · simp only at h2; omega
    · exact Or.inl h
    · exact absurd rfl h3
    · exact Or.inr h

/-- An elementary fault fires at most two detectors. -/
theorem elem_hits (hv : lay.Valid) {x : Nat × Pt × Pauli} (hx : lay.Elem N x) (ho : lay.ObsOk) : ∃ hits : List (Nat × Pt), hits.length ≤ 2 ∧
    ∀ key s φ, lay.Reads N key s φ → φ (oneFault x.1 x.2.1 x.2.2) ≠ 0 → key ∈ hits := by
  obtain ⟨j, q, P⟩ := x
  obtain ⟨hq, ⟨hj, hP⟩ | ⟨hj, hP⟩⟩ := hx
  · simp only at hq hj hP ⊢
    subst hP
    rcases Nat.lt_or_eq_of_le hj with hlt | rfl
    · exact ⟨_, by simp, fun key s φ hφ hne => elem_mid hv hlt hq hφ hne⟩
    · exact ⟨_, by simp, fun key s φ hφ hne => hφ.pairs.last q hne⟩
  · simp only at hq hj hP ⊢
    subst hj hP
    by_cases hV : lay.obs = "V"
    · refine ⟨[], by simp, fun key s φ hφ hne => absurd ((hφ.meter hv).still _ ⟨fun p _ => ?_, fun k _ e _ => ?_⟩) hne⟩
      · have hz : (lay.obsAt 0).1 = .Z := by have := obsAt_zero_basis ho; rwa [if_pos hV] at this
        rw [hz, oneFault]
        by_cases hp : p = q
        · exact ⟨1, by simp [hp]; rfl⟩
        · exact ⟨0, by rw [pauli_zero_smul]; simp [hp]⟩
      · exact ⟨0, by rw [pauli_zero_smul]; simp [oneFault], by rw [pauli_zero_smul]; simp [oneFault]⟩
    · exact ⟨_, by simp, fun key s φ hφ hne => hφ.pairs.first hV q hne⟩

end HoneycombLayout
end Honeycomb
