import Verif.Lemmas.Faults
import Verif.Lemmas.Distance

/-! Sub-round by sub-round runs with faults on data qubits between the edge measurements. -/

namespace Honeycomb
namespace HoneycombLayout
variable {lay : HoneycombLayout} {F F' : Frame} {rec : List (ZMod 2)}

/-- `FRun B F0 k c R F n`: like `AbsRun`, and before any sub-round the frame of some data qubits in `B` may change, `n` changes in total. -/
inductive FRun (lay : HoneycombLayout) (B : Pt → Prop) (F0 : PauliOp) : Nat → (Edge → ZMod 2) → List (ZMod 2) → PauliOp → Nat → Prop
  | start : FRun lay B F0 0 (fun _ => 0) [] F0 0
  | bump {k c R F n} (h : FRun lay B F0 k c R F n) (qs : List Pt) (hB : ∀ q ∈ qs, B q) (F' : PauliOp) (hF : ∀ q ∈ lay.data_qubit_coords, q ∉ qs → F' q = F q) :
      FRun lay B F0 k c R F' (n + qs.length)
  | step {k c R F n} (h : FRun lay B F0 k c R F n) (F' : PauliOp)
      (hF : ∀ e ∈ lay.round_edges k, ∃ r : ZMod 2, F' e.left = F e.left + r • (Basis.ofIdx k).pauli ∧ F' e.right = F e.right + r • (Basis.ofIdx k).pauli) :
      FRun lay B F0 (k + 1) (fun e => c e + if e ∈ lay.round_edges k then par F k e else 0)
        (R ++ (lay.round_edges k).map fun e => if lay.isPC3 then c e + par F k e else par F k e) F' n

theorem FRun.length (hv : lay.Valid) {F0 : PauliOp} {k n : Nat} {c : Edge → ZMod 2} {R : List (ZMod 2)} {F : PauliOp} (h : lay.FRun B F0 k c R F n) :
    R.length = k * lay.perRound := by
  induction h with
  | start => simp
  | bump h qs hB F' hF ih => exact ih
  | step h F' hF ih => rw [List.length_append, ih, List.length_map, perRound_eq hv, Nat.add_mul, Nat.one_mul]

theorem FRun.step' {F0 : PauliOp} {k n : Nat} {c : Edge → ZMod 2} {R : List (ZMod 2)} {G : PauliOp} (hp : lay.isPC3 = false) (h : lay.FRun B F0 k c R G n)
    (G' : PauliOp) (hG : ∀ e ∈ lay.round_edges k, ∃ r : ZMod 2, G' e.left = G e.left + r • (Basis.ofIdx k).pauli ∧
      G' e.right = G e.right + r • (Basis.ofIdx k).pauli) : ∃ c', lay.FRun B F0 (k + 1) c' (R ++ (lay.round_edges k).map (par G k)) G' n := by
  have := h.step G' hG
  simp only [hp, Bool.false_eq_true, if_false] at this
  exact ⟨_, this⟩

theorem FRun.extract (hv : lay.Valid) {F0 : PauliOp} {N n : Nat} {c : Edge → ZMod 2} {R : List (ZMod 2)} {F : PauliOp} (h : lay.FRun B F0 N c R F n) :
    ∃ (Fs E : Nat → PauliOp) (cs : Nat → Edge → ZMod 2) (locs : List (Nat × Pt)), (∀ q ∈ lay.data_qubit_coords, Fs 0 q = F0 q + E 0 q) ∧ Fs N = F ∧
      cs N = c ∧ (∀ e, cs 0 e = 0) ∧
      (∀ k : Nat, k < N → ∀ e, cs (k + 1) e = cs k e + if e ∈ lay.round_edges k then par (Fs k) k e else 0) ∧
      (∀ k : Nat, k < N → ∀ e ∈ lay.round_edges k, ∃ r : ZMod 2, Fs (k + 1) e.left = Fs k e.left + r • (Basis.ofIdx k).pauli + E (k + 1) e.left ∧
        Fs (k + 1) e.right = Fs k e.right + r • (Basis.ofIdx k).pauli + E (k + 1) e.right) ∧
      (∀ k : Nat, k < N → ∀ e ∈ lay.round_edges k, recAt R (lay.mTime k e) = if lay.isPC3 then cs k e + par (Fs k) k e else par (Fs k) k e) ∧
      (∀ k : Nat, N < k → ∀ q, E k q = 0) ∧ lay.Located E locs ∧ locs.length = n ∧ ∀ x ∈ locs, B x.2 := by
  have hpp : ∀ p p' r s : Pauli, p = p' + r + s → ∀ p'', p'' = p' + r + (s + (p'' + p)) := by decide
  have hself : ∀ p : Pauli, p + p = 0 := by decide
  induction h with
  | start =>
    exact ⟨fun _ => F0, fun _ _ => 0, fun _ _ => 0, [], fun _ _ => (add_zero _).symm, rfl, rfl, fun _ => rfl, by simp, by simp, by simp, by simp,
      fun _ _ _ h => absurd rfl h, rfl, by simp⟩
  | @bump k c R F n h qs hB F' hF ih =>
    obtain ⟨Fs, E, cs, locs, h0, hk, hc, hc0, hcs, hst, hrec, hE, hloc, hn, hin⟩ := ih
    have hne : ∀ j : Nat, j < k → j ≠ k := fun j hj => by omega
    refine ⟨fun j => if j = k then F' else Fs j, fun j => if j = k then fun q => E k q + (F' q + F q) else E j, cs, locs ++ qs.map (k, ·),
      ?_, by simp, hc, hc0, ?_, ?_, ?_, ?_, ?_, by simp [hn], fun x hx => ?_⟩
    · intro q hq
      by_cases hk0 : 0 = k
      · subst hk0
        simp only [if_true]
        have := h0 q hq
        rw [hk] at this
        have h2 := hpp (F q) (F0 q) 0 (E 0 q) (by rw [add_zero]; exact this) (F' q)
        rw [add_zero] at h2
        exact h2
      · simp only [hk0, if_false]
        exact h0 q hq
    · intro j hj e
      simp only [hne j hj, if_false]
      exact hcs j hj e
    · intro j hj e he
      simp only [hne j hj, if_false]
      by_cases hj1 : j + 1 = k
      · simp only [hj1, if_true]
        obtain ⟨r, h1, h2⟩ := hst j hj e he
        rw [hj1, hk] at h1 h2
        exact ⟨r, hpp _ _ _ _ h1 _, hpp _ _ _ _ h2 _⟩
      · simp only [hj1, if_false]
        exact hst j hj e he
    · intro j hj e he
      simp only [hne j hj, if_false]
      exact hrec j hj e he
    · intro j hj q
      simp only [show j ≠ k by omega, if_false]
      exact hE j hj q
    · intro j q hq hne'
      by_cases hjk : j = k
      · subst hjk
        simp only [if_true] at hne'
        rw [List.mem_append]
        by_cases hm : q ∈ qs
        · exact Or.inr (List.mem_map_of_mem hm)
        · rw [hF q hq hm, hself, add_zero] at hne'
          exact Or.inl (hloc j q hq hne')
      · simp only [hjk, if_false] at hne'
        exact List.mem_append_left _ (hloc j q hq hne')
    · rcases List.mem_append.1 hx with hx | hx
      · exact hin x hx
      · obtain ⟨q, hq, rfl⟩ := List.mem_map.1 hx
        exact hB q hq
  | @step k c R F n h F' hF ih =>
    obtain ⟨Fs, E, cs, locs, h0, hk, hc, hc0, hcs, hst, hrec, hE, hloc, hn, hin⟩ := ih
    refine ⟨fun j => if j ≤ k then Fs j else F', E, fun j => if j ≤ k then cs j else fun e => c e + if e ∈ lay.round_edges k then par F k e else 0, locs,
      by simpa using h0, by simp, by simp, by simp [hc0], ?_, ?_, ?_, fun j hj => hE j (by omega), hloc, hn, hin⟩
    · intro j hj e
      rcases Nat.lt_or_eq_of_le (show j ≤ k by omega) with hj' | rfl
      · simp only [show j ≤ k by omega, show j + 1 ≤ k by omega, if_true, hcs j hj']
      · simp [hc, hk]
    · intro j hj e he
      rcases Nat.lt_or_eq_of_le (show j ≤ k by omega) with hj' | rfl
      · simp only [show j ≤ k by omega, show j + 1 ≤ k by omega, if_true]
        exact hst j hj' e he
      · simp only [show ¬ (j + 1 ≤ j) by omega, le_refl, if_true, if_false, hk]
        rw [hE _ (by omega), hE _ (by omega)]
        simp only [add_zero]
        exact hF e he
    · intro j hj e he
      have hl := h.length hv
      rcases Nat.lt_or_eq_of_le (show j ≤ k by omega) with hj' | rfl
      · simp only [show j ≤ k by omega, if_true]
        rw [recAt_left, hrec j hj' e he]
        rw [hl]
        exact lt_of_lt_of_le (mTime_lt hv he) (Nat.mul_le_mul_right _ (by omega))
      · simp only [le_refl, if_true, hc, hk]
        rw [mTime, ← hl, recAt_right, recAt_map he]

/-- What a run with faults and final data measurements implies. -/
theorem FRun.recorded (hv : lay.Valid) {F0 : PauliOp} {N n : Nat} {c : Edge → ZMod 2} {R : List (ZMod 2)} {F : PauliOp} (h : lay.FRun B F0 N c R F n)
    (h0 : ∀ q ∈ lay.data_qubit_coords, ∃ r : ZMod 2, F0 q = r • (lay.obsAt 0).1.pauli) {D : List (ZMod 2)}
    (hD : D = lay.data_qubit_coords.map fun q => anti (F q) (lay.obsAt N).1.pauli) :
    ∃ Fs E locs, lay.FaultyTrajectory N E Fs ∧ lay.Recorded N Fs (recAt (R ++ D)) ∧ (R ++ D).length = N * lay.perRound + lay.data_qubit_coords.length ∧
      lay.Located E locs ∧ locs.length = n ∧ ∀ x ∈ locs, B x.2 := by
  obtain ⟨Fs, E, cs, locs, e0, eN, _, c0, hcs, hst, hrec, _, hloc, hn, hin⟩ := h.extract hv
  have hl := h.length hv
  refine ⟨Fs, E, locs, ⟨fun q hq => ?_, hst⟩, recorded_of hv c0 hcs hrec hl (by rw [hD, eN]), by rw [List.length_append, hl, hD, List.length_map], hloc, hn, hin⟩
  obtain ⟨r, hr⟩ := h0 q hq
  exact ⟨r, by rw [e0 q hq, hr]⟩

end HoneycombLayout
end Honeycomb
