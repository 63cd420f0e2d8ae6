import Verif.Lemmas.Realise
import Verif.Lemmas.SymptomsCount

/-! # Runs that are clean from some sub-round on

Whatever was recorded before sub-round `j`, there are frames that explain it. If the run is clean from there on, all faults of this
explanation happen before sub-round `j`. -/

namespace Honeycomb
namespace HoneycombLayout
variable {lay : HoneycombLayout} {F F' : Frame} {rec : List (ZMod 2)} {N : Nat}

/-- The last result of an edge before sub-round `k`. -/
def lastR (lay : HoneycombLayout) (R : List (ZMod 2)) : Nat → Edge → ZMod 2
  | 0, _ => 0
  | k + 1, e => if e ∈ lay.round_edges k then recAt R (lay.mTime k e) else lastR lay R k e

/-- The parity that a frame must have to explain the result of an edge in sub-round `k`. -/
def wanted (lay : HoneycombLayout) (R : List (ZMod 2)) (k : Nat) (e : Edge) : ZMod 2 :=
  recAt R (lay.mTime k e) + if lay.isPC3 then lay.lastR R k e else 0

/-- A frame that explains the results of sub-round `k`. -/
noncomputable def fill (lay : HoneycombLayout) (R : List (ZMod 2)) (k : Nat) : PauliOp := fun p =>
  if p = (lay.dataEdge p k).left then lay.wanted R k (lay.dataEdge p k) • (Basis.ofIdx ((k : Int) + 1)).pauli else 0

/-- The totals of the parities. -/
noncomputable def fillSum (lay : HoneycombLayout) (R : List (ZMod 2)) : Nat → Edge → ZMod 2
  | 0, _ => 0
  | k + 1, e => fillSum lay R k e + if e ∈ lay.round_edges k then par (lay.fill R k) k e else 0

theorem anti_fill (k : Int) (r : ZMod 2) : anti (r • (Basis.ofIdx (k + 1)).pauli) (Basis.ofIdx k).pauli = r := by
  have h : k % 3 = 0 ∨ k % 3 = 1 ∨ k % 3 = 2 := by omega
  rcases h with h | h | h
  · rw [ofIdx_congr (k := k + 1) (k' := 1) (by omega), ofIdx_congr (k := k) (k' := 0) (by omega)]; revert r; decide
  · rw [ofIdx_congr (k := k + 1) (k' := 2) (by omega), ofIdx_congr (k := k) (k' := 1) (by omega)]; revert r; decide
  · rw [ofIdx_congr (k := k + 1) (k' := 0) (by omega), ofIdx_congr (k := k) (k' := 2) (by omega)]; revert r; decide

theorem par_fill (hv : lay.Valid) {R : List (ZMod 2)} {k : Nat} {e : Edge} (he : e ∈ lay.round_edges k) : par (lay.fill R k) k e = lay.wanted R k e := by
  have h1 := dataEdge_eq hv he (Or.inl rfl)
  have h2 := dataEdge_eq hv he (Or.inr rfl)
  have hne : e.right ≠ e.left := fun h => by
    have a := (left_facts hv he).2
    rw [← h, (right_facts hv he).2] at a
    simp at a
  rw [par, fill, fill, h1, h2, if_pos rfl, if_neg hne, anti_zero_left, add_zero, anti_fill]

theorem fillSum_pc3 (hv : lay.Valid) (hp : lay.isPC3 = true) {R : List (ZMod 2)} (k : Nat) : lay.fillSum R k = lay.lastR R k := by
  induction k with
  | zero => rfl
  | succ k ih =>
    funext e
    rw [fillSum, lastR, ih]
    split_ifs with he
    · rw [par_fill hv he, wanted, if_pos hp]
      generalize recAt R _ = a
      generalize lay.lastR R k e = b
      revert a b; decide
    · rw [add_zero]

theorem fill_rec (hv : lay.Valid) {R : List (ZMod 2)} {k : Nat} {e : Edge} (he : e ∈ lay.round_edges k) :
    recAt R (lay.mTime k e) = if lay.isPC3 then lay.fillSum R k e + par (lay.fill R k) k e else par (lay.fill R k) k e := by
  rw [par_fill hv he, wanted]
  split_ifs with hp
  · rw [fillSum_pc3 hv hp]
    generalize recAt R _ = a
    generalize lay.lastR R k e = b
    revert a b; decide
  · rw [add_zero]

theorem RunFrom.glitch_length (hv : lay.Valid) {j : Nat} {c0 c : Edge → ZMod 2} {F0 : PauliOp} {R0 R : List (ZMod 2)} {G : PauliOp} (h0 : R0.length = j * lay.perRound)
    (h : lay.RunFrom j c0 R0 F0 N c R G) : R.length = N * lay.perRound := by
  induction h with
  | start => exact h0
  | step h F' hF ih => rw [List.length_append, ih, List.length_map, perRound_eq hv, Nat.add_mul, Nat.one_mul]

theorem RunFrom.glitch (hv : lay.Valid) {j : Nat} {F0 : PauliOp} {c : Edge → ZMod 2} {R0 R : List (ZMod 2)} {G : PauliOp} (h0 : R0.length = j * lay.perRound)
    (h : lay.RunFrom j (lay.fillSum R0 j) R0 F0 N c R G) :
    j ≤ N ∧ ∃ (Fs : Nat → PauliOp) (cs : Nat → Edge → ZMod 2), Fs N = G ∧ cs N = c ∧ (∀ e, cs 0 e = 0) ∧
      (∀ k : Nat, k < N → ∀ e, cs (k + 1) e = cs k e + if e ∈ lay.round_edges k then par (Fs k) k e else 0) ∧
      (∀ k : Nat, j ≤ k → k < N → ∀ e ∈ lay.round_edges k, ∃ r : ZMod 2, Fs (k + 1) e.left = Fs k e.left + r • (Basis.ofIdx k).pauli ∧
        Fs (k + 1) e.right = Fs k e.right + r • (Basis.ofIdx k).pauli) ∧
      (∀ k : Nat, k < N → ∀ e ∈ lay.round_edges k, recAt R (lay.mTime k e) = if lay.isPC3 then cs k e + par (Fs k) k e else par (Fs k) k e) := by
  induction h with
  | start =>
    refine ⟨le_refl _, fun k => if k < j then lay.fill R0 k else F0, fun k => lay.fillSum R0 k, if_neg (by omega), rfl,
      fun _ => rfl, fun k hk e => ?_, fun k h1 h2 => absurd h1 (by omega), fun k hk e he => ?_⟩
    · simp only [hk, if_true]
      rfl
    · simp only [hk, if_true]
      exact fill_rec hv he
  | @step k c R F h F' hF ih =>
    obtain ⟨hjk, Fs, cs, hk, hc, hc0, hcs, hst, hrec⟩ := ih
    refine ⟨by omega, fun i => if i ≤ k then Fs i else F', fun i => if i ≤ k then cs i else fun e => c e + if e ∈ lay.round_edges k then par F k e else 0,
      by simp, by simp, by simp [hc0], ?_, ?_, ?_⟩
    · intro i hi e
      rcases Nat.lt_or_eq_of_le (show i ≤ k by omega) with hi' | rfl
      · simp only [show i ≤ k by omega, show i + 1 ≤ k by omega, if_true, hcs i hi']
      · simp [hc, hk]
    · intro i hji hi e he
      rcases Nat.lt_or_eq_of_le (show i ≤ k by omega) with hi' | rfl
      · simp only [show i ≤ k by omega, show i + 1 ≤ k by omega, if_true]
        exact hst i hji hi' e he
      · simp only [show ¬ (i + 1 ≤ i) by omega, le_refl, if_true, if_false, hk]
        exact hF e he
    · intro i hi e he
      have hl := h.glitch_length hv h0
      rcases Nat.lt_or_eq_of_le (show i ≤ k by omega) with hi' | rfl
      · simp only [show i ≤ k by omega, if_true]
        rw [recAt_left, hrec i hi' e he]
        rw [hl]
        exact lt_of_lt_of_le (mTime_lt hv he) (Nat.mul_le_mul_right _ (by omega))
      · simp only [le_refl, if_true, hc, hk]
        rw [mTime, ← hl, recAt_right, recAt_map he]

/-- The changes of the frames up to sub-round `j`. -/
def changes (j : Nat) (Fs : Nat → PauliOp) : Nat → PauliOp
  | 0 => Fs 0
  | k + 1 => if k + 1 ≤ j then Fs (k + 1) + Fs k else 0

/-- A run that is clean from sub-round `j` on fires no detector later than `j + 3`. -/
theorem glitch_end (hv : lay.Valid) (hs : lay.Supported) (hN : lay.sub_rounds = N) {j : Nat} {F0 G : PauliOp} {c : Edge → ZMod 2} {R0 R : List (ZMod 2)} (h0 : R0.length = j * lay.perRound)
    (ha : lay.RunFrom j (lay.fillSum R0 j) R0 F0 N c R G) (hG : ∀ p ∈ lay.data_qubit_coords, F (lay.idx p) = G p)
    (h : Runs F (actions (lay.epilogue N)) rec F') :
    (R ++ rec).length = lay.total N ∧ ∀ x ∈ allDets lay N, val (recAt (R ++ rec)) x.2.2 ≠ 0 → x.1 ≤ j + 3 := by
  have h1 : 1 ≤ N := by have := hs.2.2.1; omega
  rw [epilogue] at h
  obtain ⟨r11, r12, S6, g11, g12, rfl⟩ := runs_append_actions h
  rw [actions_nil_of_marks emitFinal_marks] at g12
  obtain ⟨rfl, rfl⟩ := runs_nil g12
  obtain ⟨r13, r14, S5, g13, g14, rfl⟩ := runs_append_actions g11
  obtain ⟨rfl, _, d2, _⟩ := eff_basisChange hv g13
  have hM : actions [Instr.on .M lay.data_qubit_indices] = lay.data_qubit_indices.map fun q => .measure [(.Z, q)] := by
    rw [actions, List.flatMap_cons, List.flatMap_nil, List.append_nil, Instr.actions]
    simp only [Instr.on, Instr.measures]
    rw [show (Instr.qubits ⟨.M, lay.data_qubit_indices.map .q, []⟩) = lay.data_qubit_indices from qubits_on .M _, List.map_map]
    rfl
  rw [hM] at g14
  obtain ⟨e1, _, _⟩ := runs_measure_Z g14
  have hl := ha.glitch_length hv h0
  obtain ⟨hj, Fs, cs, eN, _, c0, hcs, hst, hrec⟩ := ha.glitch hv h0
  have hD : r14 = lay.data_qubit_coords.map fun p => anti (G p) (lay.obsAt N).1.pauli := by
    rw [e1, data_qubit_indices, List.map_map]
    exact List.map_congr_left fun p hp => by rw [Function.comp, d2 p hp, hG p hp]
  simp only [List.nil_append, List.append_nil]
  have hR := recorded_of (D := r14) hv c0 hcs hrec hl (by rw [hD, eN])
  refine ⟨by rw [List.length_append, hl, hD, List.length_map, total], fun x hx hne => ?_⟩
  have ht : lay.FaultyTrajectory N (changes j Fs) Fs := by
    refine ⟨fun p hp => ⟨0, ?_⟩, fun k hk e he => ?_⟩
    · rw [pauli_zero_smul, zero_add, changes]
    · by_cases hkj : k + 1 ≤ j
      · have self : ∀ a b : Pauli, b = a + (b + a) := by decide
        exact ⟨0, by rw [changes, if_pos hkj, pauli_zero_smul, add_zero]; exact self _ _, by
          rw [changes, if_pos hkj, pauli_zero_smul, add_zero]; exact self _ _⟩
      · obtain ⟨r, h1, h2⟩ := hst k (by omega) hk e he
        refine ⟨r, ?_, ?_⟩
        · rw [h1, changes, if_neg hkj]; exact (add_zero _).symm
        · rw [h2, changes, if_neg hkj]; exact (add_zero _).symm
  have hloc : lay.Located (changes j Fs) ((List.range (j + 1)).flatMap fun k => lay.data_qubit_coords.map fun q => (k, q)) := by
    intro k q hq hne
    have hk : k ≤ j := by
      by_contra hc
      obtain ⟨m, rfl⟩ : ∃ m, k = m + 1 := ⟨k - 1, by omega⟩
      rw [changes, if_neg hc] at hne
      exact hne rfl
    exact List.mem_flatMap.2 ⟨k, List.mem_range.2 (by omega), List.mem_map.2 ⟨q, hq, rfl⟩⟩
  obtain ⟨φ, hφ⟩ := allDets_reads hv hs.2.1 h1 hx
  rw [hφ.val _ _ hR] at hne
  obtain ⟨l, hm, hq, hlN, hk⟩ := faults_hits hv hφ _ _ Fs ht hloc hne
  obtain ⟨k, hkr, hm⟩ := List.mem_flatMap.1 hm
  obtain ⟨q, _, rfl⟩ := List.mem_map.1 hm
  have := (faultHits_place hv hq hlN hk).2.1
  have := List.mem_range.1 hkr
  simp only at *
  omega

end HoneycombLayout
end Honeycomb
