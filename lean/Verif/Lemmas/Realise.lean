import Verif.Lemmas.ColumnSampled
import Verif.Lemmas.FaultyStyles
import Verif.Lemmas.Elementary

/-! # Every elementary fault is caused by a fault of the circuit -/

namespace Honeycomb
namespace HoneycombLayout
variable {lay : HoneycombLayout} {F F' : Frame} {rec : List (ZMod 2)} {N : Nat}

/-! ## Late faults -/

/-- No result is flipped before sub-round `j`. -/
def still (lay : HoneycombLayout) (j : Nat) : List (ZMod 2) := List.replicate (j * lay.perRound) 0

theorem recAt_still (n t : Nat) : recAt (List.replicate n 0) t = 0 := by
  rw [recAt, List.getD_eq_getElem?_getD, List.getElem?_replicate]
  split_ifs <;> rfl

theorem RunFrom.late_length (hv : lay.Valid) {j : Nat} {F0 : PauliOp} {c : Edge → ZMod 2} {R : List (ZMod 2)} {G : PauliOp}
    (h : lay.RunFrom j (fun _ => 0) (lay.still j) F0 N c R G) : R.length = N * lay.perRound := by
  induction h with
  | start => rw [still, List.length_replicate]
  | step h F' hF ih => rw [List.length_append, ih, List.length_map, perRound_eq hv, Nat.add_mul, Nat.one_mul]

theorem RunFrom.late (hv : lay.Valid) {j : Nat} {F0 : PauliOp} {c : Edge → ZMod 2} {R : List (ZMod 2)} {G : PauliOp}
    (h : lay.RunFrom j (fun _ => 0) (lay.still j) F0 N c R G) :
    j ≤ N ∧ ∃ (Fs : Nat → PauliOp) (cs : Nat → Edge → ZMod 2), (∀ k < j, Fs k = fun _ => 0) ∧ Fs j = F0 ∧ Fs N = G ∧ cs N = c ∧ (∀ e, cs 0 e = 0) ∧
      (∀ k : Nat, k < N → ∀ e, cs (k + 1) e = cs k e + if e ∈ lay.round_edges k then par (Fs k) k e else 0) ∧
      (∀ k : Nat, j ≤ k → k < N → ∀ e ∈ lay.round_edges k, ∃ r : ZMod 2, Fs (k + 1) e.left = Fs k e.left + r • (Basis.ofIdx k).pauli ∧
        Fs (k + 1) e.right = Fs k e.right + r • (Basis.ofIdx k).pauli) ∧
      (∀ k : Nat, k < N → ∀ e ∈ lay.round_edges k, recAt R (lay.mTime k e) = if lay.isPC3 then cs k e + par (Fs k) k e else par (Fs k) k e) := by
  induction h with
  | start =>
    have z : ∀ (k : Int) e, par (fun _ => 0) k e = 0 := fun k e => by simp only [par, anti_zero_left, add_zero]
    refine ⟨le_refl _, fun k => if k < j then fun _ => 0 else F0, fun _ _ => 0, fun k hk => if_pos hk, if_neg (by omega), if_neg (by omega), rfl,
      fun _ => rfl, fun k hk e => ?_, fun k h1 h2 => absurd h1 (by omega), fun k hk e _ => ?_⟩
    · simp only [hk, if_true, z, ite_self, add_zero]
    · simp only [hk, if_true, z, add_zero, ite_self]
      exact recAt_still _ _
  | @step k c R F h F' hF ih =>
    obtain ⟨hjk, Fs, cs, hz, h0, hk, hc, hc0, hcs, hst, hrec⟩ := ih
    refine ⟨by omega, fun i => if i ≤ k then Fs i else F', fun i => if i ≤ k then cs i else fun e => c e + if e ∈ lay.round_edges k then par F k e else 0,
      fun i hi => by simp only [show i ≤ k by omega, if_true, hz i hi], by simp [hjk, h0], by simp, by simp, by simp [hc0], ?_, ?_, ?_⟩
    · intro i hi e
      rcases Nat.lt_or_eq_of_le (show i ≤ k by omega) with hi' | rfl
      · simp only [show i ≤ k by omega, show i + 1 ≤ k by omega, if_true, hcs i hi']
      · simp [hc, hk]
    · intro i hji hi e he
      rcases Nat.lt_or_eq_of_le (show i ≤ k by omega) with hi' | rfl
      · simp only [show i ≤ k by omega, show i + 1 ≤ k by omega, if_true]
        exact hst i hji hi' e he
      · simp only [show ¬ (i + 1 ≤ i) by omega, le_refl, if_true, if_false, hk]
        exact hF e he
    · intro i hi e he
      have hl := h.late_length hv
      rcases Nat.lt_or_eq_of_le (show i ≤ k by omega) with hi' | rfl
      · simp only [show i ≤ k by omega, if_true]
        rw [recAt_left, hrec i hi' e he]
        rw [hl]
        exact lt_of_lt_of_le (mTime_lt hv he) (Nat.mul_le_mul_right _ (by omega))
      · simp only [le_refl, if_true, hc, hk]
        rw [mTime, ← hl, recAt_right, recAt_map he]

/-- The number of results. -/
def total (lay : HoneycombLayout) (N : Nat) : Nat := N * lay.perRound + lay.data_qubit_coords.length

theorem late_end (hv : lay.Valid) {j : Nat} {q : Pt} {P : Pauli} {F0 G : PauliOp} {c : Edge → ZMod 2} {R : List (ZMod 2)}
    (h0 : ∀ p ∈ lay.data_qubit_coords, F0 p = if p = q then P else 0)
    (ha : lay.RunFrom j (fun _ => 0) (lay.still j) F0 N c R G) (hG : ∀ p ∈ lay.data_qubit_coords, F (lay.idx p) = G p)
    (h : Runs F (actions (lay.epilogue N)) rec F') :
    ∃ Fs, lay.FaultyTrajectory N (oneErr j q P) Fs ∧ lay.Recorded N Fs (recAt (R ++ rec)) ∧ (R ++ rec).length = lay.total N := by
  rw [epilogue] at h
  obtain ⟨r11, r12, S6, g11, g12, rfl⟩ := runs_append_actions h
  rw [actions_nil_of_marks emitFinal_marks] at g12
  obtain ⟨rfl, rfl⟩ := runs_nil g12
  obtain ⟨r13, r14, S5, g13, g14, rfl⟩ := runs_append_actions g11
  obtain ⟨rfl, _, d2, _⟩ := eff_basisChange hv g13
  have hM : actions [Instr.on .M lay.data_qubit_indices] = lay.data_qubit_indices.map fun q => .measure [(.Z, q)] := by
    rw [actions, List.flatMap_cons, List.flatMap_nil, List.append_nil, Instr.actions]
    simp only [Instr.on, Instr.measures]
    rw [show (Instr.qubits ⟨.M, lay.data_qubit_indices.map .q, []⟩) = lay.data_qubit_indices from qubits_on .M _, List.map_map]
    rfl
  rw [hM] at g14
  obtain ⟨e1, _, _⟩ := runs_measure_Z g14
  have hl := ha.late_length hv
  obtain ⟨hj, Fs, cs, hz, hj0, eN, _, c0, hcs, hst, hrec⟩ := ha.late hv
  have hD : r14 = lay.data_qubit_coords.map fun p => anti (G p) (lay.obsAt N).1.pauli := by
    rw [e1, data_qubit_indices, List.map_map]
    exact List.map_congr_left fun p hp => by rw [Function.comp, d2 p hp, hG p hp]
  simp only [List.nil_append, List.append_nil]
  refine ⟨Fs, ⟨fun p hp => ⟨0, ?_⟩, fun k hk e he => ?_⟩, recorded_of hv c0 hcs hrec hl (by rw [hD, eN]), by
    rw [List.length_append, hl, hD, List.length_map, total]⟩
  · rw [pauli_zero_smul, zero_add, oneErr]
    rcases Nat.eq_zero_or_pos j with rfl | h
    · rw [hj0, h0 p hp]; simp
    · rw [hz 0 h, if_neg (by omega)]
  · have hd := edge_ends_data hv (round_edges_subset_all he)
    rcases lt_trichotomy (k + 1) j with h | h | h
    · exact ⟨0, by simp only [hz k (by omega), hz (k + 1) h, pauli_zero_smul, oneErr]; rw [if_neg (by omega)]; rfl, by
        simp only [hz k (by omega), hz (k + 1) h, pauli_zero_smul, oneErr]; rw [if_neg (by omega)]; rfl⟩
    · refine ⟨0, ?_, ?_⟩
      · rw [pauli_zero_smul, hz k (by omega), h, hj0, h0 _ hd.1, oneErr]; simp
      · rw [pauli_zero_smul, hz k (by omega), h, hj0, h0 _ hd.2, oneErr]; simp
    · obtain ⟨r, h1, h2⟩ := hst k (by omega) hk e he
      exact ⟨r, by rw [h1, oneErr, if_neg (by omega), add_zero], by rw [h2, oneErr, if_neg (by omega), add_zero]⟩

/-! ## Where a fault enters -/

/-- The fault `P'` on `q` right before `b`, the rest of the circuit, acts like the fault `P` on `q` before sub-round `j`. -/
def Enters (lay : HoneycombLayout) (N j : Nat) (q : Pt) (P P' : Pauli) (b : List Instr) : Prop :=
  ∃ n : Nat, ∀ rec S', Runs (Frame.mul (fun _ => 0) (lay.idx q) P') (actions b) rec S' →
    ∃ Fs, lay.FaultyTrajectory N (oneErr j q P) Fs ∧ lay.Recorded N Fs (recAt (List.replicate n 0 ++ rec)) ∧ n + rec.length = lay.total N

theorem enters_of (hv : lay.Valid) {j : Nat} {q : Pt} {P : Pauli} {B : List Instr} {F0 : PauliOp} (h0 : ∀ p ∈ lay.data_qubit_coords, F0 p = if p = q then P else 0)
    (P' : Pauli) (n : Nat) (h : ∀ rec S', Runs (Frame.mul (fun _ => 0) (lay.idx q) P') (actions B) rec S' →
      ∃ c G, lay.RunFrom j (fun _ => 0) (lay.still j) F0 N c (List.replicate n 0 ++ rec) G ∧ ∀ p ∈ lay.data_qubit_coords, S' (lay.idx p) = G p) :
    lay.Enters N j q P P' (B ++ lay.epilogue N) := by
  refine ⟨n, fun rec S' hr => ?_⟩
  obtain ⟨r1, r2, S1, g1, g2, rfl⟩ := runs_append_actions hr
  obtain ⟨c, G, a, hG⟩ := h r1 S1 g1
  obtain ⟨Fs, ht, hrec, hl⟩ := late_end hv h0 a hG g2
  rw [List.append_assoc] at hrec hl
  exact ⟨Fs, ht, hrec, by rw [← hl]; simp only [List.length_append, List.length_replicate]⟩

/-! ## The frame of one fault -/

theorem one_data (hv : lay.Valid) {q p : Pt} (hq : q ∈ lay.data_qubit_coords) (hp : p ∈ lay.data_qubit_coords) (P : Pauli) :
    Frame.mul (fun _ => 0) (lay.idx q) P (lay.idx p) = if p = q then P else 0 := by
  rw [Frame.mul, zero_add]
  refine if_congr ⟨fun h => idx_inj hv (data_class hp).1 (data_class hq).1 h, fun h => by rw [h]⟩ rfl rfl

theorem one_center (hv : lay.Valid) {q : Pt} (hq : q ∈ lay.data_qubit_coords) (P : Pauli) {k : Int} {e : Edge} (he : e ∈ lay.round_edges k) :
    Frame.mul (fun _ => 0) (lay.idx q) P (lay.idx e.center) = 0 := by
  rw [Frame.mul, if_neg (center_not_data hv he hq)]

theorem rotN_none (n : Int) : rotN n 0 = 0 := by
  rw [rotN]; split_ifs <;> rfl

/-! ## At the start and at the end -/

theorem enters_start (hv : lay.Valid) (hs : lay.Supported) (hN : lay.sub_rounds = N) {q : Pt} (hq : q ∈ lay.data_qubit_coords) (P : Pauli) :
    lay.Enters N 0 q P P (lay.allRounds N ++ lay.epilogue N) := by
  refine enters_of hv (F0 := lay.pos (Frame.mul (fun _ => 0) (lay.idx q) P)) (fun p hp => one_data hv hq hp P) P 0 fun rec S' h => ?_
  obtain ⟨c, G, a, hG⟩ := rounds_run hv hs hN (fun _ j e he => by rw [one_center hv hq P he]; rfl) h
  refine ⟨c, G, ?_, hG⟩
  rw [still, Nat.zero_mul]
  exact a

theorem enters_end (hv : lay.Valid) {q : Pt} (hq : q ∈ lay.data_qubit_coords) (P : Pauli) : lay.Enters N N q P P (lay.epilogue N) := by
  have := enters_of (N := N) (j := N) (B := []) hv (F0 := lay.pos (Frame.mul (fun _ => 0) (lay.idx q) P)) (fun p hp => one_data hv hq hp P) P (N * lay.perRound)
    fun rec S' h => by
      obtain ⟨rfl, rfl⟩ := runs_nil h
      exact ⟨_, _, by rw [List.append_nil]; exact .start, fun p _ => rfl⟩
  simpa using this

/-! ## EM3 -/

theorem range_split {α : Type} (f : Nat → List α) (a b : Nat) : (List.range (a + b)).flatMap f = (List.range a).flatMap f ++ (List.range b).flatMap fun i => f (a + i) := by
  rw [List.range_add, List.flatMap_append, List.flatMap_map]

theorem em3_more (hv : lay.Valid) (he : lay.isEM3 = true) (hp : lay.isPC3 = false) {k0 : Nat} {c0 : Edge → ZMod 2} {R0 : List (ZMod 2)} {F0 : PauliOp} {k M : Nat}
    {S S' : Frame} {c : Edge → ZMod 2} {R : List (ZMod 2)} (ha : lay.RunFrom k0 c0 R0 F0 k c R (lay.pos S))
    (h : Runs S (actions ((List.range M).flatMap fun i => lay.em3Emit (k + i))) rec S') :
    ∃ c, lay.RunFrom k0 c0 R0 F0 (k + M) c (R ++ rec) (lay.pos S') := by
  induction M generalizing rec S' with
  | zero =>
    obtain ⟨rfl, rfl⟩ := runs_nil h
    exact ⟨c, by rwa [List.append_nil]⟩
  | succ M ih =>
    rw [range_succ_flatMap] at h
    obtain ⟨r1, r2, F1, h1, h2, rfl⟩ := runs_append_actions h
    obtain ⟨c, a⟩ := ih h1
    obtain ⟨e, st⟩ := em3_step hv he h2
    obtain ⟨c', a'⟩ := a.step' hp _ st
    exact ⟨c', by rw [e, ← List.append_assoc]; exact a'⟩

theorem enters_em3 (hv : lay.Valid) (he : lay.isEM3 = true) (hp : lay.isPC3 = false) {j M : Nat} {q : Pt} (hq : q ∈ lay.data_qubit_coords) (P : Pauli) :
    lay.Enters (j + M) j q P P (((List.range M).flatMap fun i => lay.em3Emit (j + i)) ++ lay.epilogue (j + M)) := by
  refine enters_of hv (F0 := lay.pos (Frame.mul (fun _ => 0) (lay.idx q) P)) (fun p hp => one_data hv hq hp P) P (j * lay.perRound) fun rec S' h => ?_
  obtain ⟨c, a⟩ := em3_more hv he hp (RunFrom.start (k0 := j) (c0 := fun _ => 0) (R0 := lay.still j)) h
  exact ⟨c, _, a, fun p _ => rfl⟩

/-! ## SD6 -/

theorem enters_sd6 (hv : lay.Valid) (he : lay.isEM3 = false) (hp : lay.isPC3 = false) {j M : Nat} (hN : lay.sub_rounds = (j + M + 2 : Nat)) {q : Pt}
    (hq : q ∈ lay.data_qubit_coords) :
    lay.Enters (j + M + 2) j q (Basis.ofIdx j).pauli (rotN (if dataQubitParity q then (j : Int) + 1 else (j : Int) + 2) (Basis.ofIdx j).pauli)
      (((List.range M).flatMap fun i => lay.sd6Emit (j + i)) ++ lay.sd6EndEmit (j + M + 2) ++ lay.sd6Realign ++ lay.epilogue (j + M + 2)) := by
  refine enters_of hv (F0 := fun p => if p = q then (Basis.ofIdx j).pauli else 0) (fun p hp => rfl)
    (rotN (if dataQubitParity q then (j : Int) + 1 else (j : Int) + 2) (Basis.ofIdx j).pauli) (j * lay.perRound) fun rec S' h => ?_
  obtain ⟨r1, r2, S2, g1, g2, rfl⟩ := runs_append_actions h
  obtain ⟨r3, r4, S1, g3, g4, rfl⟩ := runs_append_actions g1
  obtain ⟨c, G, a, l, x⟩ := sd6_more hv he hp (RunFrom.start (lay := lay) (k0 := j) (c0 := fun _ => 0) (R0 := lay.still j) (F0 := fun p => if p = q then (Basis.ofIdx j).pauli else 0)) (by
    constructor
    · intro e hm
      obtain ⟨f1, f2⟩ := left_facts hv hm
      rw [one_center hv hq _ hm, one_data hv hq f1]
      have : (0 : Pauli).2 = 0 := rfl
      rw [this, pauli_zero_smul, add_zero]
      by_cases hl : e.left = q
      · rw [if_pos hl, if_pos hl, ← hl, f2]; rfl
      · rw [if_neg hl, if_neg hl, rotN_none]
    · intro p hp hb
      rw [one_data hv hq hp]
      by_cases hl : p = q
      · rw [if_pos hl, if_pos hl, ← hl, hb]; rfl
      · rw [if_neg hl, if_neg hl, rotN_none]
    · intro e hm
      rw [one_center hv hq _ hm]
      by_cases hl : e.left = q
      · rw [if_pos hl, anti_same]; rfl
      · rw [if_neg hl, anti_zero_left]; rfl) (fun e hm => by rw [one_center hv hq _ hm]; rfl) g3
  obtain ⟨c', G', a', e'⟩ := sd6_end hv he hp a l x g4
  obtain ⟨rfl, e7⟩ := sd6_realign hv hN (by push_cast at e' ⊢; exact e') g2
  refine ⟨c', G', ?_, e7⟩
  simpa only [still, List.append_nil, List.append_assoc] using a'

/-! ## PC3 -/

theorem enters_pc3 (hv : lay.Valid) (he : lay.isEM3 = false) (hp : lay.isPC3 = true) {j M : Nat} {q : Pt} (hq : q ∈ lay.data_qubit_coords) :
    lay.Enters (j + M + 1) j q (Basis.ofIdx j).pauli (Basis.ofIdx j).pauli
      (((List.range M).flatMap fun i => lay.pc3Emit (j + M + 1) (j + 1 + i)) ++
        (lay.pc3Emit (j + M + 1) (j + M + 1) ++ lay.pc3Emit (j + M + 1) (j + M + 1 + 1) ++ lay.pc3ObsEmit (j + M + 1)) ++ lay.epilogue (j + M + 1)) := by
  refine enters_of hv (F0 := fun p => if p = q then (Basis.ofIdx j).pauli else 0) (fun p hp => rfl)
    (Basis.ofIdx j).pauli ((j - 1) * lay.perRound) fun rec S' h => ?_
  obtain ⟨r1, r2, S1, g1, g2, rfl⟩ := runs_append_actions h
  obtain ⟨c, R, G, a, l⟩ := pc3_more hv he hp (N := j + M + 1) (r := List.replicate ((j - 1) * lay.perRound) 0) (by omega)
    (RunFrom.start (lay := lay) (k0 := j) (c0 := fun _ => 0) (R0 := lay.still j) (F0 := fun p => if p = q then (Basis.ofIdx j).pauli else 0)) (by
    constructor
    · intro e hm
      obtain ⟨f1, f2⟩ := left_facts hv hm
      rw [one_center hv hq _ hm, one_data hv hq f1]
      have : (0 : Pauli).2 = 0 := rfl
      rw [this, pauli_zero_smul, add_zero]
    · exact fun p hp _ => one_data hv hq hp _
    · intro e hm
      rw [one_center hv hq _ hm]
      by_cases hl : e.left = q
      · rw [if_pos hl, anti_same]; rfl
      · rw [if_neg hl, anti_zero_left]; rfl
    · exact fun e hm => by rw [one_center hv hq _ hm]; rfl
    · exact fun e hm => by rw [one_center hv hq _ hm]; rfl
    · exact fun _ _ => rfl
    · rcases Nat.eq_zero_or_pos j with rfl | hj
      · exact Or.inl ⟨rfl, by rw [still, Nat.zero_mul]⟩
      · refine Or.inr ⟨hj, ?_⟩
        rw [still, List.map_const', perRound_eq hv, List.replicate_append_replicate, ← Nat.succ_mul]
        congr 2
        omega) g1
  obtain ⟨c', G', a', e'⟩ := pc3_last hv he hp a l g2
  exact ⟨c', G', by rw [← List.append_assoc]; exact a', e'⟩

/-! ## SI1000 -/

theorem enters_si (hv : lay.Valid) (he : lay.isEM3 = false) (hp : lay.isPC3 = false) {k M : Nat} (hk : 0 < k) {q : Pt} (hq : q ∈ lay.data_qubit_coords) (P : Pauli) :
    lay.Enters (3 * (k + M)) (3 * k) q P P (((List.range M).flatMap fun i => lay.si1000Emit (k + i)) ++ lay.epilogue (3 * (k + M))) := by
  refine enters_of hv (F0 := lay.pos (Frame.mul (fun _ => 0) (lay.idx q) P)) (fun p hp => one_data hv hq hp P) P (3 * k * lay.perRound) fun rec S' h => ?_
  obtain ⟨c, G, a, l⟩ := si_more hv he hp hk
    (RunFrom.start (lay := lay) (k0 := 3 * k) (c0 := fun _ => 0) (R0 := lay.still (3 * k)) (F0 := lay.pos (Frame.mul (fun _ => 0) (lay.idx q) P)))
    ⟨fun p _ _ => by rw [rotN_zero (by decide)]; rfl, fun p _ _ => by rw [rotN_zero (by decide)]; rfl⟩ h
  exact ⟨c, G, a, l.eq⟩

theorem enters_si_mid (hv : lay.Valid) (he : lay.isEM3 = false) (hp : lay.isPC3 = false) {k M : Nat} {q : Pt} (hq : q ∈ lay.data_qubit_coords) :
    lay.Enters (3 * (k + 1 + M)) (3 * k + 1) q (Basis.ofIdx 1).pauli (rotN (if dataQubitParity q then 1 else 2) (Basis.ofIdx 1).pauli)
      (lay.si1000Layer 1 ++ lay.siPost k ++ ((List.range M).flatMap fun i => lay.si1000Emit (k + 1 + i)) ++ lay.epilogue (3 * (k + 1 + M))) := by
  refine enters_of hv (F0 := fun p => if p = q then (Basis.ofIdx 1).pauli else 0) (fun p hp => rfl)
    (rotN (if dataQubitParity q then 1 else 2) (Basis.ofIdx 1).pauli) (3 * k * lay.perRound) fun rec S' h => ?_
  obtain ⟨r1, r2, S2, g1, g2, rfl⟩ := runs_append_actions h
  obtain ⟨r3, r4, S1, g3, g4, rfl⟩ := runs_append_actions g1
  have hl : lay.SiLink (1 + 1) 1 (Frame.mul (fun _ => 0) (lay.idx q) (rotN (if dataQubitParity q then 1 else 2) (Basis.ofIdx 1).pauli))
      (fun p => if p = q then (Basis.ofIdx 1).pauli else 0) := by
    constructor
    · intro p hp hb
      rw [one_data hv hq hp]
      by_cases hl : p = q
      · rw [if_pos hl, if_pos hl, ← hl, hb]; rfl
      · rw [if_neg hl, if_neg hl, rotN_none]
    · intro p hp hb
      rw [one_data hv hq hp]
      by_cases hl : p = q
      · rw [if_pos hl, if_pos hl, ← hl, hb]; rfl
      · rw [if_neg hl, if_neg hl, rotN_none]
  obtain ⟨rfl, G1, l1, st1, v1, o1⟩ := si_layer hv (by decide) hl (fun e hm => by rw [one_center hv hq _ hm]; rfl) g3
  rw [if_pos (by decide)] at l1
  obtain ⟨e2, G2, l2, st2⟩ := si_post hv he l1 (fun e hm => by rw [o1 2 (by decide) e hm, one_center hv hq _ hm]; rfl) g4
  have cg : ∀ i : Nat, lay.round_edges ((3 * k + i : Nat) : Int) = lay.round_edges (i : Int) := fun i => round_edges_congr lay (by omega)
  have bg : ∀ i : Nat, Basis.ofIdx ((3 * k + i : Nat) : Int) = Basis.ofIdx (i : Int) := fun i => ofIdx_congr (by omega)
  obtain ⟨c1, a1⟩ := (RunFrom.start (lay := lay) (k0 := 3 * k + 1) (c0 := fun _ => 0) (R0 := lay.still (3 * k + 1))
    (F0 := fun p => if p = q then (Basis.ofIdx 1).pauli else 0)).step' hp G1 (fun e hm => by
      rw [bg 1]; exact st1 e (by rw [cg 1] at hm; exact hm))
  obtain ⟨c2, a2⟩ := a1.step' hp G2 (fun e hm => by
      rw [bg 2]; exact st2 e (by rw [cg 2] at hm; exact hm))
  have f0 : lay.still (3 * k + 1) = List.replicate (3 * k * lay.perRound) 0 ++ (lay.round_edges 0).map (fun e => (S1 (lay.idx e.center)).2) := by
    rw [List.map_congr_left (g := fun _ => (0 : ZMod 2)) fun e hm => by rw [o1 0 (by decide) e hm, one_center hv hq _ hm]; rfl, List.map_const',
      perRound_eq hv, List.replicate_append_replicate, ← Nat.succ_mul, still]
  have f1 : (lay.round_edges ((3 * k + 1 : Nat) : Int)).map (par (fun p => if p = q then (Basis.ofIdx 1).pauli else 0) ((3 * k + 1 : Nat) : Int)) =
      (lay.round_edges 1).map (fun e => (S1 (lay.idx e.center)).2) := by
    rw [cg 1]
    exact List.map_congr_left fun e hm => by rw [v1 e hm]; exact par_congr (by omega) _ _
  have f2 : (lay.round_edges ((3 * k + 1 + 1 : Nat) : Int)).map (par G1 ((3 * k + 1 + 1 : Nat) : Int)) = (lay.round_edges 2).map (par G1 2) := by
    rw [cg 2]
    exact List.map_congr_left fun e hm => par_congr (by omega) _ _
  have a3 : lay.RunFrom (3 * k + 1) (fun _ => 0) (lay.still (3 * k + 1)) (fun p => if p = q then (Basis.ofIdx 1).pauli else 0) (3 * (k + 1)) c2
      (List.replicate (3 * k * lay.perRound) 0 ++ r4) G2 := by
    rw [e2, ← f1, ← f2, ← List.append_assoc, ← f0, ← List.append_assoc]
    exact a2
  obtain ⟨c, G, a, l⟩ := si_more hv he hp (by omega) a3 l2 g2
  exact ⟨c, G, by simpa only [List.nil_append, List.append_assoc] using a, l.eq⟩

end HoneycombLayout
end Honeycomb
