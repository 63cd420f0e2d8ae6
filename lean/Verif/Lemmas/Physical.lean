import Verif.Lemmas.Abstract2
import Verif.Lemmas.Frame

/-! The effect of each instruction of a generated circuit on the frame. -/

namespace Honeycomb
namespace HoneycombLayout
variable {lay : HoneycombLayout} {F F' : Frame} {rec : List (ZMod 2)}

theorem Covers.not_mem (hv : lay.Valid) {cs l : List Nat} (h : lay.Covers cs l) {q : Pt} (hq : q ∈ qubitOrder lay) (hc : lay.ptClass q ∉ cs) :
    lay.idx q ∉ l := by
  intro hm
  obtain ⟨p, hp, e, h'⟩ := h.2 _ hm
  rw [idx_inj hv hp hq e] at h'
  exact hc h'

/-- `C_ZYX` on Paulis: Z → Y → X → Z. -/
def rot (p : Pauli) : Pauli := (p.2, p.1 + p.2)

/-- Repeated `C_ZYX`. -/
def rotN (n : Int) (p : Pauli) : Pauli := if n % 3 = 0 then p else if n % 3 = 1 then rot p else rot (rot p)

theorem rotN_congr {n n' : Int} (h : n % 3 = n' % 3) (p : Pauli) : rotN n p = rotN n' p := by rw [rotN, rotN, h]

theorem rot_rotN (n : Int) (p : Pauli) : rot (rotN n p) = rotN (n + 1) p := by
  have h : n % 3 = 0 ∨ n % 3 = 1 ∨ n % 3 = 2 := by omega
  rcases h with h | h | h
  · rw [rotN_congr (n' := 0) (by omega), rotN_congr (n := n + 1) (n' := 1) (by omega)]; revert p; decide
  · rw [rotN_congr (n' := 1) (by omega), rotN_congr (n := n + 1) (n' := 2) (by omega)]; revert p; decide
  · rw [rotN_congr (n' := 2) (by omega), rotN_congr (n := n + 1) (n' := 0) (by omega)]; revert p; decide

theorem rotN_rotN (m n : Int) (p : Pauli) : rotN m (rotN n p) = rotN (m + n) p := by
  have h : m % 3 = 0 ∨ m % 3 = 1 ∨ m % 3 = 2 := by omega
  rcases h with h | h | h
  · rw [rotN, if_pos h]; exact rotN_congr (by omega) p
  · rw [rotN, if_neg (by omega), if_pos h, rot_rotN]; exact rotN_congr (by omega) p
  · rw [rotN, if_neg (by omega), if_neg (by omega), rot_rotN, rot_rotN]; exact rotN_congr (by omega) p

theorem rotN_zero {n : Int} (h : n % 3 = 0) (p : Pauli) : rotN n p = p := by rw [rotN, if_pos h]

theorem rotN_inv (n : Int) (p : Pauli) : rotN n (rotN (-n) p) = p := by rw [rotN_rotN, rotN_zero (by omega)]

/-- After `k + 1` rotations the basis of sub-round `k` is Z. -/
theorem rotN_fst (k : Int) (p : Pauli) : (rotN (k + 1) p).1 = anti p (Basis.ofIdx k).pauli := by
  have h : k % 3 = 0 ∨ k % 3 = 1 ∨ k % 3 = 2 := by omega
  rcases h with h | h | h
  · rw [rotN_congr (n' := 1) (by omega), ofIdx_congr (k' := 0) (by omega)]; revert p; decide
  · rw [rotN_congr (n' := 2) (by omega), ofIdx_congr (k' := 1) (by omega)]; revert p; decide
  · rw [rotN_congr (n' := 0) (by omega), ofIdx_congr (k' := 2) (by omega)]; revert p; decide

theorem rotN_add (k : Int) (p : Pauli) (r : ZMod 2) : rotN (k + 1) p + r • Basis.Z.pauli = rotN (k + 1) (p + r • (Basis.ofIdx k).pauli) := by
  have h : k % 3 = 0 ∨ k % 3 = 1 ∨ k % 3 = 2 := by omega
  rcases h with h | h | h
  · rw [rotN_congr (n' := 1) (by omega), rotN_congr (n := k + 1) (n' := 1) (by omega), ofIdx_congr (k' := 0) (by omega)]; revert p r; decide
  · rw [rotN_congr (n' := 2) (by omega), rotN_congr (n := k + 1) (n' := 2) (by omega), ofIdx_congr (k' := 1) (by omega)]; revert p r; decide
  · rw [rotN_congr (n' := 0) (by omega), rotN_congr (n := k + 1) (n' := 0) (by omega), ofIdx_congr (k' := 2) (by omega)]; revert p r; decide

theorem runs_tick (h : Runs F (actions [.tick]) rec F') : rec = [] ∧ F' = F := runs_nil h

theorem actions_nil_of_marks {l : List Instr} (h : ∀ i ∈ l, isMark i = true) : actions l = [] := by
  rw [actions, List.flatMap_eq_nil_iff]
  intro i hi
  rcases (isMark_iff i).1 (h i hi) with e | e | e <;> simp [Instr.actions, e]

theorem actions_emitMD (he : lay.isEM3 = false) (k : Nat) :
    actions (lay.emitMD k) = ((lay.round_edges k).map fun e => lay.idx e.center).map fun q => .measure [(.Z, q)] := by
  rw [emitMD, actions_append, actions_nil_of_marks (emitAnn_marks k), List.append_nil, emitMeas, if_neg (by simp [he])]
  simp [actions, Instr.actions, Instr.measures, Instr.on, Instr.qubits, List.filterMap_map, Function.comp_def, Target.qubit?]

/-- The frame is the same on the centers of the edges of colour `j`. -/
def SameC (lay : HoneycombLayout) (F F' : Frame) (j : Int) : Prop := ∀ e ∈ lay.round_edges j, F' (lay.idx e.center) = F (lay.idx e.center)

/-- The frame is the same on all data qubits with parity `b`. -/
def SameD (lay : HoneycombLayout) (F F' : Frame) (b : Bool) : Prop :=
  ∀ q ∈ lay.data_qubit_coords, dataQubitParity q = b → F' (lay.idx q) = F (lay.idx q)

theorem data_class' {q : Pt} {b : Bool} (hq : q ∈ lay.data_qubit_coords) (hb : dataQubitParity q = b) :
    q ∈ qubitOrder lay ∧ lay.ptClass q = if b then 1 else 0 := by
  have := data_class hq
  rwa [hb] at this

theorem sameD_of (hv : lay.Valid) {cs l : List Nat} (hc : lay.Covers cs l) (h : ∀ q, q ∉ l → F' q = F q) {b : Bool}
    (hb : (if b then 1 else 0) ∉ cs) : lay.SameD F F' b := by
  intro q hq hp
  obtain ⟨h1, h2⟩ := data_class' hq hp
  exact h _ (hc.not_mem hv h1 (by rw [h2]; exact hb))

theorem sameC_of (hv : lay.Valid) {cs l : List Nat} (hc : lay.Covers cs l) (h : ∀ q, q ∉ l → F' q = F q) {j : Int}
    (hj : cc j ∉ cs) : lay.SameC F F' j := by
  intro e he
  obtain ⟨h1, h2⟩ := center_class hv he
  exact h _ (hc.not_mem hv h1 (by rw [h2]; exact hj))

theorem run_clifford {g : Gate} {f : Pauli → Pauli} {qs : List Nat} (hg : (Instr.on g qs).actions = qs.map (.clifford1 f)) (hn : qs.Nodup)
    (h : Runs F (actions [.on g qs]) rec F') : rec = [] ∧ (∀ q ∈ qs, F' q = f (F q)) ∧ ∀ q, q ∉ qs → F' q = F q := by
  rw [actions, List.flatMap_cons, List.flatMap_nil, List.append_nil, hg] at h
  obtain ⟨e, h⟩ := runs_clifford1 hn h
  exact ⟨e, fun q hq => by rw [h, if_pos hq], fun q hq => by rw [h, if_neg hq]⟩

theorem actions_C_ZYX (qs : List Nat) : (Instr.on .C_ZYX qs).actions = qs.map (.clifford1 rot) := by
  rw [Instr.actions]; simp only [Instr.on]; exact congrArg _ (qubits_on .C_ZYX qs)

theorem actions_C_XYZ (qs : List Nat) : (Instr.on .C_XYZ qs).actions = qs.map (.clifford1 (rotN 2)) := by
  rw [Instr.actions]; simp only [Instr.on]
  have : (fun p : Pauli => (p.1 + p.2, p.1)) = rotN 2 := by funext p; revert p; decide
  rw [this]; exact congrArg _ (qubits_on .C_XYZ qs)

theorem actions_H (qs : List Nat) : (Instr.on .H qs).actions = qs.map (.clifford1 fun p => (p.2, p.1)) := by
  rw [Instr.actions]; simp only [Instr.on]; exact congrArg _ (qubits_on .H qs)

theorem actions_H_YZ (qs : List Nat) : (Instr.on .H_YZ qs).actions = qs.map (.clifford1 fun p => (p.1 + p.2, p.2)) := by
  rw [Instr.actions]; simp only [Instr.on]; exact congrArg _ (qubits_on .H_YZ qs)

theorem mem_1st {q : Pt} (hq : q ∈ lay.data_qubit_coords) (hp : dataQubitParity q = false) : lay.idx q ∈ lay.data_qubit_indices_1st :=
  List.mem_map_of_mem (List.mem_filter.2 ⟨hq, by simp [hp]⟩)

theorem mem_2nd {q : Pt} (hq : q ∈ lay.data_qubit_coords) (hp : dataQubitParity q = true) : lay.idx q ∈ lay.data_qubit_indices_2nd :=
  List.mem_map_of_mem (List.mem_filter.2 ⟨hq, by simp [hp]⟩)

theorem mem_data {q : Pt} (hq : q ∈ lay.data_qubit_coords) : lay.idx q ∈ lay.data_qubit_indices := List.mem_map_of_mem hq

/-- A Clifford on the first half of the data qubits. -/
theorem eff_1st (hv : lay.Valid) (h : Runs F (actions [.on .C_ZYX lay.data_qubit_indices_1st]) rec F') :
    rec = [] ∧ (∀ q ∈ lay.data_qubit_coords, dataQubitParity q = false → F' (lay.idx q) = rot (F (lay.idx q))) ∧
    lay.SameD F F' true ∧ ∀ j, lay.SameC F F' j := by
  obtain ⟨e, h1, h2⟩ := run_clifford (actions_C_ZYX _) (covers_1st hv).1 h
  exact ⟨e, fun q hq hp => h1 _ (mem_1st hq hp), sameD_of hv (covers_1st hv) h2 (by simp),
    fun j => sameC_of hv (covers_1st hv) h2 (by simp [(cc_ne j).1])⟩

theorem eff_2nd (hv : lay.Valid) (h : Runs F (actions [.on .C_ZYX lay.data_qubit_indices_2nd]) rec F') :
    rec = [] ∧ (∀ q ∈ lay.data_qubit_coords, dataQubitParity q = true → F' (lay.idx q) = rot (F (lay.idx q))) ∧
    lay.SameD F F' false ∧ ∀ j, lay.SameC F F' j := by
  obtain ⟨e, h1, h2⟩ := run_clifford (actions_C_ZYX _) (covers_2nd hv).1 h
  exact ⟨e, fun q hq hp => h1 _ (mem_2nd hq hp), sameD_of hv (covers_2nd hv) h2 (by simp),
    fun j => sameC_of hv (covers_2nd hv) h2 (by simp [(cc_ne j).2])⟩

/-- A Clifford on all data qubits. -/
theorem eff_data (hv : lay.Valid) {g : Gate} {f : Pauli → Pauli}
    (hg : (Instr.on g lay.data_qubit_indices).actions = lay.data_qubit_indices.map (.clifford1 f))
    (h : Runs F (actions [.on g lay.data_qubit_indices]) rec F') :
    rec = [] ∧ (∀ q ∈ lay.data_qubit_coords, F' (lay.idx q) = f (F (lay.idx q))) ∧ ∀ j, lay.SameC F F' j := by
  obtain ⟨e, h1, h2⟩ := run_clifford hg (covers_data hv).1 h
  exact ⟨e, fun q hq => h1 _ (mem_data hq), fun j => sameC_of hv (covers_data hv) h2 (by simp [(cc_ne j).1, (cc_ne j).2])⟩

theorem mem_measure {j : Int} {e : Edge} (he : e ∈ lay.round_edges j) : lay.idx e.center ∈ lay.measure_qubit_indices :=
  List.mem_map_of_mem (mem_measure_qubit_coords.2 ⟨e, round_edges_subset_all he, rfl⟩)

/-- Hadamards on all measurement qubits. -/
theorem eff_H (hv : lay.Valid) (h : Runs F (actions [.on .H lay.measure_qubit_indices]) rec F') :
    rec = [] ∧ (∀ b, lay.SameD F F' b) ∧ ∀ j, ∀ e ∈ lay.round_edges j, F' (lay.idx e.center) = ((F (lay.idx e.center)).2, (F (lay.idx e.center)).1) := by
  obtain ⟨e, h1, h2⟩ := run_clifford (actions_H _) (covers_measure hv).1 h
  exact ⟨e, fun b => sameD_of hv (covers_measure hv) h2 (by cases b <;> simp), fun j e he => h1 _ (mem_measure he)⟩

theorem actions_R (qs : List Nat) : actions [Instr.on .R qs] = qs.map (.reset .Z) := by
  rw [actions, List.flatMap_cons, List.flatMap_nil, List.append_nil, Instr.actions]; simp only [Instr.on]
  exact congrArg _ (qubits_on .R qs)

/-- Resets of the measurement qubits of a sub-round. -/
theorem eff_resets (hv : lay.Valid) {k : Int} (h : Runs F (actions (lay.subRoundResets k)) rec F') :
    rec = [] ∧ (∀ e ∈ lay.round_edges k, (F' (lay.idx e.center)).1 = 0) ∧ (∀ b, lay.SameD F F' b) ∧
    ∀ j, j % 3 ≠ k % 3 → lay.SameC F F' j := by
  rw [subRoundResets, actions_R] at h
  obtain ⟨e, h1, h2⟩ := runs_reset h
  refine ⟨e, fun e he => ?_, fun b => sameD_of hv (covers_centers hv k) h2 (by cases b <;> simp [Ne.symm (cc_ne k).1, Ne.symm (cc_ne k).2]),
    fun j hj => sameC_of hv (covers_centers hv k) h2 (by simp [cc_inj hj])⟩
  obtain ⟨r, hr⟩ := h1 (lay.idx e.center) (List.mem_map.2 ⟨e, he, rfl⟩)
  rw [hr, smul_Z_fst]

theorem eff_resetAll (hv : lay.Valid) (h : Runs F (actions [.on .R lay.measure_qubit_indices]) rec F') :
    rec = [] ∧ (∀ j, ∀ e ∈ lay.round_edges j, (F' (lay.idx e.center)).1 = 0) ∧ ∀ b, lay.SameD F F' b := by
  rw [actions_R] at h
  obtain ⟨e, h1, h2⟩ := runs_reset h
  refine ⟨e, fun j e he => ?_, fun b => sameD_of hv (covers_measure hv) h2 (by cases b <;> simp)⟩
  obtain ⟨r, hr⟩ := h1 (lay.idx e.center) (mem_measure he)
  rw [hr, smul_Z_fst]

/-- The measurements of a sub-round. -/
theorem eff_md (hv : lay.Valid) (he : lay.isEM3 = false) {k : Nat} (h : Runs F (actions (lay.emitMD k)) rec F') :
    rec = (lay.round_edges k).map (fun e => (F (lay.idx e.center)).1) ∧ (∀ b, lay.SameD F F' b) ∧
    (∀ q, (F' q).1 = (F q).1) ∧ ∀ j, j % 3 ≠ (k : Int) % 3 → lay.SameC F F' j := by
  rw [actions_emitMD he] at h
  obtain ⟨e, h1, h2⟩ := runs_measure_Z h
  refine ⟨by rw [e, List.map_map]; rfl, fun b => sameD_of hv (covers_centers hv k) h2
    (by cases b <;> simp [Ne.symm (cc_ne k).1, Ne.symm (cc_ne k).2]), h1, fun j hj => sameC_of hv (covers_centers hv k) h2 (by simp [cc_inj hj])⟩

/-- Controlled gates. -/
def ctrlGate (P : Basis) : Gate := basisCX P

theorem actions_ctrl {g : Gate} {P Q : Basis} (hg : (g = .CZ ∧ P = .Z ∧ Q = .Z) ∨ (g = basisCX P ∧ Q = .X)) (l : List Edge) (f g' : Edge → Nat) :
    actions [Instr.on g (l.flatMap fun e => [f e, g' e])] = (l.map fun e => (f e, g' e)).map fun x => .control P Q x.1 x.2 := by
  rw [actions, List.flatMap_cons, List.flatMap_nil, List.append_nil, Instr.actions, qubits_on, pairs_targets]
  rcases hg with ⟨rfl, rfl, rfl⟩ | ⟨rfl, rfl⟩
  · rfl
  · cases P <;> rfl

/-- Controlled gates between the left ends and the centers of a sub-round's edges. -/
theorem eff_left (hv : lay.Valid) {g : Gate} {P Q : Basis} (hg : (g = .CZ ∧ P = .Z ∧ Q = .Z) ∨ (g = basisCX P ∧ Q = .X)) {k : Int}
    (h : Runs F (actions [.on g (lay.leftTargets (lay.round_edges k))]) rec F') :
    rec = [] ∧ (∀ e ∈ lay.round_edges k,
      F' (lay.idx e.left) = F (lay.idx e.left) + anti (F (lay.idx e.center)) Q.pauli • P.pauli ∧
      F' (lay.idx e.center) = F (lay.idx e.center) + anti (F (lay.idx e.left)) P.pauli • Q.pauli) ∧
    lay.SameD F F' true ∧ ∀ j, j % 3 ≠ k % 3 → lay.SameC F F' j := by
  have hc := covers_left hv k
  rw [leftTargets] at h hc
  rw [actions_ctrl hg] at h
  obtain ⟨e, h1, h2⟩ := runs_control (by rw [List.flatMap_map]; exact hc.1) h
  rw [List.flatMap_map] at h2
  refine ⟨e, fun e he => h1 (lay.idx e.left, lay.idx e.center) (List.mem_map.2 ⟨e, he, rfl⟩),
    sameD_of hv hc h2 (by simp [Ne.symm (cc_ne k).2]), fun j hj => sameC_of hv hc h2 (by simp [(cc_ne j).1, cc_inj hj])⟩

theorem eff_right (hv : lay.Valid) {g : Gate} {P Q : Basis} (hg : (g = .CZ ∧ P = .Z ∧ Q = .Z) ∨ (g = basisCX P ∧ Q = .X)) {k : Int}
    (h : Runs F (actions [.on g (lay.rightTargets (lay.round_edges k))]) rec F') :
    rec = [] ∧ (∀ e ∈ lay.round_edges k,
      F' (lay.idx e.right) = F (lay.idx e.right) + anti (F (lay.idx e.center)) Q.pauli • P.pauli ∧
      F' (lay.idx e.center) = F (lay.idx e.center) + anti (F (lay.idx e.right)) P.pauli • Q.pauli) ∧
    lay.SameD F F' false ∧ ∀ j, j % 3 ≠ k % 3 → lay.SameC F F' j := by
  have hc := covers_right hv k
  rw [rightTargets] at h hc
  rw [actions_ctrl hg] at h
  obtain ⟨e, h1, h2⟩ := runs_control (by rw [List.flatMap_map]; exact hc.1) h
  rw [List.flatMap_map] at h2
  refine ⟨e, fun e he => h1 (lay.idx e.right, lay.idx e.center) (List.mem_map.2 ⟨e, he, rfl⟩),
    sameD_of hv hc h2 (by simp [Ne.symm (cc_ne k).1]), fun j hj => sameC_of hv hc h2 (by simp [(cc_ne j).2, cc_inj hj])⟩

theorem anti_X (p : Pauli) : anti p Basis.X.pauli = p.2 := by revert p; decide

/-! ## Sub-round by sub-round -/

/-- `RunFrom k0 c0 R0 F0 k c R F`: from sub-round `k0`, data frame `F0`, recorded flips `R0` and totals `c0`, the recorded flips become `R` by sub-round
`k`, the frame becomes `F`, and `c e` is the total of the flips of edge `e`. -/
inductive RunFrom (lay : HoneycombLayout) (k0 : Nat) (c0 : Edge → ZMod 2) (R0 : List (ZMod 2)) (F0 : PauliOp) :
    Nat → (Edge → ZMod 2) → List (ZMod 2) → PauliOp → Prop
  | start : RunFrom lay k0 c0 R0 F0 k0 c0 R0 F0
  | step {k c R F} (h : RunFrom lay k0 c0 R0 F0 k c R F) (F' : PauliOp)
      (hF : ∀ e ∈ lay.round_edges k, ∃ r : ZMod 2, F' e.left = F e.left + r • (Basis.ofIdx k).pauli ∧ F' e.right = F e.right + r • (Basis.ofIdx k).pauli) :
      RunFrom lay k0 c0 R0 F0 (k + 1) (fun e => c e + if e ∈ lay.round_edges k then par F k e else 0)
        (R ++ (lay.round_edges k).map fun e => if lay.isPC3 then c e + par F k e else par F k e) F'

/-- `AbsRun F0 k c R F`: in `k` sub-rounds from data frame `F0` the recorded flips are `R`, the frame becomes `F`, and `c e` is the total of the flips of
edge `e`. -/
abbrev AbsRun (lay : HoneycombLayout) (F0 : PauliOp) : Nat → (Edge → ZMod 2) → List (ZMod 2) → PauliOp → Prop := lay.RunFrom 0 (fun _ => 0) [] F0

theorem AbsRun.start {F0 : PauliOp} : lay.AbsRun F0 0 (fun _ => 0) [] F0 := RunFrom.start

theorem AbsRun.length (hv : lay.Valid) {F0 : PauliOp} {k : Nat} {c : Edge → ZMod 2} {R : List (ZMod 2)} {F : PauliOp} (h : lay.AbsRun F0 k c R F) :
    R.length = k * lay.perRound := by
  induction h with
  | start => simp
  | step h F' hF ih => rw [List.length_append, ih, List.length_map, perRound_eq hv, Nat.add_mul, Nat.one_mul]

theorem recAt_left {a b : List (ZMod 2)} {t : Nat} (h : t < a.length) : recAt (a ++ b) t = recAt a t := by
  rw [recAt, recAt, List.getD_eq_getElem?_getD, List.getD_eq_getElem?_getD, List.getElem?_append_left h]

theorem recAt_right {a b : List (ZMod 2)} {t : Nat} : recAt (a ++ b) (a.length + t) = recAt b t := by
  rw [recAt, recAt, List.getD_eq_getElem?_getD, List.getD_eq_getElem?_getD, List.getElem?_append_right (by omega)]
  congr 2; omega

theorem recAt_map {α : Type} [DecidableEq α] {l : List α} {f : α → ZMod 2} {a : α} (h : a ∈ l) : recAt (l.map f) (l.idxOf a) = f a := by
  rw [recAt, List.getD_eq_getElem?_getD, List.getElem?_map, List.getElem?_idxOf h]; rfl

theorem AbsRun.extract (hv : lay.Valid) {F0 : PauliOp} {N : Nat} {c : Edge → ZMod 2} {R : List (ZMod 2)} {F : PauliOp} (h : lay.AbsRun F0 N c R F) :
    ∃ (Fs : Nat → PauliOp) (cs : Nat → Edge → ZMod 2), Fs 0 = F0 ∧ Fs N = F ∧ cs N = c ∧ (∀ e, cs 0 e = 0) ∧
      (∀ k : Nat, k < N → ∀ e, cs (k + 1) e = cs k e + if e ∈ lay.round_edges k then par (Fs k) k e else 0) ∧
      (∀ k : Nat, k < N → ∀ e ∈ lay.round_edges k, ∃ r : ZMod 2, Fs (k + 1) e.left = Fs k e.left + r • (Basis.ofIdx k).pauli ∧
        Fs (k + 1) e.right = Fs k e.right + r • (Basis.ofIdx k).pauli) ∧
      (∀ k : Nat, k < N → ∀ e ∈ lay.round_edges k, recAt R (lay.mTime k e) = if lay.isPC3 then cs k e + par (Fs k) k e else par (Fs k) k e) := by
  induction h with
  | start => exact ⟨fun _ => F0, fun _ _ => 0, rfl, rfl, rfl, fun _ => rfl, by simp, by simp, by simp⟩
  | @step k c R F h F' hF ih =>
    obtain ⟨Fs, cs, h0, hk, hc, hc0, hcs, hst, hrec⟩ := ih
    refine ⟨fun j => if j ≤ k then Fs j else F', fun j => if j ≤ k then cs j else fun e => c e + if e ∈ lay.round_edges k then par F k e else 0,
      by simp [h0], by simp, by simp, by simp [hc0], ?_, ?_, ?_⟩
    · intro j hj e
      rcases Nat.lt_or_eq_of_le (show j ≤ k by omega) with hj' | rfl
      · simp only [show j ≤ k by omega, show j + 1 ≤ k by omega, if_true, hcs j hj']
      · simp [hc, hk]
    · intro j hj e he
      rcases Nat.lt_or_eq_of_le (show j ≤ k by omega) with hj' | rfl
      · simp only [show j ≤ k by omega, show j + 1 ≤ k by omega, if_true]
        exact hst j hj' e he
      · simp only [show ¬ (j + 1 ≤ j) by omega, le_refl, if_true, if_false, hk]
        exact hF e he
    · intro j hj e he
      have hl := AbsRun.length hv h
      rcases Nat.lt_or_eq_of_le (show j ≤ k by omega) with hj' | rfl
      · simp only [show j ≤ k by omega, if_true]
        rw [recAt_left, hrec j hj' e he]
        rw [hl]
        exact lt_of_lt_of_le (mTime_lt hv he) (Nat.mul_le_mul_right _ (by omega))
      · simp only [le_refl, if_true, hc, hk]
        rw [mTime, ← hl, recAt_right, recAt_map he]

/-- The record of a run, from the frames before each sub-round. -/
theorem recorded_of (hv : lay.Valid) {N : Nat} {Fs : Nat → PauliOp} {cs : Nat → Edge → ZMod 2} {R D : List (ZMod 2)} (c0 : ∀ e, cs 0 e = 0)
    (hcs : ∀ k : Nat, k < N → ∀ e, cs (k + 1) e = cs k e + if e ∈ lay.round_edges k then par (Fs k) k e else 0)
    (hrec : ∀ k : Nat, k < N → ∀ e ∈ lay.round_edges k, recAt R (lay.mTime k e) = if lay.isPC3 then cs k e + par (Fs k) k e else par (Fs k) k e)
    (hl : R.length = N * lay.perRound) (hD : D = lay.data_qubit_coords.map fun q => anti (Fs N q) (lay.obsAt N).1.pauli) :
    lay.Recorded N Fs (recAt (R ++ D)) := by
  constructor
  · have hlt : ∀ k : Nat, k < N → ∀ e ∈ lay.round_edges k, recAt (R ++ D) (lay.mTime k e) = recAt R (lay.mTime k e) := by
      intro k hk e he
      refine recAt_left ?_
      rw [hl]
      exact lt_of_lt_of_le (mTime_lt hv he) (Nat.mul_le_mul_right _ (by omega))
    intro k hk e he
    rw [vE]
    by_cases hp : lay.isPC3 = true
    · have hoff : ∀ j : Nat, j < N → (j : Int) % 3 ≠ (k : Int) % 3 → cs (j + 1) e = cs j e := by
        intro j hj hne
        rw [hcs j hj, if_neg (fun h' => hne (round_edges_disjoint hv h' he)), add_zero]
      by_cases h3 : 3 ≤ k
      · have he3 : e ∈ lay.round_edges ((k - 3 : Nat) : Int) := by rw [round_edges_congr lay (r' := (k : Int)) (by omega)]; exact he
        rw [if_pos ⟨hp, h3⟩, val_symmDiff, val_singleton, val_singleton, hlt k hk e he, hlt (k - 3) (by omega) e he3, hrec k hk e he,
          hrec (k - 3) (by omega) e he3, if_pos hp, if_pos hp]
        have e1 := hoff (k - 1) (by omega) (by omega)
        have e2 := hoff (k - 2) (by omega) (by omega)
        have e3 := hcs (k - 3) (by omega) e
        rw [if_pos he3] at e3
        rw [show k - 1 + 1 = k by omega] at e1
        rw [show k - 2 + 1 = k - 1 by omega] at e2
        rw [show k - 3 + 1 = k - 2 by omega] at e3
        rw [e1, e2, e3]
        have := zmod2_add_self (cs (k - 3) e + par (Fs (k - 3)) ((k - 3 : Nat) : Int) e)
        linear_combination this
      · rw [if_neg (by omega), val_singleton, hlt k hk e he, hrec k hk e he, if_pos hp]
        have : ∀ j : Nat, j ≤ k → cs j e = 0 := by
          intro j
          induction j with
          | zero => intro _; exact c0 e
          | succ j ih => intro hj; rw [hoff j (by omega) (by omega)]; exact ih (by omega)
        rw [this k (le_refl k), zero_add]
    · rw [if_neg (by simp [hp]), val_singleton, hlt k hk e he, hrec k hk e he, if_neg hp]
  · intro q hq
    rw [dTime, ← hl, recAt_right, hD, recAt_map hq]

/-- What a sub-round by sub-round run with final data measurements implies. -/
theorem AbsRun.recorded_from (hv : lay.Valid) {F0 : PauliOp} {N : Nat} {c : Edge → ZMod 2} {R : List (ZMod 2)} {F : PauliOp} (h : lay.AbsRun F0 N c R F)
    {D : List (ZMod 2)} (hD : D = lay.data_qubit_coords.map fun q => anti (F q) (lay.obsAt N).1.pauli) :
    ∃ Fs, Fs 0 = F0 ∧ (∀ k : Nat, k < N → ∀ e ∈ lay.round_edges k, ∃ r : ZMod 2, Fs (k + 1) e.left = Fs k e.left + r • (Basis.ofIdx k).pauli ∧
        Fs (k + 1) e.right = Fs k e.right + r • (Basis.ofIdx k).pauli) ∧
      lay.Recorded N Fs (recAt (R ++ D)) ∧ (R ++ D).length = N * lay.perRound + lay.data_qubit_coords.length := by
  obtain ⟨Fs, cs, e0, eN, _, c0, hcs, hst, hrec⟩ := h.extract hv
  have hl := h.length hv
  exact ⟨Fs, e0, hst, recorded_of hv c0 hcs hrec hl (by rw [hD, eN]), by rw [List.length_append, hl, hD, List.length_map]⟩

theorem AbsRun.recorded (hv : lay.Valid) {F0 : PauliOp} {N : Nat} {c : Edge → ZMod 2} {R : List (ZMod 2)} {F : PauliOp} (h : lay.AbsRun F0 N c R F)
    (h0 : ∀ q ∈ lay.data_qubit_coords, ∃ r : ZMod 2, F0 q = r • (lay.obsAt 0).1.pauli) {D : List (ZMod 2)}
    (hD : D = lay.data_qubit_coords.map fun q => anti (F q) (lay.obsAt N).1.pauli) :
    ∃ Fs, lay.Trajectory N Fs ∧ lay.Recorded N Fs (recAt (R ++ D)) ∧ (R ++ D).length = N * lay.perRound + lay.data_qubit_coords.length := by
  obtain ⟨Fs, e0, hst, hr, hl⟩ := h.recorded_from hv hD
  exact ⟨Fs, ⟨by rw [e0]; exact h0, hst⟩, hr, hl⟩

end HoneycombLayout
end Honeycomb
