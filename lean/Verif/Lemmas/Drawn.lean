import Verif.Lemmas.Sites
import Verif.Lemmas.AttainedEM3

/-! # Every elementary fault is an error of a noise channel -/

namespace Honeycomb

theorem draw_one {qs : List Nat} {x : Nat} {p : Rat} (hx : x ∈ qs) (hp : 0 < p) (P : Pauli) :
    P = 0 ∨ (channel .DEPOLARIZE1 (qs.map .q) p).Draws (Frame.mul (fun _ => 0) x P) := by
  have hP : ∀ P : Pauli, P = 0 ∨ P = Basis.X.pauli ∨ P = Basis.Y.pauli ∨ P = Basis.Z.pauli := by decide
  rcases (show P = 0 ∨ ∃ b : Basis, P = b.pauli by rcases hP P with h | h | h | h; exacts [.inl h, .inr ⟨_, h⟩, .inr ⟨_, h⟩, .inr ⟨_, h⟩]) with h | ⟨b, rfl⟩
  · exact .inl h
  · refine .inr ⟨⟨_, List.mem_singleton_self _, hp⟩, x, ?_, b, rfl⟩
    show x ∈ Instr.qubits (.on .DEPOLARIZE1 qs)
    rw [qubits_on]
    exact hx

theorem mul_none (F : Frame) (x : Nat) : F.mul x 0 = F := by
  funext y
  rw [Frame.mul]
  split_ifs <;> simp

theorem draw_two {qs : List Nat} {y : Nat × Nat} {x : Nat} {p : Rat} (hy : y ∈ pairs qs) (hx : x = y.1 ∨ x = y.2) (hp : 0 < p) (P : Pauli) :
    P = 0 ∨ (channel .DEPOLARIZE2 (qs.map .q) p).Draws (Frame.mul (fun _ => 0) x P) := by
  by_cases h : P = 0
  · exact .inl h
  · refine .inr ⟨⟨_, List.mem_singleton_self _, hp⟩, y, ?_, ?_⟩
    · show y ∈ pairs (Instr.qubits (.on .DEPOLARIZE2 qs))
      rw [qubits_on]
      exact hy
    · rcases hx with rfl | rfl
      · exact ⟨P, 0, .inl h, by rw [mul_none]⟩
      · exact ⟨0, P, .inr h, by rw [mul_none]⟩

theorem draw_X {qs : List Nat} {x : Nat} {p : Rat} (hx : x ∈ qs) (hp : 0 < p) : (channel .X_ERROR (qs.map .q) p).Draws (Frame.mul (fun _ => 0) x Basis.X.pauli) := by
  refine ⟨⟨_, List.mem_singleton_self _, hp⟩, x, ?_, rfl⟩
  show x ∈ Instr.qubits (.on .X_ERROR qs)
  rw [qubits_on]
  exact hx

namespace HoneycombLayout
variable {lay : HoneycombLayout} {F F' : Frame} {rec : List (ZMod 2)} {N D : Nat} {ψ : (Nat → PauliOp) → ZMod 2}

/-! ## The ends -/

/-- What the change of basis does to a Pauli. -/
def toZ : Basis → Pauli → Pauli
  | .Z, p => p
  | .X, p => (p.2, p.1)
  | .Y, p => (p.1 + p.2, p.2)

theorem basis_one (hv : lay.Valid) {b : Basis} {q : Pt} (hq : q ∈ lay.data_qubit_coords) {P : Pauli}
    (h : Runs (Frame.mul (fun _ => 0) (lay.idx q) P) (actions (lay.basisChange b)) rec F') : rec = [] ∧ F' = Frame.mul (fun _ => 0) (lay.idx q) (toZ b P) := by
  have hn : lay.data_qubit_indices.Nodup :=
    List.Nodup.map_on (fun a ha b hb h => idx_inj hv (data_class ha).1 (data_class hb).1 h) (nodup_data_qubit_coords lay)
  have hm : lay.idx q ∈ lay.data_qubit_indices := List.mem_map_of_mem hq
  have key : ∀ g : Pauli → Pauli, g 0 = 0 → actions (lay.basisChange b) = lay.data_qubit_indices.map (.clifford1 g) → rec = [] ∧ F' = Frame.mul (fun _ => 0) (lay.idx q) (g P) := by
    intro g hg e
    rw [e] at h
    obtain ⟨rfl, e⟩ := runs_clifford1 hn h
    refine ⟨rfl, funext fun i => ?_⟩
    rw [e, Frame.mul, Frame.mul]
    by_cases hi : i = lay.idx q
    · rw [if_pos hi, if_pos hi, hi, if_pos hm, zero_add, zero_add]
    · rw [if_neg hi, if_neg hi, hg, ite_self]
  cases b with
  | Z =>
    rw [basisChange, if_neg (by simp)] at h
    obtain ⟨rfl, rfl⟩ := runs_nil h
    exact ⟨rfl, rfl⟩
  | X =>
    refine key (fun p => (p.2, p.1)) rfl ?_
    rw [basisChange, if_pos (by simp), actions, List.flatMap_cons, List.flatMap_cons, List.flatMap_nil, List.append_nil]
    simp only [toZGate, Instr.actions, Instr.on, Instr.tick, List.append_nil]
    congr 1
    exact qubits_on .H _
  | Y =>
    refine key (fun p => (p.1 + p.2, p.2)) rfl ?_
    rw [basisChange, if_pos (by simp), actions, List.flatMap_cons, List.flatMap_cons, List.flatMap_nil, List.append_nil]
    simp only [toZGate, Instr.actions, Instr.on, Instr.tick, List.append_nil]
    congr 1
    exact qubits_on .H_YZ _

theorem toZ_X (b : Basis) : toZ b (toZ b Basis.X.pauli) = Basis.X.pauli := by cases b <;> decide

theorem toZ_cases (b : Basis) (P : Pauli) : P = 0 ∨ P = b.pauli ∨ P = toZ b Basis.X.pauli ∨ P = toZ b Basis.X.pauli + b.pauli := by
  cases b <;> revert P <;> decide

theorem enters_reset (hv : lay.Valid) (hs : lay.Supported) (hN : lay.sub_rounds = N) {q : Pt} (hq : q ∈ lay.data_qubit_coords) :
    lay.Enters N 0 q (toZ (lay.obsAt 0).1 Basis.X.pauli) Basis.X.pauli (lay.basisChange (lay.obsAt 0).1 ++ (lay.allRounds N ++ lay.epilogue N)) := by
  obtain ⟨n, h⟩ := enters_start hv hs hN hq (toZ (lay.obsAt 0).1 Basis.X.pauli)
  refine ⟨n, fun rec S' hr => ?_⟩
  obtain ⟨r1, r2, S1, g1, g2, rfl⟩ := runs_append_actions hr
  obtain ⟨rfl, rfl⟩ := basis_one hv hq g1
  exact h _ _ g2

theorem enters_final (hv : lay.Valid) {q : Pt} (hq : q ∈ lay.data_qubit_coords) :
    lay.Enters N N q (toZ (lay.obsAt N).1 Basis.X.pauli) Basis.X.pauli (.on .M lay.data_qubit_indices :: lay.emitFinal N N) := by
  obtain ⟨n, h⟩ := enters_end (N := N) hv hq (toZ (lay.obsAt N).1 Basis.X.pauli)
  refine ⟨n, fun rec S' hr => ?_⟩
  obtain ⟨r, F', h0⟩ := runs_exists (Frame.mul (fun _ => 0) (lay.idx q) (toZ (lay.obsAt N).1 Basis.X.pauli)) (actions (lay.basisChange (lay.obsAt N).1))
  obtain ⟨rfl, rfl⟩ := basis_one hv hq h0
  rw [toZ_X] at h0
  refine h rec S' ?_
  rw [epilogue, List.append_assoc, actions_append]
  exact runs_append.2 ⟨_, _, _, h0, hr, rfl⟩

theorem Meter.at_start (hψ : lay.Meter N ψ) (q : Pt) : ψ (oneFault 0 q (lay.obsAt 0).1.pauli) = 0 := by
  refine hψ.still _ ⟨fun p _ => ?_, fun k _ e _ => ⟨0, ?_, ?_⟩⟩
  · by_cases h : p = q
    · exact ⟨1, by simp [oneFault, h]⟩
    · exact ⟨0, by rw [pauli_zero_smul]; simp [oneFault, h]⟩
  · rw [pauli_zero_smul, add_zero]; simp [oneFault]
  · rw [pauli_zero_smul, add_zero]; simp [oneFault]

theorem Meter.at_end (hψ : lay.Meter N ψ) (q : Pt) : ψ (oneFault N q (lay.obsAt N).1.pauli) = 0 := by
  have z : ∀ s : Finset Nat, val (fun _ => 0) s = 0 := fun s => Finset.sum_eq_zero fun _ _ => rfl
  refine hψ.zero _ ⟨fun k hk e _ => ?_, fun p _ => ?_⟩
  · rw [z, par, oneFault, oneFault]
    simp [show ¬ N ≤ k by omega]
  · rw [oneFault]
    split_ifs <;> simp [anti_same]

/-! ## The generated circuit, time step by time step -/

/-- `l` is the circuit of the layout with the noise of `nm`, step by step. -/
structure Noised (lay : HoneycombLayout) (N D : Nat) (nm : NoiseModel) (l : List Instr) : Prop where
  steps : ∃ idle : List Instr → List Instr, Stepwise (noisyStep nm D idle) l (lay.closedCircuit N) ∧ ∀ ops, ∀ i ∈ idle ops, lay.Narrow i
  tame : ∀ i ∈ lay.closedCircuit N, lay.Tame D i

theorem noised (hv : lay.Valid) (hs : lay.Supported) (hN : lay.sub_rounds = N) {d : Circuit} (hd : lay.makeCircuit = .ok d) :
    ∃ nm, lay.noise_model = .ok nm ∧ lay.Noised N lay.num_qubits.toNat nm d.flatten := by
  obtain ⟨c, nm, idle, hc, hnm, htk, hf, -, ht, hi, e⟩ := noisy_form hv hs hN hd
  refine ⟨nm, hnm, ⟨idle, ?_, fun ops i h => (hi ops i h).1⟩, fun i him => ?_⟩
  · rw [e, ← hf]
    exact steps_perStep c htk _
  · exact tame_ops hv hs hN him (usesGate_notNoise (goodL_closed hs N i him).gate)

/-- A fault that one error of a noise channel causes. -/
def Drawable (lay : HoneycombLayout) (N : Nat) (l : List Instr) (j : Nat) (q : Pt) (P : Pauli) : Prop :=
  ∃ v j' P' P'', P'' ≠ 0 ∧ lay.Enters N j' q P' P'' v ∧ Sampled l (lay.idx q) P'' v ∧ ∀ ψ, lay.Meter N ψ → ψ (oneFault j' q P') = ψ (oneFault j q P)

variable {nm : NoiseModel} {l : List Instr}

theorem Noised.after (hn : lay.Noised N D nm l) {u v w : List Instr} {i ch : Instr} {x : Nat} {P : Pauli} (h : lay.closedCircuit N = u ++ i :: (w ++ .tick :: v))
    (hg : i.gate ≠ .TICK) (hw : ∀ j ∈ w, j.gate ≠ .MPP) (hx : Passes x w)
    (hc : ch ∈ noiseAfter i ((nm.rate i.gate).getD 0)) (hd : P = 0 ∨ ch.Draws (Frame.mul (fun _ => 0) x P)) : Sampled l x P v := by
  obtain ⟨⟨idle, h1, h2⟩, h3⟩ := hn
  rw [h] at h1 h3
  exact site_after h1 h2 (fun i hi => h3 i (by simp [hi])) hg hw hx hc hd

theorem Noised.before (hn : lay.Noised N D nm l) {u v w : List Instr} {i ch : Instr} {x : Nat} {P : Pauli} (h : lay.closedCircuit N = u ++ .tick :: (w ++ i :: v))
    (hg : i.gate ≠ .TICK) (hw : ∀ j ∈ w, j.gate ≠ .MPP) (hx : Passes x w)
    (hc : ch ∈ noiseBefore nm i ((nm.rate i.gate).getD 0)) (hd : P = 0 ∨ ch.Draws (Frame.mul (fun _ => 0) x P)) : Sampled l x P (i :: v) := by
  obtain ⟨⟨idle, h1, h2⟩, h3⟩ := hn
  rw [h] at h1 h3
  exact site_before h1 h2 (fun i hi => h3 i (by
    rcases List.mem_cons.1 hi with rfl | hi
    · simp
    · simp [hi])) hg hw hx hc hd

theorem Noised.core (hn : lay.Noised N D nm l) {u v w C1 C2 : List Instr} {i ch : Instr} {x : Nat} {P : Pauli} (h : lay.closedCircuit N = u ++ i :: (w ++ .tick :: v))
    (hg : i.gate ≠ .TICK) (hw : ∀ j ∈ w, j.gate ≠ .MPP) (hx : Passes x w) (hc : noisyCore nm D i ((nm.rate i.gate).getD 0) = C1 ++ ch :: C2)
    (hC : Passes x (ch :: C2)) (hd : P = 0 ∨ ch.Draws (Frame.mul (fun _ => 0) x P)) : Sampled l x P v := by
  obtain ⟨⟨idle, h1, h2⟩, h3⟩ := hn
  rw [h] at h1 h3
  exact site_core h1 h2 (fun i hi => h3 i (by simp [hi])) hg hw hx hc hC hd

/-! ## What passes the data qubits by -/

theorem passes_marks {x : Nat} {w : List Instr} (h : ∀ i ∈ w, isMark i = true) : Passes x w := by
  intro a ha
  rw [actions_nil_of_marks h] at ha
  simp at ha

theorem marks_not_mpp {w : List Instr} (h : ∀ i ∈ w, isMark i = true) : ∀ i ∈ w, i.gate ≠ .MPP := fun i hi => by
  rcases (isMark_iff i).1 (h i hi) with h | h | h <;> rw [h] <;> decide

theorem passes_on {x : Nat} {g : Gate} {qs : List Nat} (h : x ∉ qs) : Passes x [.on g qs] := passes_of fun i hi => by
  rw [List.mem_singleton] at hi
  subst hi
  rwa [qubits_on]

theorem passes_emitMD (hv : lay.Valid) {q : Pt} (hq : q ∈ lay.data_qubit_coords) (k : Nat) : Passes (lay.idx q) (lay.emitMD k) := by
  rw [emitMD]
  refine Passes.append ?_ (passes_marks (emitAnn_marks k))
  rw [emitMeas]
  split_ifs
  · exact passes_marks (by simp)
  · refine passes_on fun hm => ?_
    obtain ⟨e, he, h⟩ := List.mem_map.1 hm
    exact center_not_data hv he hq h

theorem emitMD_not_mpp (k : Nat) : ∀ i ∈ lay.emitMD k, i.gate ≠ .MPP := by
  intro i hi
  rw [emitMD, List.mem_append] at hi
  rcases hi with hi | hi
  · rw [emitMeas] at hi
    split_ifs at hi
    · simp at hi
    · rw [List.mem_singleton] at hi
      subst hi
      exact (by decide : Gate.M ≠ .MPP)
  · exact marks_not_mpp (emitAnn_marks k) i hi

theorem not_left (hv : lay.Valid) {q : Pt} (hq : q ∈ lay.data_qubit_coords) (hp : dataQubitParity q = true) (k : Int) : lay.idx q ∉ lay.leftTargets (lay.round_edges k) := by
  intro hm
  obtain ⟨e, he, h⟩ := List.mem_flatMap.1 hm
  simp only [List.mem_cons, List.not_mem_nil, or_false] at h
  have hl := left_facts hv he
  rcases h with h | h
  · rw [idx_inj hv (data_class hq).1 (data_class hl.1).1 h, hl.2] at hp
    simp at hp
  · exact center_not_data hv he hq h.symm

theorem not_right (hv : lay.Valid) {q : Pt} (hq : q ∈ lay.data_qubit_coords) (hp : dataQubitParity q = false) (k : Int) : lay.idx q ∉ lay.rightTargets (lay.round_edges k) := by
  intro hm
  obtain ⟨e, he, h⟩ := List.mem_flatMap.1 hm
  simp only [List.mem_cons, List.not_mem_nil, or_false] at h
  have hl := right_facts hv he
  rcases h with h | h
  · rw [idx_inj hv (data_class hq).1 (data_class hl.1).1 h, hl.2] at hp
    simp at hp
  · exact center_not_data hv he hq h.symm

theorem not_measure (hv : lay.Valid) {q : Pt} (hq : q ∈ lay.data_qubit_coords) : lay.idx q ∉ lay.measure_qubit_indices := by
  intro hm
  obtain ⟨p, hp, h1, h2⟩ := (covers_measure hv).2 _ hm
  obtain ⟨h3, h4⟩ := data_class hq
  rw [idx_inj hv hp h3 h1, h4] at h2
  split_ifs at h2 <;> simp at h2

theorem not_resets (hv : lay.Valid) {q : Pt} (hq : q ∈ lay.data_qubit_coords) (k : Int) : Passes (lay.idx q) (lay.subRoundResets k) := by
  rw [subRoundResets]
  refine passes_on fun hm => ?_
  obtain ⟨e, he, h⟩ := List.mem_map.1 hm
  exact center_not_data hv he hq h

/-! ## The channels of the operations -/

theorem chan_clifford1 {g : Gate} {qs : List Nat} (hg : kind g = .clifford1) (hp : 0 < (nm.rate g).getD 0) :
    channel .DEPOLARIZE1 (qs.map .q) ((nm.rate g).getD 0) ∈ noiseAfter (.on g qs) ((nm.rate (Instr.on g qs).gate).getD 0) := by
  rw [noiseAfter, show (Instr.on g qs).gate = g from rfl, if_neg (not_le.2 hp)]
  simp only [hg]
  exact List.mem_singleton_self _

theorem chan_clifford2 {g : Gate} {qs : List Nat} (hg : kind g = .clifford2) (hp : 0 < (nm.rate g).getD 0) :
    channel .DEPOLARIZE2 (qs.map .q) ((nm.rate g).getD 0) ∈ noiseAfter (.on g qs) ((nm.rate (Instr.on g qs).gate).getD 0) := by
  rw [noiseAfter, show (Instr.on g qs).gate = g from rfl, if_neg (not_le.2 hp)]
  simp only [hg]
  exact List.mem_singleton_self _

theorem chan_reset {qs : List Nat} (hp : 0 < (nm.rate .R).getD 0) :
    channel .X_ERROR (qs.map .q) ((nm.rate .R).getD 0) ∈ noiseAfter (.on .R qs) ((nm.rate (Instr.on .R qs).gate).getD 0) := by
  rw [noiseAfter, show (Instr.on .R qs).gate = .R from rfl, if_neg (not_le.2 hp)]
  exact List.mem_singleton_self _

theorem chan_measure {qs : List Nat} (hp : 0 < (nm.rate .M).getD 0) :
    channel .X_ERROR (qs.map .q) ((nm.rate .M).getD 0) ∈ noiseBefore nm (.on .M qs) ((nm.rate (Instr.on .M qs).gate).getD 0) := by
  rw [noiseBefore, show (Instr.on .M qs).gate = .M from rfl, if_neg (not_le.2 hp)]
  exact List.mem_singleton_self _

theorem rate_measure (hs : lay.Supported) (hp : 0 < lay.noise) (hnm : lay.noise_model = .ok nm) : 0 < (nm.rate .M).getD 0 := by
  rcases hs.1 with h | h | h | h | h <;> simp [noise_model, h] at hnm <;> subst hnm <;>
    simp [NoiseModel.rate, NoiseModel.SD6, NoiseModel.PC3, NoiseModel.EM3_v1, NoiseModel.EM3_v2, NoiseModel.SI1000, hp]

theorem rate_cycle (hst : lay.style = "SD6" ∨ lay.style = "SI1000") (hp : 0 < lay.noise) (hnm : lay.noise_model = .ok nm) : 0 < (nm.rate .C_ZYX).getD 0 := by
  rcases hst with h | h <;> simp [noise_model, h] at hnm <;> subst hnm <;>
    simp [NoiseModel.rate, NoiseModel.SD6, NoiseModel.SI1000, kind, hp]

theorem rate_CZ (hst : lay.style = "SI1000") (hp : 0 < lay.noise) (hnm : lay.noise_model = .ok nm) : 0 < (nm.rate .CZ).getD 0 := by
  simp [noise_model, hst] at hnm
  subst hnm
  simp [NoiseModel.rate, NoiseModel.SI1000, hp]

theorem rate_CX (hst : lay.style = "PC3") (hp : 0 < lay.noise) (hnm : lay.noise_model = .ok nm) (b : Basis) : 0 < (nm.rate (basisCX b)).getD 0 := by
  simp [noise_model, hst] at hnm
  subst hnm
  cases b <;> simp [NoiseModel.rate, NoiseModel.PC3, basisCX, kind, hp]

/-! ## The slots -/

/-- Up to what does nothing, a fault at the start is a flip of the prepared state. -/
theorem drawable_start (hv : lay.Valid) (hs : lay.Supported) (hN : lay.sub_rounds = N) (hp : 0 < lay.noise) (hnm : lay.noise_model = .ok nm) (hn : lay.Noised N D nm l)
    {q : Pt} (hq : q ∈ lay.data_qubit_coords) (P : Pauli) : (∀ ψ, lay.Meter N ψ → ψ (oneFault 0 q P) = 0) ∨ lay.Drawable N l 0 q P := by
  have key : ∀ Q, (∀ ψ, lay.Meter N ψ → ψ (oneFault 0 q (toZ (lay.obsAt 0).1 Basis.X.pauli)) = ψ (oneFault 0 q Q)) → lay.Drawable N l 0 q Q := by
    refine fun Q hQ => ⟨_, _, _, _, by decide, enters_reset hv hs hN hq, ?_, hQ⟩
    refine hn.after (u := lay.qubitCoordOps) (w := []) (i := .on .R lay.used_qubit_indices) ?_ (by simp [Instr.on]) (by simp) (passes_marks (by simp)) (chan_reset (rate_reset hs hp hnm))
      (.inr (draw_X (mem_used_data hv hq) (rate_reset hs hp hnm)))
    rw [closed_parts, prologue]
    simp only [List.append_assoc, List.cons_append, List.nil_append]
  rcases toZ_cases (lay.obsAt 0).1 P with rfl | rfl | rfl | rfl
  · exact .inl fun ψ hψ => hψ.none _ _
  · exact .inl fun ψ hψ => hψ.at_start q
  · exact .inr (key _ fun ψ _ => rfl)
  · exact .inr (key _ fun ψ hψ => by rw [hψ.mul, hψ.at_start, add_zero])

theorem drawable_end (hv : lay.Valid) (hs : lay.Supported) (h1 : 1 ≤ N) (hp : 0 < lay.noise) (hnm : lay.noise_model = .ok nm) (hn : lay.Noised N D nm l)
    {q : Pt} (hq : q ∈ lay.data_qubit_coords) (P : Pauli) : (∀ ψ, lay.Meter N ψ → ψ (oneFault N q P) = 0) ∨ lay.Drawable N l N q P := by
  obtain ⟨u, w, hu, hw⟩ : ∃ u w, lay.prologue ++ lay.allRounds N = u ++ .tick :: w ∧ ∀ i ∈ w, isMark i = true := by
    rw [allRounds]
    split_ifs
    · rw [sd6All]
      split_ifs
      all_goals
        rw [sd6Realign]
        simp only [← List.append_assoc]
        exact ⟨_, [], rfl, by simp⟩
    · rw [pc3All, range_succ_flatMap]
      obtain ⟨z, hz⟩ : ∃ z, lay.pc3Emit N (N + 1) = z ++ [.tick] := ⟨_, rfl⟩
      exact ⟨lay.prologue ++ ((List.range (N + 1)).flatMap (lay.pc3Emit N) ++ z), lay.pc3ObsEmit N, by rw [hz]; simp,
        fun i hi => (isMark_iff i).2 (Or.inr (Or.inl (pc3ObsEmit_gate hi)))⟩
    · obtain ⟨M, rfl⟩ := Nat.exists_eq_add_of_le' h1
      rw [em3All, range_succ_flatMap, em3Emit]
      simp only [← List.append_assoc]
      exact ⟨_, [], rfl, by simp⟩
    · rw [si1000All]
      cases N / 3 with
      | zero =>
        obtain ⟨l', e⟩ := prologue_ticked (lay := lay)
        exact ⟨l', [], by simp [e], by simp⟩
      | succ M =>
        rw [range_succ_flatMap, si1000Emit]
        simp only [← List.append_assoc]
        exact ⟨_, [], rfl, by simp⟩
  have hs1 : ∃ u w, lay.closedCircuit N = u ++ .tick :: (w ++ .on .M lay.data_qubit_indices :: lay.emitFinal N N) ∧ ∀ i ∈ w, isMark i = true := by
    rw [closed_parts, ← List.append_assoc, hu, epilogue, basisChange]
    split_ifs
    · exact ⟨u ++ .tick :: (w ++ [.on (toZGate (lay.obsAt N).1) lay.data_qubit_indices]), [], by simp, by simp⟩
    · exact ⟨u, w, by simp, hw⟩
  obtain ⟨u, w, hu, hw⟩ := hs1
  have key : ∀ Q, (∀ ψ, lay.Meter N ψ → ψ (oneFault N q (toZ (lay.obsAt N).1 Basis.X.pauli)) = ψ (oneFault N q Q)) → lay.Drawable N l N q Q := fun Q hQ =>
    ⟨_, _, _, _, by decide, enters_final hv hq, hn.before hu (by simp [Instr.on]) (marks_not_mpp hw) (passes_marks hw) (chan_measure (rate_measure hs hp hnm))
      (.inr (draw_X (mem_data hq) (rate_measure hs hp hnm))), hQ⟩
  rcases toZ_cases (lay.obsAt N).1 P with rfl | rfl | rfl | rfl
  · exact .inl fun ψ hψ => hψ.none _ _
  · exact .inl fun ψ hψ => hψ.at_end q
  · exact .inr (key _ fun ψ _ => rfl)
  · exact .inr (key _ fun ψ hψ => by rw [hψ.mul, hψ.at_end, add_zero])

end HoneycombLayout
end Honeycomb
