import Verif.Lemmas.Drawn
import Verif.Lemmas.Damage

/-! # Where the noise channels cause the elementary faults, by style -/

namespace Honeycomb
namespace HoneycombLayout
variable {lay : HoneycombLayout} {N D : Nat} {nm : NoiseModel} {l : List Instr}

theorem pauli_some (b : Basis) : b.pauli ≠ 0 := by cases b <;> decide

theorem rotN_some (n : Int) {P : Pauli} (h : P ≠ 0) : rotN n P ≠ 0 := fun e => h (by
  have := rotN_inv (-n) P
  rw [neg_neg, e, rotN_none] at this
  exact this.symm)

/-! ## Parity measurements -/

theorem drawable_em3 (hv : lay.Valid) (hst : lay.style = "EM3") (hp : 0 < lay.noise) (hnm : lay.noise_model = .ok nm) (hn : lay.Noised N D nm l)
    {j : Nat} (hj : j < N) {q : Pt} (hq : q ∈ lay.data_qubit_coords) {P : Pauli} (hP0 : P ≠ 0) : lay.Drawable N l j q P := by
  have hE : lay.isEM3 = true := by simp [isEM3, hst]
  have hP : lay.isPC3 = false := by simp [isPC3, hst]
  have ha : lay.allRounds N = lay.em3All N := by simp [allRounds, hst, hE]
  have hc : nm.use_correlated_parity_measurement_errors = false := by
    simp [noise_model, hst] at hnm
    subst hnm
    rfl
  have hr := rate_mpp hE hp hnm
  obtain ⟨M, rfl⟩ : ∃ M, N = j + (M + 1) := ⟨N - j - 1, by omega⟩
  obtain ⟨v', hv'⟩ : ∃ v', ((List.range (M + 1)).flatMap fun i => lay.em3Emit (j + i)) ++ lay.epilogue (j + (M + 1)) = lay.mppOf j :: v' := by
    rw [List.range_succ_eq_map, List.flatMap_cons, Nat.add_zero, em3Emit_eq, List.cons_append, List.cons_append, List.cons_append]
    exact ⟨_, rfl⟩
  obtain ⟨u, hu⟩ := em3_ticked (lay := lay) j
  refine ⟨_, _, _, _, hP0, enters_em3 hv hE hP hq P, ?_, fun _ _ => rfl⟩
  rw [hv']
  obtain ⟨e, he, ht⟩ := exists_edge hv hq j
  refine hn.before (u := u) (w := []) (i := lay.mppOf j) (ch := channel .DEPOLARIZE2 ((lay.mppOf j).qubits.map .q) ((nm.rate .MPP).getD 0)) ?_ (by simp [mppOf]) (by simp)
    (passes_marks (by simp)) ?_ (draw_two (y := (lay.idx e.left, lay.idx e.right)) ?_ (by rcases ht with rfl | rfl <;> simp) hr P)
  · rw [closed_parts, ha, em3All, range_split, List.nil_append, ← hv', List.append_assoc, ← List.append_assoc, hu]
    simp only [List.append_assoc, List.cons_append, List.nil_append]
  · rw [noiseBefore, show (lay.mppOf j).gate = .MPP from rfl, if_neg (not_le.2 hr)]
    simp only [kind, hc, Bool.false_eq_true, if_false]
    exact List.mem_singleton_self _
  · rw [mpp_qubits, pairs_targets (lay.round_edges j) (fun e => lay.idx e.left) (fun e => lay.idx e.right)]
    exact List.mem_map_of_mem he

theorem single_correlated (b : Basis) (q1 q2 a : Nat) {x : Nat} (hx : x = q1 ∨ x = q2) : [Target.pauli b x] ∈ correlatedErrors q1 q2 a := by
  rcases hx with rfl | rfl <;> cases b <;> simp [correlatedErrors, pauliOptions]

theorem gadget_passes {b : Basis} {q1 q2 D x : Nat} {p : Rat} (h1 : x ≠ q1) (h2 : x ≠ q2) (h3 : x ≠ D) : Passes x (parityMeasurementWithCorrelatedNoise b q1 b q2 D p) := by
  rw [parityMeasurementWithCorrelatedNoise]
  refine Passes.append (Passes.append (passes_of fun i hi => ?_) (passes_noise fun i hi => ?_)) (passes_on (by simpa using h3))
  · simp only [List.mem_cons, List.not_mem_nil, or_false] at hi
    rcases hi with rfl | rfl | rfl
    · rw [qubits_on]; simpa using h3
    · rw [parityCX, qubits_on]; simp [h1, h3]
    · rw [parityCX, qubits_on]; simp [h2, h3]
  · obtain ⟨e, _, rfl⟩ := List.mem_map.1 hi
    rfl

theorem drawable_em3v2 (hv : lay.Valid) (hst : lay.style = "EM3_v2") (hp : 0 < lay.noise) (hnm : lay.noise_model = .ok nm) (hn : lay.Noised N D nm l)
    (hD : ∀ q ∈ lay.data_qubit_coords, lay.idx q ≠ D) {j : Nat} (hj : j < N) {q : Pt} (hq : q ∈ lay.data_qubit_coords) : lay.Drawable N l j q (Basis.ofIdx j).pauli := by
  have hE : lay.isEM3 = true := by simp [isEM3, hst]
  have hP : lay.isPC3 = false := by simp [isPC3, hst]
  have ha : lay.allRounds N = lay.em3All N := by simp [allRounds, hst, hE]
  have hc : nm.use_correlated_parity_measurement_errors = true := by
    simp [noise_model, hst] at hnm
    subst hnm
    rfl
  have hr := rate_mpp hE hp hnm
  obtain ⟨M, rfl⟩ : ∃ M, N = j + 1 + M := ⟨N - j - 1, by omega⟩
  obtain ⟨e, he, ht⟩ := exists_edge hv hq j
  refine ⟨_, _, _, _, pauli_some _, enters_em3 hv hE hP hq (Basis.ofIdx j).pauli, ?_, fun ψ hψ => hψ.slide hv hj q⟩
  have hcore : noisyCore nm D (lay.mppOf j) ((nm.rate (lay.mppOf j).gate).getD 0) =
      (lay.round_edges j).flatMap fun e => parityMeasurementWithCorrelatedNoise (sub_round_edge_basis j) (lay.idx e.left) (sub_round_edge_basis j) (lay.idx e.right) D
        ((nm.rate .MPP).getD 0) := by
    rw [show (lay.mppOf j).gate = .MPP from rfl, noisyCore, if_neg (not_le.2 hr)]
    have hk : kind (lay.mppOf j).gate = .parity := rfl
    simp only [hk, hc, if_true]
    rw [mpp_targets, mppGroups_pair, List.map_map, List.flatMap_map]
    rfl
  obtain ⟨E1, E2, eE⟩ := List.append_of_mem he
  have hnd := (covers_ends hv j).1
  have hx : lay.idx q = lay.idx e.left ∨ lay.idx q = lay.idx e.right := by rcases ht with rfl | rfl <;> simp
  obtain ⟨S1, S2, eS⟩ := List.append_of_mem (single_correlated (Basis.ofIdx j) (lay.idx e.left) (lay.idx e.right) D hx)
  have hq1 : ∀ e' ∈ E2, lay.idx q ≠ lay.idx e'.left ∧ lay.idx q ≠ lay.idx e'.right := by
    intro e' he'
    rw [eE, List.flatMap_append, List.flatMap_cons, List.nodup_append, List.nodup_append] at hnd
    have := hnd.2.1.2.2 (lay.idx q) (by simpa using hx)
    exact ⟨this _ (List.mem_flatMap.2 ⟨e', he', by simp⟩), this _ (List.mem_flatMap.2 ⟨e', he', by simp⟩)⟩
  obtain ⟨p, hpe⟩ : ∃ p, (nm.rate .MPP).getD 0 = p := ⟨_, rfl⟩
  rw [hpe] at hr
  obtain ⟨f, hf⟩ : ∃ f : List Target → Instr, (fun e => { gate := .E, targets := e, args := [.indep p 5] }) = f := ⟨_, rfl⟩
  obtain ⟨g, hg⟩ : ∃ g : Edge → List Instr,
    (fun e => parityMeasurementWithCorrelatedNoise (sub_round_edge_basis j) (lay.idx e.left) (sub_round_edge_basis j) (lay.idx e.right) D p) = g := ⟨_, rfl⟩
  have hge : g e = [.on .R [D], parityCX (sub_round_edge_basis j) (lay.idx e.left) D, parityCX (sub_round_edge_basis j) (lay.idx e.right) D] ++
      (S1.map f ++ f [.pauli (Basis.ofIdx j) (lay.idx q)] :: S2.map f) ++ [.on .M [D]] := by
    rw [← hg, ← List.map_cons, ← List.map_append, ← eS, ← hf]
    rfl
  rw [hpe, hg, eE, List.flatMap_append, List.flatMap_cons, hge] at hcore
  refine hn.core (u := lay.prologue ++ (List.range j).flatMap lay.em3Emit) (w := lay.emitMD j) (i := lay.mppOf j) (ch := f [.pauli (Basis.ofIdx j) (lay.idx q)])
    (C1 := E1.flatMap g ++ ([.on .R [D], parityCX (sub_round_edge_basis j) (lay.idx e.left) D, parityCX (sub_round_edge_basis j) (lay.idx e.right) D] ++ S1.map f))
    (C2 := S2.map f ++ ([.on .M [D]] ++ E2.flatMap g)) ?_ (by simp [mppOf]) (emitMD_not_mpp j) (passes_emitMD hv hq j)
    (hcore.trans (by simp only [List.append_assoc, List.cons_append, List.nil_append])) ?_ (.inr ?_)
  · rw [closed_parts, ha, em3All, range_split, range_succ_flatMap, em3Emit_eq]
    simp only [List.append_assoc, List.cons_append, List.nil_append]
  · rw [← List.cons_append, ← List.map_cons]
    refine Passes.append (passes_noise fun i hi => ?_) (Passes.append (passes_on (by simpa using hD q hq)) ?_)
    · obtain ⟨t, _, rfl⟩ := List.mem_map.1 hi
      rw [← hf]
      rfl
    · intro a ha
      obtain ⟨i, hi, ha⟩ := List.mem_flatMap.1 ha
      obtain ⟨e', he', hi⟩ := List.mem_flatMap.1 hi
      rw [← hg] at hi
      exact gadget_passes (hq1 e' he').1 (hq1 e' he').2 (hD q hq) a (List.mem_flatMap.2 ⟨i, hi, ha⟩)
  · rw [← hf]
    exact ⟨⟨_, List.mem_singleton_self _, hr⟩, rfl⟩

/-! ## Controlled operations -/

theorem drawable_sd6 (hv : lay.Valid) (hst : lay.style = "SD6") (hN : lay.sub_rounds = N) (hp : 0 < lay.noise) (hnm : lay.noise_model = .ok nm) (hn : lay.Noised N D nm l)
    {j : Nat} (h0 : 0 < j) (hj : j + 2 ≤ N) {q : Pt} (hq : q ∈ lay.data_qubit_coords) : lay.Drawable N l j q (Basis.ofIdx j).pauli := by
  have hE : lay.isEM3 = false := by simp [isEM3, hst]
  have hP : lay.isPC3 = false := by simp [isPC3, hst]
  have hr := rate_cycle (.inl hst) hp hnm
  obtain ⟨M, rfl⟩ : ∃ M, N = j + M + 2 := ⟨N - j - 2, by omega⟩
  refine ⟨_, _, _, _, rotN_some _ (pauli_some _), enters_sd6 hv hE hP hN hq, ?_, fun _ _ => rfl⟩
  obtain ⟨i, rfl⟩ := Nat.exists_eq_add_of_le' h0
  obtain ⟨u, hu⟩ : ∃ u, lay.sd6Emit i = u ++ (.on .C_ZYX lay.data_qubit_indices :: (lay.emitMD i ++ [.tick])) :=
    ⟨(lay.subRound2qOps (i + 1)).1 ++ (lay.subRound2qOps i).2 ++ [.tick] ++ lay.subRoundResets (i + 2), by rw [sd6Emit, cycleData]; simp⟩
  refine hn.after (u := lay.prologue ++ (lay.sd6Start ++ ((List.range i).flatMap lay.sd6Emit ++ u))) (w := lay.emitMD i) ?_ (by simp [Instr.on]) (emitMD_not_mpp i)
    (passes_emitMD hv hq i) (chan_clifford1 (g := .C_ZYX) rfl hr) (draw_one (mem_data hq) hr _)
  rw [closed_parts, allRounds, if_pos hst, sd6All, if_neg (by omega), show i + 1 + M + 2 - 2 = i + 1 + M by omega, range_split, range_succ_flatMap, hu]
  simp only [List.append_assoc, List.cons_append, List.nil_append]

theorem draw_left {k : Int} {e : Edge} (he : e ∈ lay.round_edges k) {p : Rat} (hp : 0 < p) (P : Pauli) :
    P = 0 ∨ (channel .DEPOLARIZE2 ((lay.leftTargets (lay.round_edges k)).map .q) p).Draws (Frame.mul (fun _ => 0) (lay.idx e.left) P) := by
  refine draw_two (y := (lay.idx e.left, lay.idx e.center)) ?_ (.inl rfl) hp P
  rw [leftTargets, pairs_targets (lay.round_edges k) (fun e => lay.idx e.left) (fun e => lay.idx e.center)]
  exact List.mem_map_of_mem he

theorem draw_right {k : Int} {e : Edge} (he : e ∈ lay.round_edges k) {p : Rat} (hp : 0 < p) (P : Pauli) :
    P = 0 ∨ (channel .DEPOLARIZE2 ((lay.rightTargets (lay.round_edges k)).map .q) p).Draws (Frame.mul (fun _ => 0) (lay.idx e.right) P) := by
  refine draw_two (y := (lay.idx e.right, lay.idx e.center)) ?_ (.inl rfl) hp P
  rw [rightTargets, pairs_targets (lay.round_edges k) (fun e => lay.idx e.right) (fun e => lay.idx e.center)]
  exact List.mem_map_of_mem he

theorem kind_basisCX (b : Basis) : kind (basisCX b) = .clifford2 := by cases b <;> rfl

theorem on_not_mpp {g : Gate} {qs : List Nat} (h : g ≠ .MPP) : ∀ i ∈ [Instr.on g qs], i.gate ≠ .MPP := fun i hi => by
  rw [List.mem_singleton] at hi
  subst hi
  exact h

theorem append_not_mpp {a b : List Instr} (ha : ∀ i ∈ a, i.gate ≠ .MPP) (hb : ∀ i ∈ b, i.gate ≠ .MPP) : ∀ i ∈ a ++ b, i.gate ≠ .MPP := fun i hi => by
  rcases List.mem_append.1 hi with h | h
  · exact ha i h
  · exact hb i h

theorem drawable_pc3 (hv : lay.Valid) (hst : lay.style = "PC3") (hp : 0 < lay.noise) (hnm : lay.noise_model = .ok nm) (hn : lay.Noised N D nm l)
    {j : Nat} (h0 : 0 < j) (hj : j < N) {q : Pt} (hq : q ∈ lay.data_qubit_coords) : lay.Drawable N l j q (Basis.ofIdx j).pauli := by
  have hE : lay.isEM3 = false := by simp [isEM3, hst]
  have hP : lay.isPC3 = true := by simp [isPC3, hst]
  have hr := rate_CX hst hp hnm
  obtain ⟨M, rfl⟩ : ∃ M, N = j + M + 1 := ⟨N - j - 1, by omega⟩
  refine ⟨_, _, _, _, pauli_some _, enters_pc3 hv hE hP hq, ?_, fun _ _ => rfl⟩
  obtain ⟨w, hw⟩ : ∃ w, (if 2 ≤ j then lay.emitMD (j - 2) else lay.subRoundResets ((j : Int) - 2)) = w := ⟨_, rfl⟩
  have hwm : ∀ i ∈ w, i.gate ≠ .MPP := by
    rw [← hw]
    split_ifs
    · exact emitMD_not_mpp _
    · exact on_not_mpp (by decide)
  have hwp : Passes (lay.idx q) w := by
    rw [← hw]
    split_ifs
    · exact passes_emitMD hv hq _
    · exact not_resets hv hq _
  have hu : lay.pc3Emit (j + M + 1) j = .on (basisCX (sub_round_edge_basis j)) (lay.leftTargets (lay.round_edges j)) ::
      (.on (basisCX (sub_round_edge_basis ((j : Int) - 1))) (lay.rightTargets (lay.round_edges ((j : Int) - 1))) :: (w ++ [.tick])) := by
    rw [pc3Emit, if_pos (by omega), if_pos (by omega), hw]
    rfl
  have hcl : lay.closedCircuit (j + M + 1) = (lay.prologue ++ (List.range j).flatMap (lay.pc3Emit (j + M + 1))) ++ (lay.pc3Emit (j + M + 1) j ++
      (((List.range M).flatMap fun i => lay.pc3Emit (j + M + 1) (j + 1 + i)) ++
        (lay.pc3Emit (j + M + 1) (j + M + 1) ++ lay.pc3Emit (j + M + 1) (j + M + 1 + 1) ++ lay.pc3ObsEmit (j + M + 1)) ++ lay.epilogue (j + M + 1))) := by
    rw [closed_parts, allRounds, if_neg (by rw [hst]; decide), if_pos hst, pc3All, show j + M + 1 + 2 = (j + 1 + M) + 1 + 1 by omega, range_succ_flatMap, range_succ_flatMap,
      range_split, range_succ_flatMap, show j + 1 + M = j + M + 1 by omega]
    simp only [List.append_assoc]
  rw [hu] at hcl
  have hg : ∀ b, basisCX b ≠ .TICK := fun b => by cases b <;> decide
  have hg' : ∀ b, basisCX b ≠ .MPP := fun b => by cases b <;> decide
  rcases hpar : dataQubitParity q with _ | _
  · obtain ⟨e, he, rfl⟩ := exists_left hv hq hpar j
    refine hn.after (i := .on (basisCX (sub_round_edge_basis j)) (lay.leftTargets (lay.round_edges j))) (u := lay.prologue ++ (List.range j).flatMap (lay.pc3Emit (j + M + 1)))
      (w := [.on (basisCX (sub_round_edge_basis ((j : Int) - 1))) (lay.rightTargets (lay.round_edges ((j : Int) - 1)))] ++ w) (hcl.trans ?_) (hg _)
      (append_not_mpp (on_not_mpp (hg' _)) hwm) ((passes_on (not_right hv hq hpar _)).append hwp) (chan_clifford2 (kind_basisCX _) (hr _)) (draw_left he (hr _) _)
    simp only [List.append_assoc, List.cons_append, List.nil_append]
  · obtain ⟨e, he, rfl⟩ := exists_right hv hq hpar ((j : Int) - 1)
    refine hn.after (i := .on (basisCX (sub_round_edge_basis ((j : Int) - 1))) (lay.rightTargets (lay.round_edges ((j : Int) - 1))))
      (u := (lay.prologue ++ (List.range j).flatMap (lay.pc3Emit (j + M + 1))) ++
        [.on (basisCX (sub_round_edge_basis j)) (lay.leftTargets (lay.round_edges j))]) (w := w) (hcl.trans ?_) (hg _) hwm hwp
      (chan_clifford2 (kind_basisCX _) (hr _)) (draw_right he (hr _) _)
    simp only [List.append_assoc, List.cons_append, List.nil_append]

theorem drawable_si (hv : lay.Valid) (hst : lay.style = "SI1000") (hp : 0 < lay.noise) (hnm : lay.noise_model = .ok nm) {k M : Nat} (hk : 0 < k)
    (hn : lay.Noised (3 * (k + M)) D nm l) {q : Pt} (hq : q ∈ lay.data_qubit_coords) {P : Pauli} (hP0 : P ≠ 0) : lay.Drawable (3 * (k + M)) l (3 * k) q P := by
  have hE : lay.isEM3 = false := by simp [isEM3, hst]
  have hP : lay.isPC3 = false := by simp [isPC3, hst]
  have hr := rate_CZ hst hp hnm
  have ha : lay.allRounds (3 * (k + M)) = lay.si1000All (3 * (k + M)) := by simp [allRounds, hst, hE]
  refine ⟨_, _, _, _, hP0, enters_si hv hE hP hk hq P, ?_, fun _ _ => rfl⟩
  obtain ⟨i, rfl⟩ := Nat.exists_eq_add_of_le' hk
  obtain ⟨ms, hms⟩ : ∃ ms, lay.emitMD (3 * i) ++ (lay.emitMD (3 * i + 1) ++ lay.emitMD (3 * i + 2)) = ms := ⟨_, rfl⟩
  have hmm : ∀ i ∈ ms, i.gate ≠ .MPP := hms ▸ append_not_mpp (emitMD_not_mpp _) (append_not_mpp (emitMD_not_mpp _) (emitMD_not_mpp _))
  have hmp : Passes (lay.idx q) ms := hms ▸ (passes_emitMD hv hq _).append ((passes_emitMD hv hq _).append (passes_emitMD hv hq _))
  have htp : Passes (lay.idx q) [.tick] := passes_noise (by simp [Instr.tick, Instr.actions])
  have htm : ∀ i ∈ [Instr.tick], i.gate ≠ .MPP := by simp [Instr.tick]
  have hu : lay.si1000Emit i = (lay.siPre i ++ (lay.si1000Layer 1 ++ [.on .C_ZYX lay.data_qubit_indices_2nd])) ++
      .on .CZ (lay.leftTargets (lay.round_edges 2)) :: .tick :: .on .CZ (lay.rightTargets (lay.round_edges 2)) :: .tick :: .on .H lay.measure_qubit_indices :: .tick ::
        (ms ++ [.tick]) := by
    rw [si_split, siPost, hms, si1000Layer.eq_1 lay 2, if_neg (by decide)]
    simp only [List.append_assoc, List.cons_append, List.nil_append]
  have hcl : lay.closedCircuit (3 * (i + 1 + M)) = (lay.prologue ++ (List.range i).flatMap lay.si1000Emit) ++ (lay.si1000Emit i ++
      (((List.range M).flatMap fun t => lay.si1000Emit (i + 1 + t)) ++ lay.epilogue (3 * (i + 1 + M)))) := by
    rw [closed_parts, ha, si1000All, show 3 * (i + 1 + M) / 3 = i + 1 + M by omega, range_split, range_succ_flatMap]
    simp only [List.append_assoc]
  rw [hu] at hcl
  have hwm : ∀ i ∈ [Instr.tick] ++ ([.on .H lay.measure_qubit_indices] ++ ([Instr.tick] ++ ms)), i.gate ≠ .MPP :=
    append_not_mpp htm (append_not_mpp (on_not_mpp (by decide)) (append_not_mpp htm hmm))
  have hwp : Passes (lay.idx q) ([Instr.tick] ++ ([.on .H lay.measure_qubit_indices] ++ ([Instr.tick] ++ ms))) :=
    htp.append ((passes_on (not_measure hv hq)).append (htp.append hmp))
  rcases hpar : dataQubitParity q with _ | _
  · obtain ⟨e, he, rfl⟩ := exists_left hv hq hpar 2
    refine hn.after (w := [.tick] ++ ([.on .CZ (lay.rightTargets (lay.round_edges 2))] ++ ([Instr.tick] ++ ([.on .H lay.measure_qubit_indices] ++ ([Instr.tick] ++ ms)))))
      (u := (lay.prologue ++ (List.range i).flatMap lay.si1000Emit) ++ (lay.siPre i ++ (lay.si1000Layer 1 ++ [.on .C_ZYX lay.data_qubit_indices_2nd]))) (hcl.trans ?_) (by simp [Instr.on])
      (append_not_mpp htm (append_not_mpp (on_not_mpp (by decide)) hwm)) (htp.append ((passes_on (not_right hv hq hpar _)).append hwp))
      (chan_clifford2 (g := .CZ) rfl hr) (draw_left he hr _)
    simp only [List.append_assoc, List.cons_append, List.nil_append]
  · obtain ⟨e, he, rfl⟩ := exists_right hv hq hpar 2
    refine hn.after (w := [Instr.tick] ++ ([.on .H lay.measure_qubit_indices] ++ ([Instr.tick] ++ ms)))
      (u := (lay.prologue ++ (List.range i).flatMap lay.si1000Emit) ++ (lay.siPre i ++ (lay.si1000Layer 1 ++ [.on .C_ZYX lay.data_qubit_indices_2nd,
        .on .CZ (lay.leftTargets (lay.round_edges 2)), .tick]))) (hcl.trans ?_) (by simp [Instr.on]) hwm hwp
      (chan_clifford2 (g := .CZ) rfl hr) (draw_right he hr _)
    simp only [List.append_assoc, List.cons_append, List.nil_append]

theorem drawable_si_mid (hv : lay.Valid) (hst : lay.style = "SI1000") (hp : 0 < lay.noise) (hnm : lay.noise_model = .ok nm) {k M : Nat}
    (hn : lay.Noised (3 * (k + 1 + M)) D nm l) {q : Pt} (hq : q ∈ lay.data_qubit_coords) : lay.Drawable (3 * (k + 1 + M)) l (3 * k + 1) q (Basis.ofIdx 1).pauli := by
  have hE : lay.isEM3 = false := by simp [isEM3, hst]
  have hP : lay.isPC3 = false := by simp [isPC3, hst]
  have hr := rate_CZ hst hp hnm
  have hr1 := rate_cycle (.inr hst) hp hnm
  have ha : lay.allRounds (3 * (k + 1 + M)) = lay.si1000All (3 * (k + 1 + M)) := by simp [allRounds, hst, hE]
  refine ⟨_, _, _, _, rotN_some _ (pauli_some _), enters_si_mid hv hE hP hq, ?_, fun _ _ => rfl⟩
  obtain ⟨u, hu⟩ : ∃ u, lay.siPre k = u ++ .on .C_ZYX lay.data_qubit_indices_1st :: .on .CZ (lay.rightTargets (lay.round_edges 0)) :: [.tick] := by
    obtain ⟨z, hz⟩ : ∃ z, (if 0 < k then [Instr.on .R lay.measure_qubit_indices, .tick] else []) = z := ⟨_, rfl⟩
    rw [siPre, hz, si1000Layer, if_pos (by decide)]
    exact ⟨z ++ [.on .C_ZYX lay.data_qubit_indices_1st, .on .H lay.measure_qubit_indices, .tick, .on .C_ZYX lay.data_qubit_indices_2nd,
      .on .CZ (lay.leftTargets (lay.round_edges 0)), .tick], by simp⟩
  have hcl : lay.closedCircuit (3 * (k + 1 + M)) = (lay.prologue ++ ((List.range k).flatMap lay.si1000Emit)) ++ (lay.siPre k ++
      (lay.si1000Layer 1 ++ lay.siPost k ++ ((List.range M).flatMap fun i => lay.si1000Emit (k + 1 + i)) ++ lay.epilogue (3 * (k + 1 + M)))) := by
    rw [closed_parts, ha, si1000All, show 3 * (k + 1 + M) / 3 = k + 1 + M by omega, range_split, range_succ_flatMap, si_split]
    simp only [List.append_assoc]
  rw [hu] at hcl
  rcases hpar : dataQubitParity q with _ | _
  · refine hn.after (w := [.on .CZ (lay.rightTargets (lay.round_edges 0))]) (u := (lay.prologue ++ ((List.range k).flatMap lay.si1000Emit)) ++ u) (hcl.trans ?_) (by simp [Instr.on])
      (on_not_mpp (by decide)) (passes_on (not_right hv hq hpar _)) (chan_clifford1 (g := .C_ZYX) rfl hr1) (draw_one (mem_1st hq hpar) hr1 _)
    simp only [List.append_assoc, List.cons_append, List.nil_append]
  · obtain ⟨e, he, rfl⟩ := exists_right hv hq hpar 0
    refine hn.after (w := []) (u := (lay.prologue ++ ((List.range k).flatMap lay.si1000Emit)) ++ (u ++ [.on .C_ZYX lay.data_qubit_indices_1st])) (hcl.trans ?_) (by simp [Instr.on])
      (by simp) (passes_marks (by simp)) (chan_clifford2 (g := .CZ) rfl hr) (draw_right he hr _)
    simp only [List.append_assoc, List.cons_append, List.nil_append]

/-! ## Every elementary fault -/

theorem drawable (hv : lay.Valid) (hs : lay.Supported) (hN : lay.sub_rounds = N) (hp : 0 < lay.noise) (hnm : lay.noise_model = .ok nm) (hn : lay.Noised N D nm l)
    (hD : lay.isEM3 = true → ∀ q ∈ lay.data_qubit_coords, lay.idx q ≠ D) {x : Nat × Pt × Pauli} (hx : lay.Elem N x) :
    (∀ ψ, lay.Meter N ψ → ψ (oneFault x.1 x.2.1 x.2.2) = 0) ∨ lay.Drawable N l x.1 x.2.1 x.2.2 := by
  obtain ⟨j, q, P⟩ := x
  obtain ⟨hq, hx⟩ := hx
  simp only at hq hx ⊢
  have h1 : 1 ≤ N := by have := hs.2.2.1; omega
  rcases Nat.eq_zero_or_pos j with rfl | h0
  · exact drawable_start hv hs hN hp hnm hn hq P
  obtain ⟨hj, rfl⟩ : j ≤ N ∧ P = (Basis.ofIdx j).pauli := by
    rcases hx with h | h
    · exact h
    · omega
  rcases Nat.lt_or_eq_of_le hj with hlt | rfl
  swap
  · exact drawable_end hv hs h1 hp hnm hn hq _
  have shift : ∀ {j' : Nat} {P : Pauli}, (∀ ψ, lay.Meter N ψ → ψ (oneFault j' q P) = ψ (oneFault j q (Basis.ofIdx j).pauli)) →
      ((∀ ψ, lay.Meter N ψ → ψ (oneFault j' q P) = 0) ∨ lay.Drawable N l j' q P) →
      (∀ ψ, lay.Meter N ψ → ψ (oneFault j q (Basis.ofIdx j).pauli) = 0) ∨ lay.Drawable N l j q (Basis.ofIdx j).pauli := by
    rintro j' P h (h2 | ⟨v, j2, P', P'', z, a, b, c⟩)
    · exact .inl fun ψ hψ => by rw [← h ψ hψ, h2 ψ hψ]
    · exact .inr ⟨v, j2, P', P'', z, a, b, fun ψ hψ => by rw [c ψ hψ, h ψ hψ]⟩
  rcases hs.1 with hst | hst | hst | hst | hst
  all_goals first
    | exact .inr (drawable_em3 hv hst hp hnm hn hlt hq (pauli_some _))
    | exact .inr (drawable_em3v2 hv hst hp hnm hn (hD (by simp [isEM3, hst])) hlt hq)
    | exact .inr (drawable_pc3 hv hst hp hnm hn h0 hlt hq)
    | skip
  all_goals first
    | (by_cases h2 : j + 1 = N
       · subst h2
         exact shift (fun ψ hψ => hψ.slide hv (by omega) q) (drawable_end hv hs h1 hp hnm hn hq _)
       · exact .inr (drawable_sd6 hv hst hN hp hnm hn h0 (by omega) hq))
    | skip
  have h3 : 3 ∣ N := by
    have := hs.2.2.2 hst
    omega
  obtain ⟨K, rfl⟩ := h3
  obtain ⟨k, hk⟩ : ∃ k, j = 3 * k ∨ j = 3 * k + 1 ∨ j = 3 * k + 2 := ⟨j / 3, by omega⟩
  rcases hk with rfl | rfl | rfl
  · obtain ⟨M, rfl⟩ : ∃ M, K = k + M := ⟨K - k, by omega⟩
    exact .inr (drawable_si hv hst hp hnm (by omega) hn hq (pauli_some _))
  · obtain ⟨M, rfl⟩ : ∃ M, K = k + 1 + M := ⟨K - k - 1, by omega⟩
    have := drawable_si_mid hv hst hp hnm hn hq
    rw [show Basis.ofIdx ((3 * k + 1 : Nat) : Int) = Basis.ofIdx 1 from ofIdx_congr (by omega)]
    exact .inr this
  · obtain ⟨M, rfl⟩ : ∃ M, K = k + 1 + M := ⟨K - k - 1, by omega⟩
    exact shift (fun ψ hψ => hψ.slide hv (by omega) q) (.inr (drawable_si hv hst hp hnm (by omega) hn hq (pauli_some _)))

/-- One error of a noise channel causes a given elementary fault, unless the fault does nothing. -/
theorem drawn (hv : lay.Valid) (hs : lay.Supported) (hN : lay.sub_rounds = N) (hp : 0 < lay.noise) {d : Circuit} (hd : lay.makeCircuit = .ok d) {x : Nat × Pt × Pauli}
    (hx : lay.Elem N x) : (∀ ψ, lay.Meter N ψ → ψ (oneFault x.1 x.2.1 x.2.2) = 0) ∨ ∃ rec Fs, CanSample 1 d.flatten rec ∧ rec.length = lay.total N ∧
      lay.Recorded N Fs (recAt rec) ∧ ∀ ψ, lay.Meter N ψ → ψ Fs = ψ (oneFault x.1 x.2.1 x.2.2) := by
  obtain ⟨nm, hnm, hn⟩ := noised hv hs hN hd
  have hD : ∀ q ∈ lay.data_qubit_coords, lay.idx q ≠ lay.num_qubits.toNat := by
    intro q hq h
    have hm : Instr.on .M lay.data_qubit_indices ∈ lay.closedCircuit N := by rw [closedCircuit]; simp
    have := closed_qubits hv hs hN hm (q := lay.idx q) (by rw [qubits_on]; exact List.mem_map_of_mem hq)
    omega
  refine (drawable hv hs hN hp hnm hn (fun _ => hD) hx).imp id ?_
  rintro ⟨v, j, P, P', hP, ⟨n, hen⟩, ⟨c, r, G, m, F', hc, h1, h2⟩, hψ⟩
  obtain rfl := hc hP
  obtain ⟨Fs, g1, g2, g3⟩ := hen r G h1
  have hl : (List.replicate m (0 : ZMod 2) ++ r).length = lay.total N := by
    obtain ⟨es, rec0, G, m, hle, hes, hrun, hdiff⟩ := sampled hv hs hN hd h2.loose
    obtain ⟨g1, g2, g3⟩ := sampled_inside hv hs hN hes hrun hdiff
    obtain ⟨E, Fs, ht, hrec, hl, hE⟩ := damage_traj hv hs hN g1 g2 g3
    exact hl
  have hmn : m = n := by
    rw [List.length_append, List.length_replicate] at hl
    omega
  subst hmn
  exact ⟨_, Fs, ⟨_, _, fun _ => rfl, h2⟩, hl, g2, fun ψ hm => by rw [hm.one hv g1, hψ ψ hm]⟩

end HoneycombLayout
end Honeycomb
