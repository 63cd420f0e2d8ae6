import Verif.Lemmas.SlotLoad

/-!
# The blocks of the noiseless circuit
-/

namespace Honeycomb
open HoneycombLayout

/-- Each block ends with a tick. -/
def TickEnd (l : List Instr) : Prop := ∃ m, l = m ++ [.tick]

variable {f : List Instr → List Instr} {l a b c : List Instr}

theorem Stepwise.first (h : Stepwise f l (a ++ b)) (ha : TickEnd a) : ∃ x y, l = x ++ y ∧ Stepwise f x a ∧ Stepwise f y b := by
  obtain ⟨m, rfl⟩ := ha
  obtain ⟨x, y, rfl, h1, h2⟩ := h.cut (a := m) (b := b) (by simp)
  exact ⟨x ++ [.tick], y, by simp, h1.append (.tick .nil), h2⟩

theorem Stepwise.parts : ∀ {Bs : List (List Instr)} {l : List Instr}, Stepwise f l (Bs.flatten ++ c) → (∀ b ∈ Bs, TickEnd b) →
    ∃ Ds y, l = Ds.flatten ++ y ∧ List.Forall₂ (Stepwise f) Ds Bs ∧ Stepwise f y c
  | [], l, h, _ => ⟨[], l, rfl, .nil, h⟩
  | b :: Bs, l, h, hB => by
    rw [List.flatten_cons, List.append_assoc] at h
    obtain ⟨x, y, rfl, h1, h2⟩ := h.first (hB b (by simp))
    obtain ⟨Ds, z, rfl, h3, h4⟩ := h2.parts fun b hb => hB b (by simp [hb])
    exact ⟨x :: Ds, z, by simp, .cons h1 h3, h4⟩

/-! ## The blocks of the noiseless circuit -/

theorem opCount_marks {l : List Instr} (h : ∀ i ∈ l, isMark i = true) : opCount l = 0 := by
  refine List.countP_eq_zero.2 fun i hi => ?_
  have := (isMark_iff i).1 (h i hi)
  rcases this with h | h | h <;> simp [h, kind]

theorem opCount_le_length (l : List Instr) : opCount l ≤ l.length := List.countP_le_length

variable {lay : HoneycombLayout} {N : Nat}

theorem roundMeas_length (hv : lay.Valid) (k : Nat) : (lay.roundMeas k).length = lay.perRound := by
  rw [roundMeas]
  split_ifs <;> rw [List.length_map, perRound_eq hv]

theorem opCount_md (k : Nat) : opCount (lay.emitMD k) ≤ 1 := by
  rw [emitMD, opCount_append, opCount_marks (emitAnn_marks k), Nat.add_zero, emitMeas]
  split_ifs
  · simp [opCount]
  · exact opCount_le_length _

theorem opCount_cycle (a b : Bool) : opCount (lay.cycleData a b) ≤ 1 := by
  cases a <;> cases b <;> exact (opCount_le_length _).trans (by simp [cycleData])

theorem opCount_basis (b : Basis) : opCount (lay.basisChange b) ≤ 2 := by
  refine (opCount_le_length _).trans ?_
  rw [basisChange]
  split_ifs <;> simp

theorem opCount_realign : opCount lay.sd6Realign ≤ 2 := by
  refine (opCount_le_length _).trans ?_
  rw [sd6Realign]
  split_ifs <;> simp

theorem opCount_coords : opCount lay.qubitCoordOps = 0 := by
  refine List.countP_eq_zero.2 fun i hi => ?_
  obtain ⟨q, _, rfl⟩ := List.mem_map.1 hi
  simp [kind]

theorem opCount_pc3 (k : Nat) : opCount (lay.pc3Emit N k) ≤ 4 := by
  rw [pc3Emit, opCount_append, opCount_append, opCount_append]
  have h1 : ∀ (p : Prop) [Decidable p] (i : Instr), opCount (if p then [i] else []) ≤ 1 := fun p _ i => (opCount_le_length _).trans (by split_ifs <;> simp)
  have h2 : opCount (if 2 ≤ k then lay.emitMD (k - 2) else lay.subRoundResets ((k : Int) - 2)) ≤ 1 := by
    split_ifs
    · exact opCount_md _
    · exact opCount_le_length _
  have := h1 (k < N) (.on (basisCX (sub_round_edge_basis k)) (lay.leftTargets (lay.round_edges k)))
  have := h1 (1 ≤ k ∧ k - 1 < N) (.on (basisCX (sub_round_edge_basis ((k : Int) - 1))) (lay.rightTargets (lay.round_edges ((k : Int) - 1))))
  have : opCount [.tick] ≤ 1 := opCount_le_length _
  omega

/-- The noiseless circuit is a sequence of blocks of a few operations each; all but the first and the last have as many results as a sub-round
or more. -/
theorem closed_blocks (hv : lay.Valid) (hs : lay.Supported) : ∃ (a c : List Instr) (Bs : List (List Instr)) (R : Nat),
    lay.closedCircuit N = a ++ (Bs.flatten ++ c) ∧ TickEnd a ∧ opCount a ≤ 30 ∧ opCount c ≤ 30 ∧ Bs.length ≤ N ∧ lay.perRound ≤ R ∧
      ∀ b ∈ Bs, TickEnd b ∧ opCount b ≤ 30 ∧ (measured b).length = R := by
  have t1 : opCount [Instr.tick] ≤ 1 := opCount_le_length _
  have wb0 := opCount_basis (lay := lay) (lay.obsAt 0).1
  have wb1 := opCount_basis (lay := lay) (lay.obsAt N).1
  have wi : opCount (lay.qubitCoordOps ++ ([.on .R lay.used_qubit_indices, .tick] ++ lay.basisChange (lay.obsAt 0).1)) ≤ 4 := by
    rw [opCount_append, opCount_append, opCount_coords]
    have : opCount [.on .R lay.used_qubit_indices, .tick] ≤ 2 := opCount_le_length _
    omega
  have ti : TickEnd (lay.qubitCoordOps ++ ([.on .R lay.used_qubit_indices, .tick] ++ lay.basisChange (lay.obsAt 0).1)) := by
    rw [basisChange]
    split_ifs
    · exact ⟨lay.qubitCoordOps ++ ([.on .R lay.used_qubit_indices, .tick] ++ [.on (toZGate (lay.obsAt 0).1) lay.data_qubit_indices]), by simp⟩
    · exact ⟨lay.qubitCoordOps ++ [.on .R lay.used_qubit_indices], by simp⟩
  have wf : opCount (lay.basisChange (lay.obsAt N).1 ++ [.on .M lay.data_qubit_indices] ++ lay.emitFinal N N) ≤ 3 := by
    rw [opCount_append, opCount_append, opCount_marks emitFinal_marks]
    have : opCount [.on .M lay.data_qubit_indices] ≤ 1 := opCount_le_length _
    omega
  rw [closedCircuit]
  generalize lay.qubitCoordOps ++ ([.on .R lay.used_qubit_indices, .tick] ++ lay.basisChange (lay.obsAt 0).1) = I at wi ti ⊢
  generalize lay.basisChange (lay.obsAt N).1 ++ [.on .M lay.data_qubit_indices] ++ lay.emitFinal N N = E at wf ⊢
  have w2a : ∀ k, opCount (lay.subRound2qOps k).1 ≤ 1 := fun k => opCount_le_length _
  have w2b : ∀ k, opCount (lay.subRound2qOps k).2 ≤ 1 := fun k => opCount_le_length _
  have wr : ∀ k, opCount (lay.subRoundResets k) ≤ 1 := fun k => opCount_le_length _
  rcases supported_style hs with ⟨h, he⟩ | ⟨h, he⟩ | ⟨hn1, hn2, he⟩ | ⟨h, he⟩
  · rw [allRounds, if_pos h, sd6All]
    by_cases hN1 : N = 1
    · rw [if_pos hN1]
      refine ⟨I, _, [], lay.perRound, by rw [List.flatten_nil, List.nil_append, List.append_assoc], ti, by omega, ?_, by simp, le_rfl, by simp⟩
      simp only [opCount_append]
      have := wr 0
      have := w2a 0
      have := w2b 0
      have := opCount_cycle (lay := lay) true true
      have := opCount_md (lay := lay) 0
      have := opCount_realign (lay := lay)
      omega
    · rw [if_neg hN1]
      refine ⟨I ++ lay.sd6Start, lay.sd6EndEmit N ++ lay.sd6Realign ++ E, (List.range (N - 2)).map lay.sd6Emit, lay.perRound, ?_, ?_, ?_, ?_, ?_, le_rfl, ?_⟩
      · rw [List.flatMap_def]; simp only [List.append_assoc]
      · exact ⟨I ++ (lay.subRoundResets 0 ++ lay.cycleData true false ++ [.tick] ++ (lay.subRound2qOps 0).1 ++ [.tick]
          ++ lay.subRoundResets 1 ++ lay.cycleData true true), by rw [sd6Start]; simp only [List.append_assoc]⟩
      · simp only [sd6Start, opCount_append]
        have := wr 0
        have := wr 1
        have := w2a 0
        have := opCount_cycle (lay := lay) true true
        have := opCount_cycle (lay := lay) true false
        omega
      · simp only [sd6EndEmit, opCount_append]
        have := w2a ((N : Int) - 1)
        have := w2b ((N : Int) - 1)
        have := w2b ((N : Int) - 2)
        have := opCount_cycle (lay := lay) false true
        have := opCount_md (lay := lay) (N - 2)
        have := opCount_md (lay := lay) (N - 1)
        have := opCount_realign (lay := lay)
        omega
      · rw [List.length_map, List.length_range]; omega
      · intro b hb
        obtain ⟨k, -, rfl⟩ := List.mem_map.1 hb
        refine ⟨⟨_, rfl⟩, ?_, by rw [(isRound_sd6 hv he k).meas, roundMeas_length hv]⟩
        simp only [sd6Emit, opCount_append]
        have := w2a ((k : Int) + 1)
        have := w2b (k : Int)
        have := wr ((k : Int) + 2)
        have := opCount_cycle (lay := lay) true true
        have := opCount_md (lay := lay) k
        omega
  · rw [allRounds, if_neg (by rw [h]; decide), if_pos h, pc3All]
    refine ⟨I ++ (List.range 2).flatMap (lay.pc3Emit N), lay.pc3ObsEmit N ++ E, (List.range N).map fun k => lay.pc3Emit N (2 + k), lay.perRound, ?_, ?_, ?_, ?_, ?_, le_rfl, ?_⟩
    · rw [Nat.add_comm N 2, range_flatMap_add, ← List.flatMap_def]; simp only [List.append_assoc]
    · refine ⟨I ++ (lay.pc3Emit N 0 ++ ((if 1 < N then [.on (basisCX (sub_round_edge_basis (1 : Nat))) (lay.leftTargets (lay.round_edges (1 : Nat)))] else []) ++
        (if 1 ≤ 1 ∧ 1 - 1 < N then [.on (basisCX (sub_round_edge_basis (((1 : Nat) : Int) - 1))) (lay.rightTargets (lay.round_edges (((1 : Nat) : Int) - 1)))] else []) ++
        (lay.subRoundResets (((1 : Nat) : Int) - 2)))), ?_⟩
      have e : (List.range 2).flatMap (lay.pc3Emit N) = lay.pc3Emit N 0 ++ lay.pc3Emit N 1 := by simp [List.range_succ]
      rw [e, pc3Emit.eq_def lay N 1, if_neg (by omega : ¬ 2 ≤ 1)]
      simp only [List.append_assoc]
    · have e : (List.range 2).flatMap (lay.pc3Emit N) = lay.pc3Emit N 0 ++ lay.pc3Emit N 1 := by simp [List.range_succ]
      rw [e, opCount_append, opCount_append]
      have := opCount_pc3 (lay := lay) (N := N) 0
      have := opCount_pc3 (lay := lay) (N := N) 1
      omega
    · rw [opCount_append, opCount_marks fun i hi => (isMark_iff i).2 (Or.inr (Or.inl (pc3ObsEmit_gate hi)))]
      omega
    · rw [List.length_map, List.length_range]
    · intro b hb
      obtain ⟨k, -, rfl⟩ := List.mem_map.1 hb
      exact ⟨⟨_, rfl⟩, (opCount_pc3 _).trans (by omega), by rw [(isRound_pc3 hv he N (2 + k) (by omega)).meas, roundMeas_length hv]⟩
  · rw [allRounds, if_neg hn1, if_neg hn2, if_pos he, em3All]
    refine ⟨I, E, (List.range N).map lay.em3Emit, lay.perRound, ?_, ti, by omega, by omega, ?_, le_rfl, ?_⟩
    · rw [List.flatMap_def]; simp only [List.append_assoc]
    · rw [List.length_map, List.length_range]
    · intro b hb
      obtain ⟨k, -, rfl⟩ := List.mem_map.1 hb
      refine ⟨⟨_, rfl⟩, ?_, by rw [(isRound_em3 hv he k).meas, roundMeas_length hv]⟩
      rw [em3Emit, opCount_append, opCount_append]
      have := opCount_md (lay := lay) k
      have h3 : ∀ i : Instr, opCount [i] ≤ 1 := fun i => opCount_le_length _
      have := h3 { gate := .MPP, targets := (lay.round_edges k).flatMap fun e =>
        [.pauli (sub_round_edge_basis k) (lay.idx e.left), .comb, .pauli (sub_round_edge_basis k) (lay.idx e.right)] }
      omega
  · rw [allRounds, if_neg (by rw [h]; decide), if_neg (by rw [h]; decide), if_neg (by simp [he]), si1000All]
    refine ⟨I, E, (List.range (N / 3)).map lay.si1000Emit, 3 * lay.perRound, ?_, ti, by omega, by omega, ?_, by omega, ?_⟩
    · rw [List.flatMap_def]; simp only [List.append_assoc]
    · rw [List.length_map, List.length_range]; omega
    · intro b hb
      obtain ⟨j, -, rfl⟩ := List.mem_map.1 hb
      have e : (List.range 3).flatMap (fun i => lay.emitMD (3 * j + i)) = lay.emitMD (3 * j) ++ (lay.emitMD (3 * j + 1) ++ lay.emitMD (3 * j + 2)) := by
        simp [List.range_succ]
      have el : (pyRange 3).flatMap lay.si1000Layer = lay.si1000Layer 0 ++ (lay.si1000Layer 1 ++ lay.si1000Layer 2) := by
        rw [show pyRange 3 = [0, 1, 2] from rfl]; simp
      have wl : ∀ k, opCount (lay.si1000Layer k) ≤ 6 := fun k => (opCount_le_length _).trans (by rw [si1000Layer]; split_ifs <;> simp)
      have w0 : opCount (if 0 < j then [.on .R lay.measure_qubit_indices, .tick] else []) ≤ 2 := (opCount_le_length _).trans (by split_ifs <;> simp)
      have w1 : opCount [.on .C_ZYX lay.data_qubit_indices_1st, .on .H lay.measure_qubit_indices, .tick] ≤ 3 := opCount_le_length _
      have w2 : opCount [.on .H lay.measure_qubit_indices, .tick] ≤ 2 := opCount_le_length _
      have wm := fun i => opCount_md (lay := lay) i
      refine ⟨⟨_, rfl⟩, ?_, ?_⟩
      · rw [si1000Emit]
        simp only [e, el, opCount_append]
        have := wl 0
        have := wl 1
        have := wl 2
        have := wm (3 * j)
        have := wm (3 * j + 1)
        have := wm (3 * j + 2)
        omega
      · have hq : measured ((if 0 < j then [.on .R lay.measure_qubit_indices, .tick] else [])
            ++ [.on .C_ZYX lay.data_qubit_indices_1st, .on .H lay.measure_qubit_indices, .tick]
            ++ (pyRange 3).flatMap lay.si1000Layer ++ [.on .H lay.measure_qubit_indices, .tick]) = [] := by
          rw [el]
          simp only [si1000Layer]
          split_ifs <;> rfl
        rw [si1000Emit, measured_append, measured_append, hq, e, measured_append, measured_append, (isRound_md hv he _).meas, (isRound_md hv he _).meas,
          (isRound_md hv he _).meas]
        simp only [List.length_append, roundMeas_length hv, List.length_nil]
        rw [show (measured [Instr.tick]).length = 0 from rfl]
        omega

end Honeycomb
