import Verif.Lemmas.ClosedRest
import Verif.Spec.Timeline

/-! Which instructions the closed form contains and where its annotations sit in the measurement record. -/

namespace Honeycomb

/-- Total number of measurements of a sequence. -/
def mcount (l : List Instr) : Nat := (l.map Instr.measureCount).sum

theorem mcount_append (a b : List Instr) : mcount (a ++ b) = mcount a + mcount b := by simp [mcount]

theorem mcount_nil : mcount [] = 0 := rfl

theorem measureCount_mark {i : Instr} (h : isMark i = true) : i.measureCount = 0 := by
  rcases i with ⟨g, ts, as⟩
  cases g <;> simp_all [isMark, Instr.measureCount]

theorem measured_append (a b : List Instr) : measured (a ++ b) = measured a ++ measured b := by simp [measured]

theorem measures_nil {i : Instr} (h : i.measureCount = 0) : i.measures = [] := by
  rcases i with ⟨g, ts, as⟩
  cases g <;> simp_all [Instr.measureCount, Instr.measures, Instr.qubits]

theorem measured_nil_of {l : List Instr} (h : ∀ i ∈ l, i.measureCount = 0) : measured l = [] := by
  rw [measured, List.flatMap_eq_nil_iff]
  exact fun i hi => measures_nil (h i hi)

theorem isMark_iff (i : Instr) :
    isMark i = true ↔ i.gate = .DETECTOR ∨ i.gate = .OBSERVABLE_INCLUDE ∨ i.gate = .SHIFT_COORDS := by
  rcases i with ⟨g, ts, as⟩
  cases g <;> simp [isMark]

theorem timeline_append (a b : List Instr) (k : Nat) : timeline k (a ++ b) = timeline k a ++ timeline (k + mcount a) b := by
  induction a generalizing k with
  | nil => rfl
  | cons i a ih =>
    rw [List.cons_append, timeline, timeline, ih, ih, show k + mcount (i :: a) = k + i.measureCount + mcount a by
      simp [mcount, Nat.add_assoc]]
    split_ifs with h
    · rw [measureCount_mark h]; rfl
    · rfl

/-- Neither measurements nor marks. -/
def Quiet (l : List Instr) : Prop := ∀ i ∈ l, i.measureCount = 0 ∧ isMark i = false

theorem quiet_append {a b : List Instr} (ha : Quiet a) (hb : Quiet b) : Quiet (a ++ b) := by
  intro i hi
  rcases List.mem_append.1 hi with h | h
  · exact ha i h
  · exact hb i h

theorem quiet_nil : Quiet [] := by intro i hi; simp at hi

theorem quiet_ite {p : Prop} [Decidable p] {a b : List Instr} (ha : Quiet a) (hb : Quiet b) : Quiet (if p then a else b) := by
  split_ifs <;> assumption

/-- The gates of quiet instructions. -/
def quietGate : Gate → Bool
  | .M | .MX | .MY | .MPP | .DETECTOR | .OBSERVABLE_INCLUDE | .SHIFT_COORDS => false
  | _ => true

theorem quiet_of_gate {i : Instr} (h : quietGate i.gate = true) : i.measureCount = 0 ∧ isMark i = false := by
  rcases i with ⟨g, ts, as⟩
  cases g <;> simp_all [quietGate, Instr.measureCount, isMark]

theorem quiet_of_gates {l : List Instr} (h : ∀ i ∈ l, quietGate i.gate = true) : Quiet l :=
  fun i hi => quiet_of_gate (h i hi)

theorem mcount_quiet {l : List Instr} (h : Quiet l) : mcount l = 0 := by
  induction l with
  | nil => rfl
  | cons i l ih =>
    have h1 := (h i (by simp)).1
    have h2 := ih fun j hj => h j (by simp [hj])
    simp only [mcount, List.map_cons, List.sum_cons] at *
    omega

theorem timeline_quiet {l : List Instr} (h : Quiet l) (k : Nat) : timeline k l = [] := by
  induction l generalizing k with
  | nil => rfl
  | cons i l ih =>
    have h1 := h i (by simp)
    rw [timeline, if_neg (by simp [h1.2]), ih fun j hj => h j (by simp [hj])]

theorem measured_quiet {l : List Instr} (h : Quiet l) : measured l = [] := measured_nil_of fun i hi => (h i hi).1

/-- All marks of a sequence of marks sit at the same place. -/
theorem timeline_marks {l : List Instr} (h : ∀ i ∈ l, isMark i = true) (k : Nat) : timeline k l = l.map fun i => (i, k) := by
  induction l generalizing k with
  | nil => rfl
  | cons i l ih => rw [timeline, if_pos (h i (by simp)), ih fun j hj => h j (by simp [hj])]; rfl

theorem mcount_marks {l : List Instr} (h : ∀ i ∈ l, isMark i = true) : mcount l = 0 := by
  induction l with
  | nil => rfl
  | cons i l ih =>
    have h1 := measureCount_mark (h i (by simp))
    have h2 := ih fun j hj => h j (by simp [hj])
    simp only [mcount, List.map_cons, List.sum_cons] at *
    omega

theorem measured_marks {l : List Instr} (h : ∀ i ∈ l, isMark i = true) : measured l = [] :=
  measured_nil_of fun i hi => measureCount_mark (h i hi)

namespace HoneycombLayout
variable (lay : HoneycombLayout)

/-- What sub-round `k` measures. -/
def roundMeas (k : Nat) : List (List (Basis × Nat)) :=
  (lay.round_edges k).map fun e =>
    if lay.isEM3 then [(sub_round_edge_basis k, lay.idx e.left), (sub_round_edge_basis k, lay.idx e.right)]
    else [(.Z, lay.idx e.center)]

/-- The annotations of sub-round `k` with their place in the record. -/
def roundUses (k : Nat) : List (Instr × Nat) :=
  (lay.emitAnn k).map fun i => (i, (k + 1) * lay.perRound)

/-- The part of sub-round `k` that starts at measurement `k * perRound` and makes the sub-round's measurements. -/
structure IsRound (k : Nat) (l : List Instr) : Prop where
  count : mcount l = lay.perRound
  uses : timeline (k * lay.perRound) l = lay.roundUses k
  meas : measured l = lay.roundMeas k

variable {lay}

theorem IsRound.quiet_left {k : Nat} {l q : List Instr} (h : lay.IsRound k l) (hq : Quiet q) : lay.IsRound k (q ++ l) := by
  refine ⟨by rw [mcount_append, mcount_quiet hq, h.count, Nat.zero_add], ?_,
    by rw [measured_append, measured_quiet hq, List.nil_append, h.meas]⟩
  rw [timeline_append, timeline_quiet hq, mcount_quiet hq, List.nil_append, Nat.add_zero, h.uses]

theorem IsRound.quiet_right {k : Nat} {l q : List Instr} (h : lay.IsRound k l) (hq : Quiet q) : lay.IsRound k (l ++ q) := by
  refine ⟨by rw [mcount_append, mcount_quiet hq, h.count, Nat.add_zero], ?_,
    by rw [measured_append, measured_quiet hq, List.append_nil, h.meas]⟩
  rw [timeline_append, timeline_quiet hq, List.append_nil, h.uses]

theorem detI_gate {t o c} {i : Instr} (h : i ∈ detI t o c) : i.gate = .DETECTOR := by
  cases o <;> simp [detI] at h
  subst h; rfl

theorem emitAnn_gate {k : Nat} {i : Instr} (h : i ∈ lay.emitAnn k) :
    i.gate = .DETECTOR ∨ i.gate = .OBSERVABLE_INCLUDE ∨ i.gate = .SHIFT_COORDS := by
  simp only [emitAnn, List.mem_append, List.mem_singleton, or_assoc] at h
  rcases h with h | h | h | h
  · split_ifs at h
    · simp at h
    · rw [List.mem_singleton] at h; subst h; exact Or.inr (Or.inl rfl)
  · split_ifs at h
    · obtain ⟨e, _, he⟩ := List.mem_flatMap.1 h
      exact Or.inl (detI_gate he)
    · simp at h
  · obtain ⟨e, _, he⟩ := List.mem_flatMap.1 h
    exact Or.inl (detI_gate he)
  · subst h; exact Or.inr (Or.inr rfl)

theorem emitAnn_marks (k : Nat) : ∀ i ∈ lay.emitAnn k, isMark i = true := fun i h => (isMark_iff i).2 (emitAnn_gate h)

/-- Measurements and annotations together, when the measurements are in front. -/
theorem isRound_of_meas {k : Nat} {ms : List Instr} (hc : mcount ms = lay.perRound)
    (hms : measured ms = lay.roundMeas k) (hm : ∀ i ∈ ms, isMark i = false) : lay.IsRound k (ms ++ lay.emitAnn k) := by
  refine ⟨by rw [mcount_append, hc, mcount_marks (emitAnn_marks k), Nat.add_zero], ?_,
    by rw [measured_append, hms, measured_marks (emitAnn_marks k), List.append_nil]⟩
  rw [timeline_append, hc, timeline_marks (emitAnn_marks k)]
  have : timeline (k * lay.perRound) ms = [] := by
    clear hc hms
    generalize k * lay.perRound = t
    induction ms generalizing t with
    | nil => rfl
    | cons i l ih => rw [timeline, if_neg (by simp [hm i (by simp)]), ih fun j hj => hm j (by simp [hj])]
  rw [this, List.nil_append, roundUses]
  congr 2
  ring_nf

theorem isRound_md (hv : lay.Valid) (he : lay.isEM3 = false) (k : Nat) : lay.IsRound k (lay.emitMD k) := by
  apply isRound_of_meas
  · simp [emitMeas, he, mcount, Instr.measureCount, Instr.on, perRound_eq hv]
  · simp [emitMeas, he, measured, Instr.measures, Instr.qubits, Instr.on, roundMeas, List.filterMap_map, Function.comp_def, Target.qubit?]
  · intro i hi
    simp only [emitMeas, he, Bool.false_eq_true, if_false, List.mem_singleton] at hi
    subst hi
    simp [isMark, Instr.on]

theorem quiet_on {g : Gate} (h : quietGate g = true) (qs : List Nat) : Quiet [.on g qs] := by
  apply quiet_of_gates; intro i hi; rw [List.mem_singleton] at hi; subst hi; exact h

theorem quiet_tick : Quiet [.tick] := by
  apply quiet_of_gates; intro i hi; rw [List.mem_singleton] at hi; subst hi; rfl

theorem quiet_basisCX (b : Basis) (qs : List Nat) : Quiet [.on (basisCX b) qs] := quiet_on (by cases b <;> rfl) qs

theorem quiet_resets (k : Int) : Quiet (lay.subRoundResets k) := quiet_on rfl _

theorem quiet_left (k : Int) : Quiet (lay.subRound2qOps k).1 := quiet_on rfl _

theorem quiet_right (k : Int) : Quiet (lay.subRound2qOps k).2 := quiet_on rfl _

theorem quiet_cycleData (a b : Bool) : Quiet (lay.cycleData a b) := by
  cases a <;> cases b <;> first | exact quiet_nil | exact quiet_on rfl _

theorem quiet_realign : Quiet lay.sd6Realign := by
  refine quiet_append (quiet_ite (quiet_on rfl _) (quiet_ite (quiet_on rfl _) quiet_nil)) quiet_tick

theorem quiet_basisChange (b : Basis) : Quiet (lay.basisChange b) := by
  rw [basisChange]
  split_ifs
  · exact quiet_append (quiet_on (by cases b <;> rfl) _) quiet_tick
  · exact quiet_nil

theorem quiet_sd6Start : Quiet lay.sd6Start := by
  exact quiet_append (quiet_append (quiet_append (quiet_append (quiet_append (quiet_append (quiet_append (quiet_resets _)
    (quiet_cycleData _ _)) quiet_tick) (quiet_left _)) quiet_tick) (quiet_resets _)) (quiet_cycleData _ _)) quiet_tick

theorem quiet_init : Quiet (lay.qubitCoordOps ++ ([.on .R lay.used_qubit_indices, .tick] ++ lay.basisChange (lay.obsAt 0).1)) := by
  refine quiet_append ?_ (quiet_append (quiet_append (quiet_on rfl _) quiet_tick) (quiet_basisChange _))
  apply quiet_of_gates
  intro i hi
  obtain ⟨q, _, rfl⟩ := List.mem_map.1 hi
  rfl

theorem isRound_sd6 (hv : lay.Valid) (he : lay.isEM3 = false) (k : Nat) : lay.IsRound k (lay.sd6Emit k) := by
  rw [sd6Emit]
  apply IsRound.quiet_right _ quiet_tick
  apply IsRound.quiet_left (isRound_md hv he k)
  exact quiet_append (quiet_append (quiet_append (quiet_append (quiet_left _) (quiet_right _)) quiet_tick) (quiet_resets _))
    (quiet_cycleData _ _)

theorem mcount_groups (hv : lay.Valid) (k : Nat) : mcount [({ gate := .MPP, targets := (lay.round_edges k).flatMap fun e =>
    [.pauli (sub_round_edge_basis k) (lay.idx e.left), .comb, .pauli (sub_round_edge_basis k) (lay.idx e.right)] } : Instr)] =
    lay.perRound := by
  have h := mppGroups_pair ((lay.round_edges k).map fun e => ((sub_round_edge_basis k, lay.idx e.left), (sub_round_edge_basis k, lay.idx e.right)))
  rw [pairTargets, List.flatMap_map] at h
  simp only [mcount, List.map_cons, List.map_nil, List.sum_cons, List.sum_nil, Instr.measureCount, h, List.length_map,
    Nat.add_zero]
  exact perRound_eq hv _

theorem measured_groups (he : lay.isEM3 = true) (k : Nat) : measured [({ gate := .MPP, targets := (lay.round_edges k).flatMap fun e =>
    [.pauli (sub_round_edge_basis k) (lay.idx e.left), .comb, .pauli (sub_round_edge_basis k) (lay.idx e.right)] } : Instr)] =
    lay.roundMeas k := by
  have h := mppGroups_pair ((lay.round_edges k).map fun e => ((sub_round_edge_basis k, lay.idx e.left), (sub_round_edge_basis k, lay.idx e.right)))
  rw [pairTargets, List.flatMap_map] at h
  simp only [measured, List.flatMap_cons, List.flatMap_nil, List.append_nil, Instr.measures, h, roundMeas, he, if_true, List.map_map,
    Function.comp_def]

theorem isRound_em3 (hv : lay.Valid) (he : lay.isEM3 = true) (k : Nat) : lay.IsRound k (lay.em3Emit k) := by
  rw [em3Emit]
  apply IsRound.quiet_right _ quiet_tick
  rw [emitMD, emitMeas, if_pos he, List.nil_append]
  refine isRound_of_meas (mcount_groups hv k) (measured_groups he k) ?_
  intro i hi
  rw [List.mem_singleton] at hi
  subst hi
  simp [isMark]

theorem isRound_pc3 (hv : lay.Valid) (he : lay.isEM3 = false) (N k : Nat) (hk : 2 ≤ k) : lay.IsRound (k - 2) (lay.pc3Emit N k) := by
  rw [pc3Emit, if_pos hk]
  apply IsRound.quiet_right _ quiet_tick
  apply IsRound.quiet_left (isRound_md hv he _)
  exact quiet_append (quiet_ite (quiet_basisCX _ _) quiet_nil) (quiet_ite (quiet_basisCX _ _) quiet_nil)

theorem quiet_pc3 (N k : Nat) (hk : ¬ 2 ≤ k) : Quiet (lay.pc3Emit N k) := by
  rw [pc3Emit, if_neg hk]
  exact quiet_append (quiet_append (quiet_append (quiet_ite (quiet_basisCX _ _) quiet_nil)
    (quiet_ite (quiet_basisCX _ _) quiet_nil)) (quiet_resets _)) quiet_tick

/-- Sub-rounds `a, ..., a + n - 1` one after the other. -/
structure AreRounds (lay : HoneycombLayout) (a n : Nat) (l : List Instr) : Prop where
  count : mcount l = n * lay.perRound
  uses : timeline (a * lay.perRound) l = (List.range n).flatMap fun j => lay.roundUses (a + j)
  meas : measured l = (List.range n).flatMap fun j => lay.roundMeas (a + j)

theorem AreRounds.nil (a : Nat) : AreRounds lay a 0 [] := ⟨by simp [mcount], rfl, rfl⟩

theorem IsRound.are {a : Nat} {l : List Instr} (h : lay.IsRound a l) : AreRounds lay a 1 l :=
  ⟨by rw [h.count, Nat.one_mul], by rw [h.uses]; simp [List.range_succ], by rw [h.meas]; simp [List.range_succ]⟩

theorem AreRounds.append {a n m : Nat} {l l' : List Instr} (h : AreRounds lay a n l) (h' : AreRounds lay (a + n) m l') :
    AreRounds lay a (n + m) (l ++ l') := by
  refine ⟨by rw [mcount_append, h.count, h'.count, Nat.add_mul], ?_, ?_⟩
  case refine_2 =>
    rw [measured_append, h.meas, h'.meas, range_flatMap_add]
    simp only [Nat.add_assoc]
  rw [timeline_append, h.count, ← Nat.add_mul, h.uses, h'.uses, range_flatMap_add]
  simp only [Nat.add_assoc]

theorem AreRounds.quiet_left {a n : Nat} {l q : List Instr} (h : AreRounds lay a n l) (hq : Quiet q) : AreRounds lay a n (q ++ l) := by
  refine ⟨by rw [mcount_append, mcount_quiet hq, h.count, Nat.zero_add], ?_,
    by rw [measured_append, measured_quiet hq, List.nil_append, h.meas]⟩
  rw [timeline_append, timeline_quiet hq, mcount_quiet hq, List.nil_append, Nat.add_zero, h.uses]

theorem AreRounds.quiet_right {a n : Nat} {l q : List Instr} (h : AreRounds lay a n l) (hq : Quiet q) : AreRounds lay a n (l ++ q) := by
  refine ⟨by rw [mcount_append, mcount_quiet hq, h.count, Nat.add_zero], ?_,
    by rw [measured_append, measured_quiet hq, List.append_nil, h.meas]⟩
  rw [timeline_append, timeline_quiet hq, List.append_nil, h.uses]

theorem areRounds_range {f : Nat → List Instr} {c : Nat} (a n : Nat) (h : ∀ k, AreRounds lay (a + c * k) c (f k)) :
    AreRounds lay a (c * n) ((List.range n).flatMap f) := by
  induction n with
  | zero => exact AreRounds.nil a
  | succ n ih =>
    rw [range_flatMap_add, Nat.mul_add, Nat.mul_one]
    apply AreRounds.append ih
    simpa [List.range_succ] using h n

/-- The observable of the PC3 style with its place in the record. -/
def pc3Uses (lay : HoneycombLayout) (N : Nat) : List (Instr × Nat) :=
  if lay.style = "PC3" then (lay.pc3ObsEmit N).map fun i => (i, N * lay.perRound) else []

theorem supported_style (hs : lay.Supported) :
    (lay.style = "SD6" ∧ lay.isEM3 = false) ∨ (lay.style = "PC3" ∧ lay.isEM3 = false) ∨
    (lay.style ≠ "SD6" ∧ lay.style ≠ "PC3" ∧ lay.isEM3 = true) ∨
    (lay.style = "SI1000" ∧ lay.isEM3 = false) := by
  rcases hs.1 with h | h | h | h | h <;> simp [h, isEM3]

theorem pc3ObsEmit_gate {N : Nat} {i : Instr} (h : i ∈ lay.pc3ObsEmit N) : i.gate = .OBSERVABLE_INCLUDE := by
  obtain ⟨r, _, rfl⟩ := List.mem_map.1 h
  rfl

theorem allRounds_uses (hv : lay.Valid) (hs : lay.Supported) {N : Nat} (hN : lay.sub_rounds = N) :
    mcount (lay.allRounds N) = N * lay.perRound ∧
    timeline 0 (lay.allRounds N) = ((List.range N).flatMap lay.roundUses) ++ lay.pc3Uses N ∧
    measured (lay.allRounds N) = (List.range N).flatMap lay.roundMeas := by
  have key : ∀ l, AreRounds lay 0 N l → mcount l = N * lay.perRound ∧
      timeline 0 l = ((List.range N).flatMap lay.roundUses) ∧ measured l = (List.range N).flatMap lay.roundMeas := by
    intro l hl
    refine ⟨hl.count, ?_, ?_⟩
    · have := hl.uses
      simpa using this
    · have := hl.meas
      simpa using this
  have h1 : 1 ≤ N := by have := hs.2.2.1; omega
  rcases supported_style hs with ⟨h, he⟩ | ⟨h, he⟩ | ⟨hn1, hn2, he⟩ | ⟨h, he⟩
  · rw [allRounds, if_pos h, pc3Uses, if_neg (by rw [h]; decide), List.append_nil]
    apply key
    rw [sd6All]
    split_ifs with hN1
    · subst hN1
      apply AreRounds.quiet_right _ quiet_realign
      apply AreRounds.quiet_left (isRound_md hv he 0).are
      exact quiet_append (quiet_append (quiet_append (quiet_append (quiet_append (quiet_append (quiet_resets _)
        (quiet_cycleData _ _)) quiet_tick) (quiet_left _)) quiet_tick) (quiet_right _)) quiet_tick
    · apply AreRounds.quiet_right _ quiet_realign
      rw [List.append_assoc]
      apply AreRounds.quiet_left _ quiet_sd6Start
      have hA := areRounds_range (lay := lay) (c := 1) (f := lay.sd6Emit) 0 (N - 2) (fun k => by
        simpa using (isRound_sd6 hv he k).are)
      rw [Nat.one_mul] at hA
      have hB : AreRounds lay (0 + (N - 2)) 2 (lay.sd6EndEmit N) := by
        rw [Nat.zero_add, sd6EndEmit]
        have e1 : AreRounds lay (N - 2) 1 ((lay.subRound2qOps ((N : Int) - 1)).1 ++ (lay.subRound2qOps ((N : Int) - 2)).2 ++ [.tick] ++ lay.emitMD (N - 2) ++ [.tick] ++
            lay.cycleData false true ++ [.tick] ++ (lay.subRound2qOps ((N : Int) - 1)).2 ++ [.tick]) := by
          apply AreRounds.quiet_right _ quiet_tick
          apply AreRounds.quiet_right _ (quiet_right _)
          apply AreRounds.quiet_right _ quiet_tick
          apply AreRounds.quiet_right _ (quiet_cycleData _ _)
          apply AreRounds.quiet_right _ quiet_tick
          apply AreRounds.quiet_left (isRound_md hv he _).are
          exact quiet_append (quiet_append (quiet_left _) (quiet_right _)) quiet_tick
        have e2 := (isRound_md hv he (N - 1)).are
        rw [show N - 1 = N - 2 + 1 by omega] at e2
        rw [show N - 1 = N - 2 + 1 by omega]
        exact e1.append e2
      have := hA.append hB
      rwa [show N - 2 + 2 = N by omega] at this
  · rw [allRounds, if_neg (by rw [h]; decide), if_pos h, pc3All, pc3Uses, if_pos h]
    have hq : Quiet ((List.range 2).flatMap (lay.pc3Emit N)) := by
      simpa [List.range_succ] using quiet_append (quiet_pc3 N 0 (by omega)) (quiet_pc3 N 1 (by omega))
    have hA := areRounds_range (lay := lay) (c := 1) (f := fun k => lay.pc3Emit N (2 + k)) 0 N (fun k => by
      simpa using (isRound_pc3 hv he N (2 + k) (by omega)).are)
    rw [Nat.one_mul] at hA
    obtain ⟨k1, k2, k3⟩ := key _ (hA.quiet_left hq)
    rw [Nat.add_comm N 2, range_flatMap_add]
    have hst : ∀ i ∈ lay.pc3ObsEmit N, isMark i = true := fun i hi => (isMark_iff i).2 (Or.inr (Or.inl (pc3ObsEmit_gate hi)))
    rw [mcount_append, k1, mcount_marks hst, Nat.add_zero]
    refine ⟨rfl, ?_, by rw [measured_append, k3, measured_marks hst, List.append_nil]⟩
    rw [timeline_append, k2, k1, timeline_marks hst, Nat.zero_add]
  · rw [allRounds, if_neg hn1, if_neg hn2, if_pos he, pc3Uses, if_neg hn2, List.append_nil]
    apply key
    have hA := areRounds_range (lay := lay) (c := 1) (f := lay.em3Emit) 0 N (fun k => by
      simpa using (isRound_em3 hv he k).are)
    rwa [Nat.one_mul] at hA
  · have h3 := hs.2.2.2 h
    rw [allRounds, if_neg (by rw [h]; decide), if_neg (by rw [h]; decide), if_neg (by simp [he]), pc3Uses,
      if_neg (by rw [h]; decide), List.append_nil]
    apply key
    have hA := areRounds_range (lay := lay) (c := 3) (f := lay.si1000Emit) 0 (N / 3) (fun j => by
      rw [si1000Emit, Nat.zero_add]
      apply AreRounds.quiet_right _ quiet_tick
      apply AreRounds.quiet_left
      · have := areRounds_range (lay := lay) (c := 1) (f := fun i => lay.emitMD (3 * j + i)) (3 * j) 3 (fun k => by
          simpa using (isRound_md hv he (3 * j + k)).are)
        exact this
      · apply quiet_append (quiet_append (quiet_append (quiet_ite _ quiet_nil) _) _) _
        · exact quiet_append (quiet_on rfl _) quiet_tick
        · exact quiet_append (quiet_append (quiet_on rfl _) (quiet_on rfl _)) quiet_tick
        · intro i hi
          obtain ⟨r, _, hi⟩ := List.mem_flatMap.1 hi
          have hL : Quiet (lay.si1000Layer r) := by
            exact quiet_append (quiet_append (quiet_append (quiet_append (quiet_on (g := .C_ZYX) rfl _) (quiet_on (g := .CZ) rfl _)) quiet_tick)
              (quiet_ite (quiet_on rfl _) quiet_nil)) (quiet_append (quiet_on (g := .CZ) rfl _) quiet_tick)
          exact hL i hi
        · exact quiet_append (quiet_on rfl _) quiet_tick)
    rwa [show 3 * (N / 3) = N by omega] at hA

theorem emitFinal_gate {n : Int} {k : Nat} {i : Instr} (h : i ∈ lay.emitFinal n k) :
    i.gate = .DETECTOR ∨ i.gate = .OBSERVABLE_INCLUDE := by
  simp only [emitFinal, List.mem_append, List.mem_singleton, or_assoc] at h
  rcases h with h | h | h
  · split_ifs at h
    · obtain ⟨e, _, he⟩ := List.mem_flatMap.1 h
      exact Or.inl (detI_gate he)
    · obtain ⟨e, _, he⟩ := List.mem_flatMap.1 h
      exact Or.inl (detI_gate he)
  · obtain ⟨e, _, he⟩ := List.mem_flatMap.1 h
    exact Or.inl (detI_gate he)
  · subst h; exact Or.inr rfl

/-- The measurement count and the record uses of the whole circuit. -/
theorem closed_uses (hv : lay.Valid) (hs : lay.Supported) {N : Nat} (hN : lay.sub_rounds = N) :
    mcount (lay.closedCircuit N) = N * lay.perRound + lay.data_qubit_coords.length ∧
    timeline 0 (lay.closedCircuit N) = ((List.range N).flatMap lay.roundUses) ++ lay.pc3Uses N ++
      ((lay.emitFinal N N).map fun i => (i, N * lay.perRound + lay.data_qubit_coords.length)) ∧
    measured (lay.closedCircuit N) = ((List.range N).flatMap lay.roundMeas) ++
      lay.data_qubit_coords.map fun q => [(.Z, lay.idx q)] := by
  obtain ⟨h1, h2, h3⟩ := allRounds_uses hv hs hN
  have hM : mcount [Instr.on .M lay.data_qubit_indices] = lay.data_qubit_coords.length := by
    simp [mcount, Instr.measureCount, Instr.on, data_qubit_indices]
  have hMu : ∀ t, timeline t [Instr.on .M lay.data_qubit_indices] = [] := by
    intro t; simp [timeline, isMark, Instr.on]
  have hst : ∀ i ∈ lay.emitFinal N N, isMark i = true := fun i hi =>
    (isMark_iff i).2 ((emitFinal_gate hi).imp_right Or.inl)
  have hq := quiet_init (lay := lay)
  rw [closedCircuit]
  generalize lay.qubitCoordOps ++ ([.on .R lay.used_qubit_indices, .tick] ++ lay.basisChange (lay.obsAt 0).1) = q0 at hq
  refine ⟨?_, ?_, ?_⟩
  · rw [mcount_append, mcount_append, mcount_append, mcount_append, mcount_quiet hq, h1, mcount_quiet (quiet_basisChange _), hM,
      mcount_marks hst]
    omega
  · rw [timeline_append, timeline_append, timeline_append, timeline_append, timeline_quiet hq,
      timeline_quiet (quiet_basisChange _), mcount_append, mcount_quiet hq, mcount_append, mcount_quiet (quiet_basisChange _),
      h1, hM, hMu, timeline_marks hst, List.nil_append, List.nil_append, List.nil_append, Nat.zero_add, h2]
    simp only [Nat.zero_add]
  · rw [measured_append, measured_append, measured_append, measured_append, measured_quiet hq, h3,
      measured_quiet (quiet_basisChange _), measured_marks hst]
    simp [measured, Instr.measures, Instr.on, Instr.qubits, data_qubit_indices, List.filterMap_map, Function.comp_def, Target.qubit?]

end HoneycombLayout
end Honeycomb
