import Verif.Lemmas.Unroll

/-! The generated circuit of each style, unrolled, in closed form. -/

namespace Honeycomb
namespace HoneycombLayout
variable (lay : HoneycombLayout)

/-- Measurements and annotations of sub-round `k`. -/
def emitMD (k : Nat) : List Instr := lay.emitMeas k ++ lay.emitAnn k

/-- The SD6 pipeline step of sub-round `k`. -/
def sd6Emit (k : Nat) : List Instr :=
  (lay.subRound2qOps (k + 1)).1 ++ (lay.subRound2qOps k).2 ++ [.tick] ++ lay.subRoundResets (k + 2) ++
    lay.cycleData true true ++ lay.emitMD k ++ [.tick]

/-- The end of the SD6 pipeline for `N ≥ 2` sub-rounds. -/
def sd6EndEmit (N : Nat) : List Instr :=
  (lay.subRound2qOps ((N : Int) - 1)).1 ++ (lay.subRound2qOps ((N : Int) - 2)).2 ++ [.tick] ++ lay.emitMD (N - 2) ++ [.tick] ++
    lay.cycleData false true ++ [.tick] ++ (lay.subRound2qOps ((N : Int) - 1)).2 ++ [.tick] ++ lay.emitMD (N - 1)

/-- All SD6 sub-rounds. -/
def sd6All (N : Nat) : List Instr :=
  if N = 1 then
    lay.subRoundResets 0 ++ lay.cycleData true true ++ [.tick] ++ (lay.subRound2qOps 0).1 ++ [.tick]
      ++ (lay.subRound2qOps 0).2 ++ [.tick] ++ lay.emitMD 0 ++ lay.sd6Realign
  else lay.sd6Start ++ (List.range (N - 2)).flatMap lay.sd6Emit ++ lay.sd6EndEmit N ++ lay.sd6Realign

/-- The PC3 moment `k` of `N` sub-rounds. -/
def pc3Emit (N k : Nat) : List Instr :=
  (if k < N then [.on (basisCX (sub_round_edge_basis k)) (lay.leftTargets (lay.round_edges k))] else []) ++
  (if 1 ≤ k ∧ k - 1 < N then
    [.on (basisCX (sub_round_edge_basis ((k : Int) - 1))) (lay.rightTargets (lay.round_edges ((k : Int) - 1)))] else []) ++
  (if 2 ≤ k then lay.emitMD (k - 2) else lay.subRoundResets ((k : Int) - 2)) ++ [.tick]

/-- The latest cumulative parity of an edge of colour `r`. -/
def topHalfEdge (r : Int) (k : Nat) (e : Edge) : Finset Nat :=
  (topAt (fun j => some {lay.mTime j e}) (some ∅) r k).getD ∅

/-- The observable of the PC3 style after `k` recorded sub-rounds. -/
def pc3ObsEmit (k : Nat) : List Instr :=
  (pyRange 3).map fun r =>
    .observable (relTo (k * lay.perRound) (xorS ((obsEdgesOf lay.obsE (lay.round_edges r)).map (lay.topHalfEdge r k)))) lay.obsI

/-- All PC3 moments. -/
def pc3All (N : Nat) : List Instr := (List.range (N + 2)).flatMap (lay.pc3Emit N) ++ lay.pc3ObsEmit N

/-- The EM3 moment `k`. -/
def em3Emit (k : Nat) : List Instr :=
  [{ gate := .MPP, targets := (lay.round_edges k).flatMap fun e =>
    [.pauli (sub_round_edge_basis k) (lay.idx e.left), .comb, .pauli (sub_round_edge_basis k) (lay.idx e.right)] }] ++
  lay.emitMD k ++ [.tick]

def em3All (N : Nat) : List Instr := (List.range N).flatMap lay.em3Emit

/-- The SI1000 cycle `j`. -/
def si1000Emit (j : Nat) : List Instr :=
  (if 0 < j then [.on .R lay.measure_qubit_indices, .tick] else [])
    ++ [.on .C_ZYX lay.data_qubit_indices_1st, .on .H lay.measure_qubit_indices, .tick]
    ++ (pyRange 3).flatMap lay.si1000Layer
    ++ [.on .H lay.measure_qubit_indices, .tick] ++ (List.range 3).flatMap (fun i => lay.emitMD (3 * j + i)) ++ [.tick]

def si1000All (N : Nat) : List Instr := (List.range (N / 3)).flatMap lay.si1000Emit

/-- All sub-rounds, by style. -/
def allRounds (N : Nat) : List Instr :=
  if lay.style = "SD6" then lay.sd6All N
  else if lay.style = "PC3" then lay.pc3All N
  else if lay.isEM3 then lay.em3All N
  else lay.si1000All N

/-- The unrolled noiseless circuit. -/
def closedCircuit (N : Nat) : List Instr :=
  lay.qubitCoordOps ++ ([.on .R lay.used_qubit_indices, .tick] ++ lay.basisChange (lay.obsAt 0).1) ++ lay.allRounds N ++
    (lay.basisChange (lay.obsAt N).1 ++ [.on .M lay.data_qubit_indices] ++ lay.emitFinal N N)

variable {lay}

theorem emitMD_iter {k : Nat} (i : Nat) (h : i ≠ 0 → lay.steady0 + 4 ≤ k) : lay.emitMD (k + 3 * i) = lay.emitMD k := by
  rcases Nat.eq_zero_or_pos i with rfl | hi
  · rfl
  · have hk := h (by omega)
    exact add3_iter (f := lay.emitMD) (s := lay.steady0 + 4)
      (fun k hk => by rw [emitMD, emitMD, emitMeas_add3, emitAnn_add3 hk]) hk i

theorem md_ok (hv : lay.Valid) (ho : lay.ObsOk) {k i : Nat} {m : MT} (hs : lay.Snap (lay.obsAt 0).1 k m)
    (hi : i ≠ 0 → lay.steady0 + 4 ≤ k) :
    ∃ m', lay.subRoundMeasurementsAndDetectors m ((k + 3 * i : Nat) : Int) = .ok (lay.emitMD (k + 3 * i), m') ∧
      lay.Snap (lay.obsAt 0).1 (k + 1) m' := by
  obtain ⟨m', h1, h2⟩ := subRound_ok hv ho hs (sr := ((k + 3 * i : Nat) : Int)) (by omega)
    (by
      rcases Nat.eq_zero_or_pos i with rfl | h
      · omega
      · have := hi (by omega); omega)
  exact ⟨m', by rw [emitMD_iter i hi]; exact h1, h2⟩

theorem good_md (hv : lay.Valid) (ho : lay.ObsOk) (stop : Int) :
    GoodStep (lay.Snap (lay.obsAt 0).1) lay.subRoundMeasurementsAndDetectors lay.emitMD (lay.steady0 + 4) stop :=
  fun _ _ _ hs hi _ => md_ok hv ho hs hi

theorem good_sd6 (hv : lay.Valid) (ho : lay.ObsOk) (stop : Int) :
    GoodStep (lay.Snap (lay.obsAt 0).1) lay.sd6PipelineStep lay.sd6Emit (lay.steady0 + 4) stop := by
  intro k i m hs hi _
  obtain ⟨m', h1, h2⟩ := md_ok hv ho hs hi
  refine ⟨m', ?_, h2⟩
  simp only [sd6PipelineStep, h1, bind, Except.bind, pure, Except.pure, sd6Emit]

theorem sd6End_ok (hv : lay.Valid) (ho : lay.ObsOk) {N : Nat} (hN : lay.sub_rounds = N) (h2 : 2 ≤ N) {k i : Nat} {m : MT}
    (hs : lay.Snap (lay.obsAt 0).1 k m) (hi : i ≠ 0 → lay.steady0 + 4 ≤ k) (hk : k + 3 * i + 2 = N) :
    ∃ m', lay.sd6End m = .ok (lay.sd6EndEmit N, m') ∧ lay.Snap (lay.obsAt 0).1 (k + 2) m' := by
  obtain ⟨m1, h1, s1⟩ := md_ok hv ho hs hi
  obtain ⟨m2, h2', s2⟩ := md_ok hv ho s1 (i := i) (fun h => by have := hi h; omega)
  refine ⟨m2, ?_, s2⟩
  have e1 : ((k + 3 * i : Nat) : Int) = (N : Int) - 2 := by omega
  have e2 : ((k + 1 + 3 * i : Nat) : Int) = (N : Int) - 1 := by omega
  rw [e1, show k + 3 * i = N - 2 by omega] at h1
  rw [e2, show k + 1 + 3 * i = N - 1 by omega] at h2'
  simp only [sd6End, hN, h1, h2', bind, Except.bind, pure, Except.pure, sd6EndEmit]

theorem sd6_unrolled (hv : lay.Valid) (ho : lay.ObsOk) {N : Nat} (hN : lay.sub_rounds = N) (h1 : 1 ≤ N) {m : MT}
    (hs : lay.Snap (lay.obsAt 0).1 0 m) :
    ∃ m', lay.unrolledSd6 m = .ok (lay.sd6All N, m') ∧ lay.Snap (lay.obsAt 0).1 N m' := by
  by_cases hN1 : N = 1
  · subst hN1
    obtain ⟨m1, h1, s1⟩ := md_ok hv ho hs (i := 0) (by simp)
    have h1' : lay.subRoundMeasurementsAndDetectors m 0 = .ok (lay.emitMD 0, m1) := h1
    refine ⟨m1, ?_, s1⟩
    simp [unrolledSd6, hN, sd6Single, h1', bind, Except.bind, pure, Except.pure, sd6All]
  · obtain ⟨m1, h1, s1⟩ := forRounds_ok (good_sd6 hv ho N) (N - 2) (k := 0) (i := 0) hs (by simp) (by omega)
    obtain ⟨m2, h2, s2⟩ := sd6End_ok hv ho hN (by omega) s1 (i := 0) (by simp) (by omega)
    refine ⟨m2, ?_, by rwa [show 0 + (N - 2) + 2 = N by omega] at s2⟩
    have h1' : forRounds lay.sd6PipelineStep m (roundsFrom 0 (N - 2)) = .ok ((List.range (N - 2)).flatMap lay.sd6Emit, m1) := by
      simpa using h1
    have hc : ¬ ((N : Int) = 1) := by omega
    rw [unrolledSd6, hN, if_neg hc, pyRange_eq, show ((N : Int) - 2).toNat = N - 2 by omega, sd6All, if_neg hN1]
    simp only [h1', h2, bind, Except.bind, pure, Except.pure]

theorem sd6_generated (hv : lay.Valid) (ho : lay.ObsOk) (hs0 : lay.steady0 = 0) {N : Nat} (hN : lay.sub_rounds = N) (h1 : 1 ≤ N) {m : MT}
    (hs : lay.Snap (lay.obsAt 0).1 0 m) :
    ∃ c m' k i, lay.generateRoundsSd6 m = .ok (c, m') ∧ c.flatten = lay.sd6All N ∧ lay.Snap (lay.obsAt 0).1 k m' ∧
      k + 3 * i = N ∧ (i ≠ 0 → lay.steady0 + 4 ≤ k) ∧ c.OneBlock (12 ≤ N) fun r l => 2 ≤ r ∧ .tick ∈ l := by
  by_cases hN1 : N = 1
  · subst hN1
    obtain ⟨m1, h1, s1⟩ := md_ok hv ho hs (i := 0) (by simp)
    have h1' : lay.subRoundMeasurementsAndDetectors m 0 = .ok (lay.emitMD 0, m1) := h1
    refine ⟨.ofList (lay.sd6All 1), m1, 1, 0, ?_, Circuit.flatten_ofList _, s1, rfl, by simp, oneBlock_none (by omega) _⟩
    simp [generateRoundsSd6, hN, sd6Single, h1', bind, Except.bind, pure, Except.pure, sd6All]
  · have hc0 : ¬ ((N : Int) = 0) := by omega
    have hc : ¬ ((N : Int) = 1) := by omega
    obtain ⟨nx, hnx⟩ : ∃ nx : Nat, nx = min 4 (N - 2) := ⟨_, rfl⟩
    have enx : max (0 : Int) (min 4 ((N : Int) - 2)) = nx := by omega
    obtain ⟨it, hit⟩ : ∃ it : Nat, it = (N - nx - 2) / 3 := ⟨_, rfl⟩
    have eit : max (0 : Int) ((N : Int) - nx - 2) / 3 = it := by omega
    obtain ⟨m1, f1, s1⟩ := forRounds_ok (good_sd6 hv ho N) nx (k := 0) (i := 0) hs (by simp) (by omega)
    have f1' : forRounds lay.sd6PipelineStep m (roundsFrom 0 nx) = .ok ((List.range nx).flatMap lay.sd6Emit, m1) := by
      simpa using f1
    rw [Nat.zero_add] at s1
    by_cases hgt : 1 < it
    · have hnx4 : nx = 4 := by omega
      obtain ⟨m2, f2, s2⟩ := forRounds_ok (good_sd6 hv ho N) 3 (k := nx) (i := 0) s1 (by simp) (by omega)
      have f2' : forRounds lay.sd6PipelineStep m1 [(nx : Int), (nx : Int) + 1, (nx : Int) + 2] =
          .ok ((List.range 3).flatMap fun j => lay.sd6Emit (nx + j), m2) := by
        simpa [roundsFrom, List.range_succ] using f2
      obtain ⟨m3, f3, s3⟩ := forRounds_ok (good_sd6 hv ho N) (N - 2 - (nx + 3 * it)) (k := nx + 3) (i := it - 1) s2
        (by omega) (by omega)
      have f3' : forRounds lay.sd6PipelineStep m2 (roundsFrom ((nx : Int) + it * 3) (N - 2 - (nx + 3 * it))) =
          .ok ((List.range (N - 2 - (nx + 3 * it))).flatMap fun j => lay.sd6Emit (nx + 3 * it + j), m3) := by
        rw [show ((nx + 3 + 3 * (it - 1) : Nat) : Int) = (nx : Int) + it * 3 by omega,
          show nx + 3 + 3 * (it - 1) = nx + 3 * it by omega] at f3
        exact f3
      obtain ⟨m4, f4, s4⟩ := sd6End_ok hv ho hN (by omega) s3 (i := it - 1) (by omega) (by omega)
      refine ⟨.ofList (lay.sd6Start ++ (List.range nx).flatMap lay.sd6Emit) ++
        (Circuit.ofList ((List.range 3).flatMap fun j => lay.sd6Emit (nx + j))).mul it ++
        .ofList (((List.range (N - 2 - (nx + 3 * it))).flatMap fun j => lay.sd6Emit (nx + 3 * it + j)) ++
          lay.sd6EndEmit N ++ lay.sd6Realign), m4, _, it - 1, ?_, ?_, s4, by omega, by omega,
        oneBlock_between (oneBlock_mul (by omega) hgt ⟨hgt, by simp [List.range_succ, sd6Emit]⟩) _ _⟩
      · rw [generateRoundsSd6, hN, if_neg hc0, if_neg hc]
        simp only [bind, Except.bind, pure, Except.pure, enx, eit, pyRange_eq, Int.toNat_natCast, f1',
          show ((it : Int) > 1) from by omega, if_true, f2', pyRange2_eq,
          show ((N : Int) - 2 - ((nx : Int) + it * 3)).toNat = N - 2 - (nx + 3 * it) from by omega, f3', f4]
      · rw [Circuit.flatten_append, Circuit.flatten_append, Circuit.flatten_ofList, Circuit.flatten_ofList,
          Circuit.flatten_mul, Circuit.flatten_ofList, sd6All, if_neg hN1]
        have hper : ∀ k, lay.steady0 + 4 ≤ k → lay.sd6Emit (k + 3) = lay.sd6Emit k := by
          intro k hk
          simp only [sd6Emit, subRound2qOps, subRoundResets]
          rw [round_edges_congr lay (r := ((k + 3 : Nat) : Int) + 1) (r' := (k : Int) + 1) (by omega),
            round_edges_congr lay (r := ((k + 3 : Nat) : Int)) (r' := (k : Int)) (by omega),
            round_edges_congr lay (r := ((k + 3 : Nat) : Int) + 2) (r' := (k : Int) + 2) (by omega),
            emitMD_iter (k := k) 1 (fun _ => hk)]
        rw [show N - 2 = nx + (3 * it + (N - 2 - (nx + 3 * it))) by omega, range_flatMap_add, range_flatMap_add,
          range_flatMap_repeat (fun j => lay.sd6Emit (nx + j)) it (fun j _ => hper (nx + j) (by omega)),
          show nx + (3 * it + (N - 2 - (nx + 3 * it))) - (nx + 3 * it) = N - 2 - (nx + 3 * it) by omega]
        simp only [List.append_assoc, Nat.add_assoc]
    · obtain ⟨m3, f3, s3⟩ := forRounds_ok (good_sd6 hv ho N) (N - 2 - nx) (k := nx) (i := 0) s1
        (by omega) (by omega)
      have f3' : forRounds lay.sd6PipelineStep m1 (roundsFrom (nx : Int) (N - 2 - nx)) =
          .ok ((List.range (N - 2 - nx)).flatMap fun j => lay.sd6Emit (nx + j), m3) := by
        simpa using f3
      obtain ⟨m4, f4, s4⟩ := sd6End_ok hv ho hN (by omega) s3 (i := 0) (by omega) (by omega)
      refine ⟨.ofList (lay.sd6Start ++ (List.range nx).flatMap lay.sd6Emit) ++ .nil ++
        .ofList (((List.range (N - 2 - nx)).flatMap fun j => lay.sd6Emit (nx + j)) ++
          lay.sd6EndEmit N ++ lay.sd6Realign), m4, _, 0, ?_, ?_, s4, by omega, by omega,
        oneBlock_between (oneBlock_none (by omega) []) _ _⟩
      · rw [generateRoundsSd6, hN, if_neg hc0, if_neg hc]
        simp only [bind, Except.bind, pure, Except.pure, enx, eit, pyRange_eq, Int.toNat_natCast, f1',
          show ¬ ((it : Int) > 1) from by omega, if_false, pyRange2_eq,
          show ((N : Int) - 2 - (nx : Int)).toNat = N - 2 - nx from by omega, f3', f4]
      · rw [Circuit.flatten_append, Circuit.flatten_append, Circuit.flatten_ofList, Circuit.flatten_ofList,
          sd6All, if_neg hN1]
        rw [show N - 2 = nx + (N - 2 - nx) by omega, range_flatMap_add,
          show nx + (N - 2 - nx) - nx = N - 2 - nx by omega]
        simp [Circuit.flatten]

end HoneycombLayout
end Honeycomb
