import Verif.Lemmas.Closed

/-! The generated circuit in closed form: PC3, EM3 and SI1000 rounds, and the whole circuit. -/

namespace Honeycomb
namespace HoneycombLayout
variable {lay : HoneycombLayout}

theorem good_em3 (hv : lay.Valid) (ho : lay.ObsOk) (stop : Int) :
    GoodStep (lay.Snap (lay.obsAt 0).1) lay.em3Moment lay.em3Emit (lay.steady0 + 4) stop := by
  intro k i m hs hi _
  obtain ⟨m', h1, h2⟩ := md_ok hv ho hs hi
  exact ⟨m', by simp only [em3Moment, h1, bind, Except.bind, pure, Except.pure, em3Emit], h2⟩

theorem em3_unrolled (hv : lay.Valid) (ho : lay.ObsOk) {N : Nat} (hN : lay.sub_rounds = N) {m : MT}
    (hs : lay.Snap (lay.obsAt 0).1 0 m) :
    ∃ m', lay.unrolledEm3 m = .ok (lay.em3All N, m') ∧ lay.Snap (lay.obsAt 0).1 N m' := by
  obtain ⟨m1, h1, s1⟩ := forRounds_ok (good_em3 hv ho N) N (k := 0) (i := 0) hs (by simp) (by omega)
  refine ⟨m1, ?_, by simpa using s1⟩
  rw [unrolledEm3, hN, pyRange_eq, Int.toNat_natCast, em3All]
  simpa using h1

theorem em3_generated (hv : lay.Valid) (ho : lay.ObsOk) (hs0 : lay.steady0 = 0) {N : Nat} (hN : lay.sub_rounds = N)
    (h1 : 1 ≤ N) {m : MT} (hs : lay.Snap (lay.obsAt 0).1 0 m) :
    ∃ c m' k i, lay.generateRoundsEm3 m = .ok (c, m') ∧ c.flatten = lay.em3All N ∧ lay.Snap (lay.obsAt 0).1 k m' ∧
      k + 3 * i = N ∧ (i ≠ 0 → lay.steady0 + 4 ≤ k)  ∧
      c.OneBlock (10 ≤ N) fun r l => 2 ≤ r ∧ ∃ k, l = (List.range 3).flatMap fun j => lay.em3Emit (k + j) := by
  obtain ⟨ms, m', k, i, e1, e2, e3, e4, e5, e6⟩ := momentLoop_ok (n := N) (stop := N) (a := 7) (by omega) (le_refl _) (by omega) (by omega)
    (good_em3 hv ho N)
    (by
      intro k hk _
      simp only [em3Emit, sub_round_edge_basis]
      rw [round_edges_congr lay (r := ((k + 3 : Nat) : Int)) (r' := (k : Int)) (by omega),
        ofIdx_congr (k := ((k + 3 : Nat) : Int)) (k' := (k : Int)) (by omega),
        emitMD_iter (k := k) 1 (fun _ => by omega)]) hs
  refine ⟨joinMoments ms, m', k, i, ?_, by rw [e2]; rfl, e3, by omega, fun h => by have := e5 h; omega,
    oneBlock_mono (by omega) (fun _ _ h => ⟨h.1, _, h.2⟩) e6⟩
  have hc0 : ¬ ((N : Int) = 0) := by omega
  rw [generateRoundsEm3, hN, if_neg hc0]
  have e1' : momentLoop lay.em3Moment N N 7 0 [] m = .ok (ms, m') := e1
  simp only [e1', bind, Except.bind, pure, Except.pure]

/-! ### PC3 -/

theorem good_pc3 (hv : lay.Valid) (ho : lay.ObsOk) {N : Nat} (hN : lay.sub_rounds = N) :
    GoodStep (fun k => lay.Snap (lay.obsAt 0).1 (k - 2)) lay.pc3Moment (lay.pc3Emit N) (lay.steady0 + 6) ((N : Int) + 2) := by
  intro k i m hs hi hst
  obtain ⟨K, hK⟩ : ∃ K, K = k + 3 * i := ⟨_, rfl⟩
  have ea : (if 0 ≤ (K : Int) ∧ (K : Int) < N then
        [Instr.on (basisCX (sub_round_edge_basis K)) (lay.leftTargets (lay.round_edges K))] else []) =
      (if K < N then [.on (basisCX (sub_round_edge_basis K)) (lay.leftTargets (lay.round_edges K))] else []) := by
    by_cases h : K < N
    · rw [if_pos h, if_pos (by omega)]
    · rw [if_neg h, if_neg (by omega)]
  have eb : (if 0 ≤ (K : Int) - 1 ∧ (K : Int) - 1 < N then
        [Instr.on (basisCX (sub_round_edge_basis ((K : Int) - 1))) (lay.rightTargets (lay.round_edges ((K : Int) - 1)))] else []) =
      (if 1 ≤ K ∧ K - 1 < N then
        [.on (basisCX (sub_round_edge_basis ((K : Int) - 1))) (lay.rightTargets (lay.round_edges ((K : Int) - 1)))] else []) := by
    by_cases h : 1 ≤ K ∧ K - 1 < N
    · rw [if_pos h, if_pos (by omega)]
    · rw [if_neg h, if_neg (by omega)]
  by_cases h2 : 2 ≤ K
  · have hk2 : 2 ≤ k := by
      rcases Nat.eq_zero_or_pos i with rfl | h
      · omega
      · have := hi (by omega); omega
    obtain ⟨m', h1, s1⟩ := md_ok hv ho hs (i := i) (fun h => by have := hi h; omega)
    refine ⟨m', ?_, by show lay.Snap _ (k + 1 - 2) _; rwa [show k + 1 - 2 = k - 2 + 1 by omega]⟩
    have hc : (0 : Int) ≤ (K : Int) - 2 ∧ (K : Int) - 2 < N := by omega
    rw [show ((k - 2 + 3 * i : Nat) : Int) = (K : Int) - 2 by omega, show k - 2 + 3 * i = K - 2 by omega] at h1
    rw [← hK]
    simp only [pc3Moment, hN, ea, eb, if_pos hc, h1, bind, Except.bind, pure, Except.pure, pc3Emit, if_pos h2]
  · have hi0 : i = 0 := by
      by_contra h; have := hi h; omega
    have hc : ¬ ((0 : Int) ≤ (K : Int) - 2 ∧ (K : Int) - 2 < N) := by omega
    have hc' : (K : Int) - 2 ≤ 0 := by omega
    refine ⟨m, ?_, by show lay.Snap _ (k + 1 - 2) _; rwa [show k + 1 - 2 = k - 2 by omega]⟩
    rw [← hK]
    simp only [pc3Moment, hN, ea, eb, if_neg hc, if_pos hc', bind, Except.bind, pure, Except.pure, pc3Emit, if_neg h2]

theorem topHalfEdge_some (r : Int) (k : Nat) (e : Edge) :
    topAt (fun j => some {lay.mTime j e}) (some ∅) r k = some (lay.topHalfEdge r k e) := by
  have : ∃ s, topAt (fun j => some {lay.mTime j e}) (some ∅) r k = some s := by
    induction k with
    | zero => exact ⟨∅, rfl⟩
    | succ k ih =>
      rw [topAt, past]
      split_ifs
      · exact ⟨_, rfl⟩
      · exact ih
  obtain ⟨s, hs⟩ := this
  rw [topHalfEdge, hs]; rfl

theorem topHalfEdge_before (hv : lay.Valid) {r : Int} (h0 : 0 ≤ r) (h3 : r < 3) (k : Nat) {e : Edge} (he : e ∈ lay.round_edges r) :
    BeforeO (k * lay.perRound) (some (lay.topHalfEdge r k e)) := by
  rw [← topHalfEdge_some]
  obtain ⟨d, h1, h3, hc, hd⟩ := topAt_cases (fun j => some {lay.mTime j e}) (some ∅) h0 h3 k
  rw [hd]
  split_ifs with hk
  · exact beforeO_empty _
  · intro s hs x hx
    simp only [Option.mem_def, Option.some.injEq] at hs
    subst hs
    rw [Finset.mem_singleton.1 hx]
    refine lt_of_lt_of_le (mTime_lt hv (k := k - d) ?_) (Nat.mul_le_mul_right _ (by omega))
    rw [round_edges_congr lay (r' := r) (by omega)]; exact he

theorem pc3Observables_ok (hv : lay.Valid) (ho : lay.ObsOk) {k : Nat} {m : MT} (hs : lay.Snap (lay.obsAt 0).1 k m) :
    lay.pc3Observables m (pyRange 3) = .ok (lay.pc3ObsEmit k) := by
  have : ∀ rs : List Int, (∀ r ∈ rs, 0 ≤ r ∧ r < 3) → lay.pc3Observables m rs = .ok (rs.map fun r =>
      .observable (relTo (k * lay.perRound) (xorS ((obsEdgesOf lay.obsE (lay.round_edges r)).map (lay.topHalfEdge r k)))) lay.obsI) := by
    intro rs
    induction rs with
    | nil => intro _; rfl
    | cons r rs ih =>
      intro hr
      obtain ⟨h0, h3⟩ := hr r (by simp)
      have ht := Tracker.timeSet_plain (m := m) (xs := obsEdgesOf lay.obsE (lay.round_edges r)) (g := Key.halfEdge)
        (f := fun e => some (lay.topHalfEdge r k e)) (fun e he => by
          rw [hs.halfEdge r h0 h3 e (mem_obsEdgesOf he), past_head_topAt, topHalfEdge_some])
      have hb : BeforeO m.t (xorL ((obsEdgesOf lay.obsE (lay.round_edges r)).map fun e => some (lay.topHalfEdge r k e))) := by
        apply beforeO_xorL
        intro o hmo
        obtain ⟨e, he, rfl⟩ := List.mem_map.1 hmo
        rw [hs.t]
        exact topHalfEdge_before hv h0 h3 k (mem_obsEdgesOf he)
      rw [xorL_some] at ht hb
      have hrt := Tracker.recordTargets_some ht (hb _ rfl)
      rw [hs.t] at hrt
      simp only [pc3Observables, obs_edges_ok ho, obs_index_ok ho, hrt, ih (fun r hr' => hr r (by simp [hr'])), bind,
        Except.bind, pure, Except.pure, List.map_cons, List.singleton_append]
  apply this
  intro r hr
  simp only [pyRange, List.mem_map, List.mem_range] at hr
  obtain ⟨i, hi, rfl⟩ := hr
  simp at hi ⊢; omega

theorem pc3ObsEmit_add3 {k : Nat} (hk : 3 ≤ k) : lay.pc3ObsEmit (k + 3) = lay.pc3ObsEmit k := by
  simp only [pc3ObsEmit]
  apply List.map_congr_left
  intro r hr
  simp only [pyRange, List.mem_map, List.mem_range] at hr
  obtain ⟨i, hi, rfl⟩ := hr
  have h : ∀ e, lay.topHalfEdge i (k + 3) e = shF (3 * lay.perRound) (lay.topHalfEdge i k e) := by
    intro e
    have := topAt_add3 (v := fun j => some {lay.mTime j e}) (init := some ∅) (c := i) (k := k) (d := 3 * lay.perRound) (s := 0)
      (by omega) (by simp at hi; omega) (by omega)
      (by intro j _; simp only [shO, Option.map_some, shF_singleton, mTime_add3])
    rw [topHalfEdge_some, topHalfEdge_some] at this
    simpa [shO] using this
  rw [show (k + 3) * lay.perRound = k * lay.perRound + 3 * lay.perRound by ring, ← relTo_shF (k * lay.perRound) (3 * lay.perRound), shF_xorS,
    List.map_map]
  congr 4
  funext e
  exact h e

theorem pc3_unrolled (hv : lay.Valid) (ho : lay.ObsOk) {N : Nat} (hN : lay.sub_rounds = N) {m : MT}
    (hs : lay.Snap (lay.obsAt 0).1 0 m) :
    ∃ m', lay.unrolledPc3 m = .ok (lay.pc3All N, m') ∧ lay.Snap (lay.obsAt 0).1 N m' := by
  obtain ⟨m1, h1, s1⟩ := forRounds_ok (good_pc3 hv ho hN) (N + 2) (k := 0) (i := 0) hs (by simp) (by push_cast; omega)
  have s1' : lay.Snap (lay.obsAt 0).1 N m1 := by
    have : 0 + (N + 2) - 2 = N := by omega
    rw [this] at s1; exact s1
  refine ⟨m1, ?_, s1'⟩
  have h1' : forRounds lay.pc3Moment m (roundsFrom 0 (N + 2)) = .ok ((List.range (N + 2)).flatMap (lay.pc3Emit N), m1) := by
    simpa using h1
  rw [unrolledPc3, hN, pyRange_eq, show ((N : Int) + 2).toNat = N + 2 by omega]
  simp only [h1', pc3Observables_ok hv ho s1', bind, Except.bind, pure, Except.pure, pc3All]

theorem pc3_generated (hv : lay.Valid) (ho : lay.ObsOk) (hs0 : lay.steady0 = 3) {N : Nat} (hN : lay.sub_rounds = N)
    (h1 : 1 ≤ N) {m : MT} (hs : lay.Snap (lay.obsAt 0).1 0 m) :
    ∃ c m' k i, lay.generateRoundsPc3 m = .ok (c, m') ∧ c.flatten = lay.pc3All N ∧ lay.Snap (lay.obsAt 0).1 k m' ∧
      k + 3 * i = N ∧ (i ≠ 0 → lay.steady0 + 4 ≤ k)  ∧ c.OneBlock (15 ≤ N) fun r l => 2 ≤ r ∧ .tick ∈ l := by
  obtain ⟨ms, m', k, i, e1, e2, e3, e4, e5, e6⟩ := momentLoop_ok (n := N) (stop := (N : Int) + 2) (a := 12) (by omega) (by omega) (by omega)
    (by omega) (good_pc3 hv ho hN)
    (by
      intro k hk hkN
      simp only [pc3Emit, sub_round_edge_basis]
      rw [round_edges_congr lay (r := ((k + 3 : Nat) : Int)) (r' := (k : Int)) (by omega),
        ofIdx_congr (k := ((k + 3 : Nat) : Int)) (k' := (k : Int)) (by omega),
        round_edges_congr lay (r := ((k + 3 : Nat) : Int) - 1) (r' := (k : Int) - 1) (by omega),
        ofIdx_congr (k := ((k + 3 : Nat) : Int) - 1) (k' := (k : Int) - 1) (by omega),
        if_pos (by omega), if_pos (by omega), if_pos (by omega), if_pos (by omega), if_pos (by omega), if_pos (by omega),
        show k + 3 - 2 = k - 2 + 3 * 1 by omega, emitMD_iter 1 (fun _ => by omega)]) (m := m) hs
  have e1' : momentLoop lay.pc3Moment N ((N : Int) + 2) 12 0 [] m = .ok (ms, m') := e1
  have hk2 : 2 ≤ k := by
    rcases Nat.eq_zero_or_pos i with rfl | h
    · omega
    · have := e5 (by omega); omega
  refine ⟨joinMoments ms ++ .ofList (lay.pc3ObsEmit (k - 2)), m', k - 2, i, ?_, ?_, e3, by omega, fun h => by have := e5 h; omega,
    oneBlock_after (oneBlock_mono (by omega) (fun _ l h => ⟨h.1, by rw [h.2]; simp [List.range_succ, pc3Emit]⟩) e6) _⟩
  · have hc0 : ¬ ((N : Int) = 0) := by omega
    rw [generateRoundsPc3, hN, if_neg hc0]
    simp only [e1', pc3Observables_ok hv ho e3, bind, Except.bind, pure, Except.pure]
  · rw [Circuit.flatten_append, e2, Circuit.flatten_ofList, pc3All, show ((N : Int) + 2).toNat = N + 2 by omega]
    congr 1
    rcases Nat.eq_zero_or_pos i with h | h
    · subst h; congr 1; omega
    · have := e5 (by omega)
      rw [show N = k - 2 + 3 * i by omega]
      exact (add3_iter (f := lay.pc3ObsEmit) (s := 3) (fun k hk => pc3ObsEmit_add3 hk) (by omega) i).symm

/-! ### SI1000 -/

theorem si1000_cycle (hv : lay.Valid) (ho : lay.ObsOk) {j : Nat} {m : MT} (hs : lay.Snap (lay.obsAt 0).1 (3 * j) m) :
    ∃ m', lay.generateCycleSI1000 m (3 * j : Int) = .ok (lay.si1000Emit j, m') ∧ lay.Snap (lay.obsAt 0).1 (3 * (j + 1)) m' := by
  obtain ⟨m1, h1, s1⟩ := forRounds_ok (good_md hv ho ((3 * j + 3 : Nat) : Int)) 3 (k := 3 * j) (i := 0) hs (by simp) (by omega)
  refine ⟨m1, ?_, by rwa [Nat.mul_add, Nat.mul_one]⟩
  have h1' : forRounds lay.subRoundMeasurementsAndDetectors m ((pyRange 3).map ((3 * j : Int) + ·)) =
      .ok ((List.range 3).flatMap fun i => lay.emitMD (3 * j + i), m1) := by
    have h2 : (pyRange 3).map ((3 * j : Int) + ·) = roundsFrom ((3 * j + 3 * 0 : Nat) : Int) 3 := by
      simp [roundsFrom, pyRange, List.range_succ]
    rw [h2, h1]; rfl
  simp only [generateCycleSI1000, h1', bind, Except.bind, pure, Except.pure, si1000Emit, gt_iff_lt]
  by_cases h : 0 < j
  · rw [if_pos h, if_pos (by omega)]
  · rw [if_neg h, if_neg (by omega)]

theorem si1000_unrolled (hv : lay.Valid) (ho : lay.ObsOk) {N : Nat} (hN : lay.sub_rounds = N) (h3 : N % 3 = 0) {m : MT}
    (hs : lay.Snap (lay.obsAt 0).1 0 m) :
    ∃ m', lay.unrolledSI1000 m = .ok (lay.si1000All N, m') ∧ lay.Snap (lay.obsAt 0).1 N m' := by
  have : ∀ (c j : Nat) (m : MT), lay.Snap (lay.obsAt 0).1 (3 * j) m →
      ∃ m', forRounds lay.generateCycleSI1000 m ((roundsFrom j c).map (3 * ·)) =
        .ok ((List.range c).flatMap fun i => lay.si1000Emit (j + i), m') ∧ lay.Snap (lay.obsAt 0).1 (3 * (j + c)) m' := by
    intro c
    induction c with
    | zero => intro j m hs; exact ⟨m, rfl, hs⟩
    | succ c ih =>
      intro j m hs
      obtain ⟨m1, h1, s1⟩ := si1000_cycle hv ho hs
      obtain ⟨m2, h2, s2⟩ := ih (j + 1) m1 s1
      refine ⟨m2, ?_, by rwa [show j + (c + 1) = j + 1 + c by omega]⟩
      rw [roundsFrom_succ, List.map_cons]
      rw [show ((j + 1 : Nat) : Int) = (j : Int) + 1 by push_cast; ring] at h2
      simp only [forRounds, h1, h2]
      rw [List.range_succ_eq_map, List.flatMap_cons, List.flatMap_map, Nat.add_zero]
      congr 4
      funext i
      congr 1; omega
  obtain ⟨m1, h1, s1⟩ := this (N / 3) 0 m hs
  refine ⟨m1, ?_, by rwa [show 3 * (0 + N / 3) = N by omega] at s1⟩
  rw [unrolledSI1000, hN, pyRange_eq, show ((N : Int) / 3).toNat = N / 3 by omega, si1000All]
  simpa using h1

theorem si1000_generated (hv : lay.Valid) (ho : lay.ObsOk) (hs0 : lay.steady0 = 0) {N : Nat} (hN : lay.sub_rounds = N)
    (h1 : 1 ≤ N) (h3 : N % 3 = 0) {m : MT} (hs : lay.Snap (lay.obsAt 0).1 0 m) :
    ∃ c m' k i, lay.generateRoundsSI1000 m = .ok (c, m') ∧ c.flatten = lay.si1000All N ∧ lay.Snap (lay.obsAt 0).1 k m' ∧
      k + 3 * i = N ∧ (i ≠ 0 → lay.steady0 + 4 ≤ k)  ∧ c.OneBlock (12 ≤ N) fun r l => 2 ≤ r ∧ .tick ∈ l := by
  have hc0 : ¬ ((N : Int) = 0) := by omega
  have hc1 : ¬ ((N : Int) % 3 ≠ 0) := by omega
  obtain ⟨m1, f1, s1⟩ := si1000_cycle hv ho (j := 0) hs
  have f1' : lay.generateCycleSI1000 m 0 = .ok (lay.si1000Emit 0, m1) := f1
  rw [generateRoundsSI1000, hN, if_neg hc0, if_neg hc1]
  by_cases h6 : 3 < N
  · obtain ⟨m2, f2, s2⟩ := si1000_cycle hv ho (j := 1) s1
    have f2' : lay.generateCycleSI1000 m1 3 = .ok (lay.si1000Emit 1, m2) := f2
    by_cases h9 : 6 < N
    · obtain ⟨m3, f3, s3⟩ := si1000_cycle hv ho (j := 2) s2
      have f3' : lay.generateCycleSI1000 m2 6 = .ok (lay.si1000Emit 2, m3) := f3
      have hper : ∀ i, lay.si1000Emit (2 + i) = lay.si1000Emit 2 := by
        intro i
        simp only [si1000Emit]
        rw [if_pos (by omega), if_pos (by omega)]
        congr 2
        apply List.flatMap_congr
        intro x _
        rw [show 3 * (2 + i) + x = 3 * 2 + x + 3 * i by ring]
        exact emitMD_iter i (fun _ => by omega)
      refine ⟨.ofList (lay.si1000Emit 0 ++ lay.si1000Emit 1) ++ (Circuit.ofList (lay.si1000Emit 2)).mul (N / 3 - 2), m3, _,
        N / 3 - 3, ?_, ?_, s3, by omega, by omega, ?_⟩
      · simp only [f1', f2', f3', bind, Except.bind, pure, Except.pure, gt_iff_lt, show (3 : Int) < N from by omega,
          show (6 : Int) < N from by omega, if_true, show (((N : Int) - 6) / 3).toNat = N / 3 - 2 from by omega]
      · rw [Circuit.flatten_append, Circuit.flatten_ofList, Circuit.flatten_mul, Circuit.flatten_ofList, si1000All,
          show N / 3 = 2 + (N / 3 - 2) by omega, range_flatMap_add]
        simp only [hper]
        rw [show 2 + (N / 3 - 2) - 2 = N / 3 - 2 by omega]
        have : (List.range 2).flatMap lay.si1000Emit = lay.si1000Emit 0 ++ lay.si1000Emit 1 := by
          simp [List.range_succ]
        rw [this, List.flatMap_def, List.map_const', List.length_range]
      · by_cases h12 : N / 3 - 2 = 1
        · rw [h12]
          rw [show (Circuit.ofList (lay.si1000Emit 2)).mul 1 = Circuit.ofList (lay.si1000Emit 2) from rfl, ← Circuit.ofList_append]
          exact oneBlock_none (by omega) _
        · have := oneBlock_between (oneBlock_mul (P := fun r l => 2 ≤ r ∧ Instr.tick ∈ l) (show 12 ≤ N by omega) (l := lay.si1000Emit 2)
            (n := N / 3 - 2) (by omega) ⟨by omega, by simp [si1000Emit]⟩) (lay.si1000Emit 0 ++ lay.si1000Emit 1) []
          simpa [Circuit.ofList] using this
    · refine ⟨.ofList (lay.si1000Emit 0 ++ lay.si1000Emit 1) ++ .nil, m2, _, 0, ?_, ?_, s2, by omega, by omega,
        by rw [Circuit.append_nil]; exact oneBlock_none (by omega) _⟩
      · simp only [f1', f2', bind, Except.bind, pure, Except.pure, gt_iff_lt, show (3 : Int) < N from by omega,
          show ¬ (6 : Int) < N from by omega, if_true, if_false]
      · rw [Circuit.flatten_append, Circuit.flatten_ofList, si1000All, show N / 3 = 2 by omega]
        simp [List.range_succ, Circuit.flatten]
  · refine ⟨.ofList (lay.si1000Emit 0 ++ []) ++ .nil, m1, _, 0, ?_, ?_, s1, by omega, by omega,
      by rw [Circuit.append_nil]; exact oneBlock_none (by omega) _⟩
    · simp only [f1', bind, Except.bind, pure, Except.pure, gt_iff_lt, show ¬ (3 : Int) < N from by omega,
        show ¬ (6 : Int) < N from by omega, if_false]
    · rw [Circuit.flatten_append, Circuit.flatten_ofList, si1000All, show N / 3 = 1 by omega]
      simp [List.range_succ, Circuit.flatten]

/-! ### The whole circuit -/

theorem steady0_of_ne (h : lay.style ≠ "PC3") : lay.steady0 = 0 := by
  simp [steady0, isPC3, h]

theorem steady0_pc3 (h : lay.style = "PC3") : lay.steady0 = 3 := by
  simp [steady0, isPC3, h]

/-- From how many sub-rounds on the circuit has a block. -/
def blockFrom (lay : HoneycombLayout) : Nat := if lay.isEM3 then 10 else if lay.style = "PC3" then 15 else 12

theorem rounds_generated (hv : lay.Valid) (hsup : lay.Supported) {N : Nat} (hN : lay.sub_rounds = N) {m : MT}
    (hs : lay.Snap (lay.obsAt 0).1 0 m) :
    ∃ c m' k i, lay.generateRounds m = .ok (c, m') ∧ c.flatten = lay.allRounds N ∧ lay.Snap (lay.obsAt 0).1 k m' ∧
      k + 3 * i = N ∧ (i ≠ 0 → lay.steady0 + 4 ≤ k)  ∧
      c.OneBlock (lay.blockFrom ≤ N) fun r l => (2 ≤ r ∧ .tick ∈ l) ∧ (lay.isEM3 = true → ∃ k, l = (List.range 3).flatMap fun j => lay.em3Emit (k + j)) := by
  obtain ⟨hst, ho, h1, h3⟩ := hsup
  have h1' : 1 ≤ N := by omega
  simp only [generateRounds, allRounds]
  rcases hst with h | h | h | h | h
  · simp only [h, if_true]
    obtain ⟨c, m', k, i, e1, e2, e3, e4, e5, e6⟩ := sd6_generated hv ho (steady0_of_ne (by rw [h]; decide)) hN h1' hs
    exact ⟨c, m', k, i, e1, e2, e3, e4, e5, oneBlock_mono (by simp [blockFrom, isEM3, h]) (fun _ _ x => ⟨x, by simp [isEM3, h]⟩) e6⟩
  · simp only [h, show ¬ ("PC3" = "SD6") from by decide, if_true, if_false]
    obtain ⟨c, m', k, i, e1, e2, e3, e4, e5, e6⟩ := pc3_generated hv ho (steady0_pc3 h) hN h1' hs
    exact ⟨c, m', k, i, e1, e2, e3, e4, e5, oneBlock_mono (by simp [blockFrom, isEM3, h]) (fun _ _ x => ⟨x, by simp [isEM3, h]⟩) e6⟩
  · simp only [h, show ¬ ("EM3" = "PC3") from by decide, show ¬ ("EM3" = "SD6") from by decide,
      show lay.isEM3 = true from by simp [isEM3, h], if_true, if_false]
    obtain ⟨c, m', k, i, e1, e2, e3, e4, e5, e6⟩ := em3_generated hv ho (steady0_of_ne (by rw [h]; decide)) hN h1' hs
    exact ⟨c, m', k, i, e1, e2, e3, e4, e5, oneBlock_mono (by simp [blockFrom, isEM3, h])
      (fun _ _ x => ⟨⟨x.1, by obtain ⟨_, k, rfl⟩ := x; simp [List.range_succ, em3Emit]⟩, fun _ => x.2⟩) e6⟩
  · simp only [h, show ¬ ("EM3_v2" = "PC3") from by decide, show ¬ ("EM3_v2" = "SD6") from by decide,
      show lay.isEM3 = true from by simp [isEM3, h], if_true, if_false]
    obtain ⟨c, m', k, i, e1, e2, e3, e4, e5, e6⟩ := em3_generated hv ho (steady0_of_ne (by rw [h]; decide)) hN h1' hs
    exact ⟨c, m', k, i, e1, e2, e3, e4, e5, oneBlock_mono (by simp [blockFrom, isEM3, h])
      (fun _ _ x => ⟨⟨x.1, by obtain ⟨_, k, rfl⟩ := x; simp [List.range_succ, em3Emit]⟩, fun _ => x.2⟩) e6⟩
  · simp only [h, show ¬ ("SI1000" = "PC3") from by decide, show ¬ ("SI1000" = "SD6") from by decide,
      show lay.isEM3 = false from by simp [isEM3, h], if_true, if_false, Bool.false_eq_true]
    obtain ⟨c, m', k, i, e1, e2, e3, e4, e5, e6⟩ := si1000_generated hv ho (steady0_of_ne (by rw [h]; decide)) hN h1' (by have := h3 h; omega) hs
    exact ⟨c, m', k, i, e1, e2, e3, e4, e5, oneBlock_mono (by simp [blockFrom, isEM3, h]) (fun _ _ x => ⟨x, by simp [isEM3, h]⟩) e6⟩

theorem rounds_unrolled (hv : lay.Valid) (hsup : lay.Supported) {N : Nat} (hN : lay.sub_rounds = N) {m : MT}
    (hs : lay.Snap (lay.obsAt 0).1 0 m) :
    ∃ m', lay.unrolledRounds m = .ok (lay.allRounds N, m') ∧ lay.Snap (lay.obsAt 0).1 N m' := by
  obtain ⟨hst, ho, h1, h3⟩ := hsup
  have h1' : 1 ≤ N := by omega
  simp only [unrolledRounds, allRounds]
  rcases hst with h | h | h | h | h
  · simp only [h, if_true]
    exact sd6_unrolled hv ho hN h1' hs
  · simp only [h, show ¬ ("PC3" = "SD6") from by decide, if_true, if_false]
    exact pc3_unrolled hv ho hN hs
  · simp only [h, show ¬ ("EM3" = "PC3") from by decide, show ¬ ("EM3" = "SD6") from by decide,
      show lay.isEM3 = true from by simp [isEM3, h], if_true, if_false]
    exact em3_unrolled hv ho hN hs
  · simp only [h, show ¬ ("EM3_v2" = "PC3") from by decide, show ¬ ("EM3_v2" = "SD6") from by decide,
      show lay.isEM3 = true from by simp [isEM3, h], if_true, if_false]
    exact em3_unrolled hv ho hN hs
  · simp only [h, show ¬ ("SI1000" = "PC3") from by decide, show ¬ ("SI1000" = "SD6") from by decide,
      show lay.isEM3 = false from by simp [isEM3, h], if_true, if_false, Bool.false_eq_true]
    exact si1000_unrolled hv ho hN (by have := h3 h; omega) hs

/-- The generated circuit, unrolled, is the closed form. -/
theorem generateNoiseless_block (hv : lay.Valid) (hsup : lay.Supported) {N : Nat} (hN : lay.sub_rounds = N) :
    ∃ c, lay.generateNoiseless = .ok c ∧ c.flatten = lay.closedCircuit N ∧
      c.OneBlock (lay.blockFrom ≤ N) fun r l => (2 ≤ r ∧ .tick ∈ l) ∧ (lay.isEM3 = true → ∃ k, l = (List.range 3).flatMap fun j => lay.em3Emit (k + j)) := by
  have ho : lay.ObsOk := hsup.2.1
  obtain ⟨m0, f0, s0⟩ := init_ok hv ho
  obtain ⟨c1, m1, k, i, f1, e1, s1, hk, hi, e6⟩ := rounds_generated hv hsup hN s0
  obtain ⟨m2, f2⟩ := final_ok hv ho s1
  refine ⟨.ofList (lay.qubitCoordOps ++ ([.on .R lay.used_qubit_indices, .tick] ++ lay.basisChange (lay.obsAt 0).1)) ++ c1 ++
    .ofList (lay.basisChange (lay.obsAt lay.sub_rounds).1 ++ [.on .M lay.data_qubit_indices] ++
        lay.emitFinal lay.sub_rounds k), ?_, ?_, oneBlock_between e6 _ _⟩
  · simp only [generateNoiseless, f0, f1, f2, bind, Except.bind, pure, Except.pure]
  · rw [Circuit.flatten_append, Circuit.flatten_append, Circuit.flatten_ofList, Circuit.flatten_ofList, e1, closedCircuit, hN]
    congr 2
    rcases Nat.eq_zero_or_pos i with h | h
    · subst h; rw [← hk]; rfl
    · have hk4 := hi (by omega)
      conv_rhs => rw [← hk]
      rw [← hk]
      exact (add3_iter (f := lay.emitFinal _) (s := lay.steady0 + 4) (fun k h => emitFinal_add3 _ h) hk4 i).symm

theorem generateNoiseless_closed (hv : lay.Valid) (hsup : lay.Supported) {N : Nat} (hN : lay.sub_rounds = N) :
    ∃ c, lay.generateNoiseless = .ok c ∧ c.flatten = lay.closedCircuit N ∧
      c.Shape fun r l => 2 ≤ r ∧ (lay.isEM3 = true → ∃ k, l = (List.range 3).flatMap fun j => lay.em3Emit (k + j)) := by
  obtain ⟨c, h1, h2, h3⟩ := generateNoiseless_block hv hsup hN
  exact ⟨c, h1, h2, Shape.mono (fun _ _ h => ⟨h.1.1, h.2⟩) (oneBlock_shape h3)⟩

theorem unrolledNoiseless_closed (hv : lay.Valid) (hsup : lay.Supported) {N : Nat} (hN : lay.sub_rounds = N) :
    lay.unrolledNoiseless = .ok (lay.closedCircuit N) := by
  have ho : lay.ObsOk := hsup.2.1
  obtain ⟨m0, f0, s0⟩ := init_ok hv ho
  obtain ⟨m1, f1, s1⟩ := rounds_unrolled hv hsup hN s0
  obtain ⟨m2, f2⟩ := final_ok hv ho s1
  simp only [unrolledNoiseless, f0, f1, f2, bind, Except.bind, pure, Except.pure, closedCircuit, hN]

end HoneycombLayout
end Honeycomb
