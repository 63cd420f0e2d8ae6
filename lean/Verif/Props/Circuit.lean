import Verif.Lemmas.Marks
import Verif.Spec.Unrolled
import Verif.Props.Layout

/-!
# Properties of generated circuits: C12, C20, C22, C23, C24

`Supported` and `unrolledNoiseless` are defined in `Verif/Spec/Unrolled.lean`; `timeline`, `measured`,
`recordIndices` and `detectorCoords` in `Verif/Spec/Timeline.lean`.
-/

namespace Honeycomb
open HoneycombLayout

/-- A supported layout whose generated circuit contains a `REPEAT` block (for every style). -/
theorem exampleLayout_supported : exampleLayout.Supported := by
  simp [Supported, exampleLayout]

theorem perRound_int {lay : HoneycombLayout} (hv : lay.Valid) : (lay.perRound : Int) = lay.data_width * lay.data_height / 2 := by
  have := (c05_edges lay hv).2.2.1 0
  rw [perRound]; omega

theorem data_int {lay : HoneycombLayout} (hv : lay.Valid) : (lay.data_qubit_coords.length : Int) = lay.data_width * lay.data_height :=
  (c06_counts lay hv).2.1.2

theorem perRound_pos {lay : HoneycombLayout} (hv : lay.Valid) : 0 < lay.perRound := by
  have h := perRound_int hv
  have : 2 * 6 ≤ lay.data_width * lay.data_height := by
    have h1 := hv.width_even; have h2 := hv.height_six; have h3 := hv.width_pos; have h4 := hv.height_pos
    exact Int.mul_le_mul (by omega) (by omega) (by omega) (by omega)
  omega

theorem data_pos {lay : HoneycombLayout} (hv : lay.Valid) : 0 < lay.data_qubit_coords.length := by
  have h := data_int hv
  have : 0 < lay.data_width * lay.data_height := Int.mul_pos hv.width_pos hv.height_pos
  omega

/-! ## C12 -/

/-- C12: on accepted layouts with a non-negative number of sub-rounds, `make_circuit` returns a circuit exactly for
the supported configurations and raises NotImplementedError for all others. -/
theorem c12_generation (lay : HoneycombLayout) (hv : lay.Valid) (h0 : 0 ≤ lay.sub_rounds) :
    (lay.Supported → ∃ c, lay.makeCircuit = .ok c) ∧
    (¬ lay.Supported → lay.makeCircuit = .error .notImplemented) := by
  obtain ⟨N, hN⟩ := Int.eq_ofNat_of_zero_le h0
  constructor
  · intro hs
    obtain ⟨_, _, d, _, _, _, _, _, _, _, _, _, _, _, _, h⟩ := makeCircuit_ok hv hs hN
    exact ⟨d, h⟩
  · intro hs
    by_cases ho : lay.obs = "V" ∨ lay.obs = "H"
    · obtain ⟨m, hi, _⟩ := init_ok hv ho
      have : lay.generateRounds m = .error .notImplemented := by
        rw [generateRounds]
        split_ifs with h1 h2 h3 h4
        · have : lay.sub_rounds = 0 := by
            by_contra hne
            exact hs ⟨Or.inl h1, ho, by omega, by rw [h1]; intro h; exact absurd h (by decide)⟩
          simp [generateRoundsSd6, this]
        · have : lay.sub_rounds = 0 := by
            by_contra hne
            exact hs ⟨Or.inr (Or.inl h2), ho, by omega, by rw [h2]; intro h; exact absurd h (by decide)⟩
          simp [generateRoundsPc3, this]
        · have h3' : lay.style = "EM3" ∨ lay.style = "EM3_v2" := by simpa [isEM3] using h3
          have : lay.sub_rounds = 0 := by
            by_contra hne
            exact hs ⟨by tauto, ho, by omega, by intro h; rw [h] at h3'; exact absurd h3' (by decide)⟩
          simp [generateRoundsEm3, this]
        · rw [generateRoundsSI1000]
          by_cases hz : lay.sub_rounds = 0
          · simp [hz]
          · have : lay.sub_rounds % 3 ≠ 0 := by
              intro h
              exact hs ⟨by tauto, ho, by omega, fun _ => h⟩
            simp only
            rw [if_neg hz, if_pos this]
        · rfl
      simp only [makeCircuit, generateNoiseless, hi, this, bind, Except.bind]
    · have : lay.obs_before_sub_round 0 = .error .notImplemented := by
        rw [obs_before_sub_round, if_neg (fun h => ho (Or.inl h)), if_neg (fun h => ho (Or.inr h))]
      simp only [makeCircuit, generateNoiseless, faultTolerantInit, this, bind, Except.bind]

example : exampleLayout.Valid ∧ exampleLayout.Supported ∧
    ¬ ({ exampleLayout with style := "SI1000" } : HoneycombLayout).Supported :=
  ⟨exampleLayout_valid, exampleLayout_supported, by simp [Supported, exampleLayout]⟩

/-- A finding about C12: negative numbers of sub-rounds are not rejected. For the EM3 styles the result is a
circuit that only initialises and measures. -/
theorem c12_negative_accepted (lay : HoneycombLayout) (hv : lay.Valid) (hs : lay.style = "EM3" ∨ lay.style = "EM3_v2")
    (ho : lay.obs = "V" ∨ lay.obs = "H") (hneg : lay.sub_rounds < 0) :
    ∃ c, lay.generateNoiseless = .ok c ∧ ∀ i ∈ c.flatten, i.gate ≠ .MPP := by
  obtain ⟨m, hi, hsn⟩ := init_ok hv ho
  obtain ⟨m', hf⟩ := final_ok hv ho hsn
  have he : lay.isEM3 = true := by rcases hs with h | h <;> simp [isEM3, h]
  have hr : lay.generateRounds m = .ok (.nil, m) := by
    have h1 : lay.style ≠ "SD6" := by rcases hs with h | h <;> rw [h] <;> decide
    have h2 : lay.style ≠ "PC3" := by rcases hs with h | h <;> rw [h] <;> decide
    rw [generateRounds, if_neg h1, if_neg h2, if_pos he, generateRoundsEm3]
    simp only
    rw [if_neg (by omega), momentLoop_done (by omega)]
    rfl
  have hg : lay.generateNoiseless = .ok (Circuit.ofList (lay.qubitCoordOps ++
      ([Instr.on Gate.R lay.used_qubit_indices, Instr.tick] ++ lay.basisChange (lay.obsAt 0).1)) ++ Circuit.nil ++
      Circuit.ofList (lay.basisChange (lay.obsAt lay.sub_rounds).1 ++ [Instr.on Gate.M lay.data_qubit_indices] ++
        lay.emitFinal lay.sub_rounds 0)) := by
    simp only [generateNoiseless, hi, hr, hf, bind, Except.bind, pure, Except.pure]
  refine ⟨_, hg, ?_⟩
  intro i hi
  simp only [Circuit.flatten_append, Circuit.flatten_ofList, List.mem_append] at hi
  intro hg
  have hb : ∀ b, i ∉ lay.basisChange b := by
    intro b hb
    rw [basisChange] at hb
    split_ifs at hb
    · simp only [List.mem_cons, List.not_mem_nil, or_false] at hb
      rcases hb with rfl | rfl
      · cases b <;> simp [Instr.on, toZGate] at hg
      · simp [Instr.tick] at hg
    · simp at hb
  rcases hi with (((hi | hi) | hi) | hi)
  · obtain ⟨q, _, rfl⟩ := List.mem_map.1 hi
    simp at hg
  · rcases hi with hi | hi
    · simp only [List.mem_cons, List.not_mem_nil, or_false] at hi
      rcases hi with rfl | rfl
      · simp [Instr.on] at hg
      · simp [Instr.tick] at hg
    · exact hb _ hi
  · simp [Circuit.flatten] at hi
  · rcases hi with (hi | hi) | hi
    · exact hb _ hi
    · rw [List.mem_singleton] at hi; subst hi; simp [Instr.on] at hg
    · rcases emitFinal_gate hi with h | h <;> rw [h] at hg <;> simp at hg

example : ({ exampleLayout with style := "EM3", sub_rounds := -1 } : HoneycombLayout).Valid := by
  constructor <;> simp [exampleLayout]

/-! ## C20 -/

/-- C20: the circuit generated with `REPEAT` blocks, unrolled, is instruction for instruction the circuit obtained
by generating every sub-round individually. -/
theorem c20_loop_compression (lay : HoneycombLayout) (hv : lay.Valid) (hs : lay.Supported) :
    ∃ c, lay.generateNoiseless = .ok c ∧ lay.unrolledNoiseless = .ok c.flatten := by
  obtain ⟨N, hN⟩ := Int.eq_ofNat_of_zero_le (show 0 ≤ lay.sub_rounds by have := hs.2.2.1; omega)
  obtain ⟨c, hc, hf, _⟩ := generateNoiseless_closed hv hs hN
  exact ⟨c, hc, by rw [hf]; exact unrolledNoiseless_closed hv hs hN⟩

example : exampleLayout.Valid ∧ exampleLayout.Supported := ⟨exampleLayout_valid, exampleLayout_supported⟩

/-! ## C22 -/

/-- C22: a generated circuit (with its noise) makes `data_width * data_height / 2` measurements per sub-round
plus `data_width * data_height` final ones, and every record target of every detector and observable
refers to a measurement that has been made before it. -/
theorem c22_measurements (lay : HoneycombLayout) (hv : lay.Valid) (hs : lay.Supported) :
    ∃ d, lay.makeCircuit = .ok d ∧
      (d.num_measurements : Int) = lay.sub_rounds * (lay.data_width * lay.data_height / 2) + lay.data_width * lay.data_height ∧
      ∀ x ∈ recordUses 0 d.flatten, ∀ t ∈ x.1.targets, ∃ o : Int, t = .record o ∧ -(x.2 : Int) ≤ o ∧ o < 0 := by
  obtain ⟨N, hN⟩ := Int.eq_ofNat_of_zero_le (show 0 ≤ lay.sub_rounds by have := hs.2.2.1; omega)
  obtain ⟨c, nm, d, hc, hf, _, _, _, ht, _, _, _, _, _, hn, hd⟩ := makeCircuit_ok hv hs hN
  obtain ⟨h1, _, h3⟩ := c30_record_preserved nm c d none ht hn
  refine ⟨d, hd, ?_, ?_⟩
  · rw [h1, num_measurements_eq, hf]
    have := (closed_uses hv hs hN).1
    rw [mcount] at this
    rw [this, ← perRound_int hv, ← data_int hv, hN]
    push_cast; rfl
  · intro x hx
    rw [h3, hf, recordUses_timeline] at hx
    exact offsets_closed hv hs hN x (List.mem_filter.1 hx).1

/-- C22: what is measured, in record order: sub-round by sub-round the edges of the sub-round's category in the order of
`round_edges` (the ancilla of the edge, or in the EM3 styles the two-body Pauli product), then all data
qubits. -/
theorem c22_measured (lay : HoneycombLayout) (hv : lay.Valid) (hs : lay.Supported) :
    ∃ c, lay.generateNoiseless = .ok c ∧
      measured c.flatten =
        ((List.range lay.sub_rounds.toNat).flatMap fun k : Nat => (lay.round_edges k).map fun e =>
          if lay.style = "EM3" ∨ lay.style = "EM3_v2" then
            [(sub_round_edge_basis k, lay.idx e.left), (sub_round_edge_basis k, lay.idx e.right)]
          else [(.Z, lay.idx e.center)]) ++
        lay.data_qubit_coords.map fun q => [(.Z, lay.idx q)] := by
  obtain ⟨N, hN⟩ := Int.eq_ofNat_of_zero_le (show 0 ≤ lay.sub_rounds by have := hs.2.2.1; omega)
  obtain ⟨c, hc, hf, _⟩ := generateNoiseless_closed hv hs hN
  refine ⟨c, hc, ?_⟩
  have he : lay.isEM3 = true ↔ lay.style = "EM3" ∨ lay.style = "EM3_v2" := by simp [isEM3]
  rw [hf, (closed_uses hv hs hN).2.2, hN]
  simp only [Int.toNat_natCast, he, show lay.roundMeas = fun k : Nat => (lay.round_edges k).map fun e =>
    if lay.isEM3 then [(sub_round_edge_basis k, lay.idx e.left), (sub_round_edge_basis k, lay.idx e.right)]
    else [(.Z, lay.idx e.center)] from rfl]

/-! ## C23 -/

/-- Where a detector may sit: on a face or, in the first and the last layer, on an edge measured in that
sub-round. -/
def DetectorPlace (lay : HoneycombLayout) (layer : Nat) (p : Pt) : Prop :=
  IsHexCenter lay p ∨
  ((layer = 0 ∨ layer = lay.sub_rounds) ∧ ∃ e ∈ lay.round_edges (if layer = 0 then 0 else layer - 1), e.center = p)

theorem mem_detI {t : Nat} {o} {p : Pt} {i : Instr} (h : i ∈ detI t o (coords3 p)) :
    i.numbers = [crd p.x, crd p.y, 0] ∧ i.args = [.lit (crd p.x), .lit (crd p.y), .lit 0] := by
  cases o <;> simp [detI] at h
  subst h
  simp [Instr.detector, Instr.numbers, coords3]

theorem ann_place {lay : HoneycombLayout} (hv : lay.Valid) {k : Nat} {i : Instr} (hi : i ∈ lay.emitAnn k) (hg : i.gate = .DETECTOR) :
    ∃ p, DetectorPlace lay k p ∧ i.numbers = [crd p.x, crd p.y, 0] ∧ i.args = [.lit (crd p.x), .lit (crd p.y), .lit 0] := by
  simp only [emitAnn, List.mem_append, List.mem_singleton, or_assoc] at hi
  rcases hi with h | h | h | h
  · split_ifs at h
    · simp at h
    · rw [List.mem_singleton] at h; subst h; simp [Instr.observable] at hg
  · split_ifs at h with hk
    · obtain ⟨e, he, hi⟩ := List.mem_flatMap.1 h
      exact ⟨e.center, Or.inr ⟨Or.inl hk.1, e, by simpa [hk.1] using he, rfl⟩, mem_detI hi⟩
    · simp at h
  · obtain ⟨e, he, hi⟩ := List.mem_flatMap.1 h
    exact ⟨e, Or.inl ((isHex_iff hv e).2 ((mem_round_hex_centers hv).1 he).1), mem_detI hi⟩
  · subst h; simp [Instr.shift] at hg

theorem final_place {lay : HoneycombLayout} (hv : lay.Valid) {N : Nat} (hN : lay.sub_rounds = N) (h1 : 1 ≤ N) {i : Instr}
    (hi : i ∈ lay.emitFinal N N) (hg : i.gate = .DETECTOR) :
    ∃ p, DetectorPlace lay N p ∧ i.numbers = [crd p.x, crd p.y, 0] ∧ i.args = [.lit (crd p.x), .lit (crd p.y), .lit 0] := by
  simp only [emitFinal, List.mem_append, List.mem_singleton, or_assoc] at hi
  rcases hi with h | h | h
  · split_ifs at h with hl
    · obtain ⟨e, he, hi⟩ := List.mem_flatMap.1 h
      refine ⟨e.center, Or.inr ⟨Or.inr hN.symm, e, ?_, rfl⟩, mem_detI hi⟩
      rw [if_neg (by omega), round_edges_congr lay (r' := (lay.obsAt N).1.index)]
      · exact he
      · rw [← hl]
        simp only [Basis.ofIdx]
        have : ((N : Int) - 1) % 3 = 0 ∨ ((N : Int) - 1) % 3 = 1 ∨ ((N : Int) - 1) % 3 = 2 := by omega
        rcases this with h | h | h <;> simp [h, Basis.index]
    · obtain ⟨e, he, hi⟩ := List.mem_flatMap.1 h
      exact ⟨e, Or.inl ((isHex_iff hv e).2 ((mem_round_hex_centers hv).1 he).1), mem_detI hi⟩
  · obtain ⟨e, he, hi⟩ := List.mem_flatMap.1 h
    exact ⟨e, Or.inl ((isHex_iff hv e).2 ((mem_round_hex_centers hv).1 he).1), mem_detI hi⟩
  · subst h; simp [Instr.observable] at hg

/-- C23: every detector of a generated circuit (with its noise) has the arguments `(x, y, 0)` where `(x, y)` is the
position of a face, or in the first or last layer of an edge. -/
theorem c23_positions (lay : HoneycombLayout) (hv : lay.Valid) (hs : lay.Supported) :
    ∃ d, lay.makeCircuit = .ok d ∧ ∀ x ∈ recordUses 0 d.flatten, x.1.gate = .DETECTOR →
      ∃ k p, DetectorPlace lay k p ∧ x.1.args = [.lit (crd p.x), .lit (crd p.y), .lit 0] := by
  obtain ⟨N, hN⟩ := Int.eq_ofNat_of_zero_le (show 0 ≤ lay.sub_rounds by have := hs.2.2.1; omega)
  obtain ⟨c, nm, d, hc, hf, _, _, _, ht, _, _, _, _, _, hn, hd⟩ := makeCircuit_ok hv hs hN
  have h1 : 1 ≤ N := by have := hs.2.2.1; omega
  refine ⟨d, hd, ?_⟩
  intro x hx hg
  rw [(c30_record_preserved nm c d none ht hn).2.2, hf, recordUses_timeline] at hx
  have hx := (List.mem_filter.1 hx).1
  rw [(closed_uses hv hs hN).2.1] at hx
  simp only [List.mem_append, List.mem_flatMap, List.mem_map, or_assoc] at hx
  rcases hx with ⟨k, _, hx⟩ | hx | ⟨i, hi, rfl⟩
  · obtain ⟨i, hi, rfl⟩ := List.mem_map.1 hx
    obtain ⟨p, h1, h2, h3⟩ := ann_place hv hi hg
    exact ⟨k, p, h1, h3⟩
  · rw [pc3Uses] at hx
    split_ifs at hx
    · obtain ⟨i, hi, rfl⟩ := List.mem_map.1 hx
      rw [pc3ObsEmit_gate hi] at hg; exact absurd hg (by decide)
    · simp at hx
  · obtain ⟨p, h1, h2, h3⟩ := final_place hv hN h1 hi hg
    exact ⟨N, p, h1, h3⟩

/-- C23: the absolute coordinates of every detector are `(x, y, k)` where `(x, y)` is a place allowed in layer `k`
and the detector directly follows the measurements of sub-round `k` (for `k = sub_rounds`: the final
data measurement). -/
theorem c23_absolute (lay : HoneycombLayout) (hv : lay.Valid) (hs : lay.Supported) :
    ∃ d, lay.makeCircuit = .ok d ∧ ∀ x ∈ detectorCoords d.flatten, ∃ (k : Nat) (p : Pt), DetectorPlace lay k p ∧
      x.1 = [crd p.x, crd p.y, (k : Rat)] ∧
      (((k : Int) < lay.sub_rounds ∧ (x.2 : Int) = (k + 1) * (lay.data_width * lay.data_height / 2)) ∨
       ((k : Int) = lay.sub_rounds ∧ x.2 = d.num_measurements)) := by
  obtain ⟨N, hN⟩ := Int.eq_ofNat_of_zero_le (show 0 ≤ lay.sub_rounds by have := hs.2.2.1; omega)
  obtain ⟨c, nm, d, hc, hf, _, _, _, ht, _, _, _, _, _, hn, hd⟩ := makeCircuit_ok hv hs hN
  have h1 : 1 ≤ N := by have := hs.2.2.1; omega
  have hmc : d.num_measurements = N * lay.perRound + lay.data_qubit_coords.length := by
    rw [(c30_record_preserved nm c d none ht hn).1, num_measurements_eq, hf]
    exact (closed_uses hv hs hN).1
  refine ⟨d, hd, ?_⟩
  rintro ⟨xs, n⟩ hx
  rw [noisyCircuit_tracked] at hn
  rw [detectorCoords, timeline_noisy ht hn, hf, (closed_uses hv hs hN).2.1, List.append_assoc] at hx
  have hx' := absoluteCoords_rounds (lay := lay) 0 N _ (y := (xs, n)) (by
    have : (fun _ => 0 : Nat → Rat) = originAt 0 := by funext j; simp [originAt]
    rw [this] at hx
    simpa only [Nat.zero_add] using hx)
  have hm : ∀ (p : Pt) (k : Nat), ([crd p.x, crd p.y, 0] : List Rat).mapIdx (fun j z => z + originAt k j) = [crd p.x, crd p.y, (k : Rat)] := by
    intro p k; simp [originAt]
  rcases hx' with ⟨k, _, hk, i, hi, hg, e⟩ | hx'
  · obtain ⟨p, hp, hnum, _⟩ := ann_place hv hi hg
    simp only [Prod.mk.injEq] at e
    refine ⟨k, p, hp, ?_, Or.inl ⟨by omega, ?_⟩⟩
    · rw [e.1, hnum]; exact hm p k
    · rw [e.2, ← perRound_int hv]; push_cast; rfl
  · rw [Nat.zero_add] at hx'
    have hns1 : ∀ x ∈ lay.pc3Uses N, x.1.gate = .OBSERVABLE_INCLUDE := by
      intro x hx
      rw [pc3Uses] at hx
      split_ifs at hx
      · obtain ⟨i, hi, rfl⟩ := List.mem_map.1 hx
        exact pc3ObsEmit_gate hi
      · simp at hx
    obtain ⟨x, hx, hg, e⟩ := mem_absoluteCoords_noShift (by
      intro x hx
      rcases List.mem_append.1 hx with hx | hx
      · rw [hns1 x hx]; decide
      · obtain ⟨i, hi, rfl⟩ := List.mem_map.1 hx
        rcases emitFinal_gate hi with h | h <;> simp [h]) hx'
    rcases List.mem_append.1 hx with hx | hx
    · rw [hns1 x hx] at hg; exact absurd hg (by decide)
    · obtain ⟨i, hi, rfl⟩ := List.mem_map.1 hx
      obtain ⟨p, hp, hnum, _⟩ := final_place hv hN h1 hi hg
      simp only [Prod.mk.injEq] at e
      refine ⟨N, p, hp, ?_, Or.inr ⟨hN.symm, ?_⟩⟩
      · rw [e.1, hnum]; exact hm p N
      · rw [e.2, hmc]

/-- C23: the coordinate shifts are exactly one `SHIFT_COORDS(0, 0, 1)` after the measurements of each sub-round. -/
theorem c23_shifts (lay : HoneycombLayout) (hv : lay.Valid) (hs : lay.Supported) :
    ∃ d, lay.makeCircuit = .ok d ∧
      (timeline 0 d.flatten).filter (fun x => decide (x.1.gate = .SHIFT_COORDS)) =
        (List.range lay.sub_rounds.toNat).map fun k =>
          (.shift [0, 0, 1], (k + 1) * (lay.data_width * lay.data_height / 2).toNat) := by
  obtain ⟨N, hN⟩ := Int.eq_ofNat_of_zero_le (show 0 ≤ lay.sub_rounds by have := hs.2.2.1; omega)
  obtain ⟨c, nm, d, hc, hf, _, _, _, ht, _, _, _, _, _, hn, hd⟩ := makeCircuit_ok hv hs hN
  refine ⟨d, hd, ?_⟩
  rw [noisyCircuit_tracked] at hn
  rw [timeline_noisy ht hn, hf, (closed_uses hv hs hN).2.1, List.filter_append, List.filter_append, ← perRound_int hv, hN]
  simp only [Int.toNat_natCast]
  have e1 : (lay.pc3Uses N).filter (fun x => decide (x.1.gate = .SHIFT_COORDS)) = [] := by
    rw [List.filter_eq_nil_iff]
    intro x hx
    rw [pc3Uses] at hx
    split_ifs at hx
    · obtain ⟨i, hi, rfl⟩ := List.mem_map.1 hx
      simp [pc3ObsEmit_gate hi]
    · simp at hx
  have e2 : ((lay.emitFinal N N).map fun i => (i, N * lay.perRound + lay.data_qubit_coords.length)).filter
      (fun x => decide (x.1.gate = .SHIFT_COORDS)) = [] := by
    rw [List.filter_eq_nil_iff]
    intro x hx
    obtain ⟨i, hi, rfl⟩ := List.mem_map.1 hx
    rcases emitFinal_gate hi with h | h <;> simp [h]
  rw [e1, e2, List.append_nil, List.append_nil, List.filter_flatMap, List.map_eq_flatMap]
  congr 1
  funext k
  obtain ⟨l, hl, hns⟩ := emitAnn_split (lay := lay) k
  rw [roundUses, hl, List.map_append, List.filter_append]
  have e3 : (l.map fun i => (i, (k + 1) * lay.perRound)).filter (fun x => decide (x.1.gate = .SHIFT_COORDS)) = [] := by
    rw [List.filter_eq_nil_iff]
    intro x hx
    obtain ⟨i, hi, rfl⟩ := List.mem_map.1 hx
    simp [hns i hi]
  rw [e3]
  rfl

/-! ## C24 -/

theorem coords3_inj {p q : Pt} (h : (coords3 p).map Arg.lit = (coords3 q).map Arg.lit) : p = q := by
  simp only [coords3, crd, List.map_cons, List.map_nil, List.cons.injEq, Arg.lit.injEq, and_true] at h
  have h1 : (p.x : Rat) = q.x := by linarith [h.1]
  have h2 : (p.y : Rat) = q.y := by linarith [h.2]
  ext
  · exact_mod_cast h1
  · exact_mod_cast h2

theorem flatMap_single {α β : Type} [DecidableEq α] {l : List α} {a : α} {y : β} {f : α → List β} (hn : l.Nodup) (ha : a ∈ l)
    (h1 : f a = [y]) (h2 : ∀ b ∈ l, b ≠ a → f b = []) : l.flatMap f = [y] := by
  induction l with
  | nil => simp at ha
  | cons x l ih =>
    rw [List.nodup_cons] at hn
    rcases List.mem_cons.1 ha with rfl | ha
    · rw [List.flatMap_cons, h1, List.flatMap_eq_nil_iff.2]
      · rfl
      · intro b hb
        exact h2 b (List.mem_cons_of_mem _ hb) (by rintro rfl; exact hn.1 hb)
    · rw [List.flatMap_cons, h2 x List.mem_cons_self (by rintro rfl; exact hn.1 ha), List.nil_append]
      exact ih hn.2 ha fun b hb => h2 b (List.mem_cons_of_mem _ hb)

/-- C24: in every style except PC3, for every sub-round `k ≥ 4` and every face `h` of category `(k - 2) mod 3`, the generated
circuit has exactly one detector with the coordinates of `h` right after the measurements of sub-round `k`,
and it compares exactly twelve measurements: those of the edges of `h` made in the sub-rounds `k`,
`k - 1`, `k - 3` and `k - 4` (the measurement of edge `e` in sub-round `j` is number
`j * W * H / 2 + (position of e in round_edges j)`, see `c22_measured`). -/
theorem c24_steady_state (lay : HoneycombLayout) (hv : lay.Valid) (hs : lay.Supported) (hpc : lay.style ≠ "PC3")
    (k : Nat) (hk : 4 ≤ k) (hkn : (k : Int) < lay.sub_rounds) (h : Pt) (hh : IsHexCenter lay h)
    (hcol : hexColour h = ((k : Int) - 2) % 3) :
    ∃ d i, lay.makeCircuit = .ok d ∧
      (recordUses 0 d.flatten).filter (fun x => decide (x.1.gate = .DETECTOR ∧
        (x.2 : Int) = (k + 1) * (lay.data_width * lay.data_height / 2) ∧
        x.1.args = [.lit (crd h.x), .lit (crd h.y), .lit 0])) = [i] ∧
      (recordIndices i).Nodup ∧ (recordIndices i).length = 12 ∧
      ∀ m : Int, m ∈ recordIndices i ↔ ∃ j ∈ [k, k - 1, k - 3, k - 4], ∃ e ∈ lay.all_edges_around_hex h,
        e ∈ lay.round_edges (j : Nat) ∧ m = j * (lay.data_width * lay.data_height / 2) + (lay.round_edges (j : Nat)).idxOf e := by
  obtain ⟨N, hN⟩ := Int.eq_ofNat_of_zero_le (show 0 ≤ lay.sub_rounds by have := hs.2.2.1; omega)
  obtain ⟨c, nm, d, hc, hf, _, _, _, ht, _, _, _, _, _, hn, hd⟩ := makeCircuit_ok hv hs hN
  have hp : lay.isPC3 = false := by simpa [isPC3] using hpc
  have hP := perRound_pos hv
  have hD := data_pos hv
  have hmem : h ∈ lay.round_hex_centers (((k : Int) - 2) % 3) := (mem_round_hex_centers hv).2 ⟨(isHex_iff hv h).1 hh, hcol⟩
  have hnd := c08_face_boundary lay hv h hh
  have hsn := steadyList_nodup hv hk hmem hnd.2.2.2.1
  have hlt : ∀ x ∈ lay.steadyList k h, x < (k + 1) * lay.perRound := by
    intro x hx
    obtain ⟨j, hj, e, _, he, rfl⟩ := (mem_steadyList hv hk hmem).1 hx
    refine lt_of_lt_of_le (mTime_lt hv he) (Nat.mul_le_mul_right _ ?_)
    simp only [List.mem_cons, List.not_mem_nil, or_false] at hj
    omega
  set I : Instr := .detector (relTo ((k + 1) * lay.perRound) (lay.steadyList k h).toFinset) (coords3 h) with hI
  have hri : recordIndices (I, (k + 1) * lay.perRound) = ((lay.steadyList k h).toFinset.sort (· ≤ ·)).map fun x : Nat => (x : Int) := by
    simp only [recordIndices, hI, Instr.detector, relTo, List.filterMap_map, Function.comp_def]
    rw [← List.filterMap_eq_map]
    congr 1
    funext x
    simp
  refine ⟨d, (I, (k + 1) * lay.perRound), hd, ?_, ?_, ?_, ?_⟩
  · rw [(c30_record_preserved nm c d none ht hn).2.2, hf, recordUses_timeline, List.filter_filter, (closed_uses hv hs hN).2.1,
      List.filter_append, List.filter_append, pc3Uses, if_neg hpc]
    simp only [← perRound_int hv]
    have e2 : ∀ f : Instr → Bool, ((lay.emitFinal N N).map fun i => (i, N * lay.perRound + lay.data_qubit_coords.length)).filter
        (fun x => decide (x.1.gate = .DETECTOR ∧ (x.2 : Int) = (k + 1) * lay.perRound ∧
          x.1.args = [.lit (crd h.x), .lit (crd h.y), .lit 0]) && f x.1) = [] := by
      intro f
      rw [List.filter_eq_nil_iff]
      intro x hx
      obtain ⟨i, hi, rfl⟩ := List.mem_map.1 hx
      have : ¬ (((N * lay.perRound + lay.data_qubit_coords.length : Nat) : Int) = (k + 1) * lay.perRound) := by
        have h2 : (k + 1) * lay.perRound ≤ N * lay.perRound := Nat.mul_le_mul_right _ (by omega)
        have h3 : ((k : Int) + 1) * lay.perRound = ((k + 1) * lay.perRound : Nat) := by push_cast; rfl
        rw [h3]; omega
      simp only [this, false_and, and_false, decide_false, Bool.false_and]; simp
    rw [e2 (fun i => decide (i.gate = .DETECTOR ∨ i.gate = .OBSERVABLE_INCLUDE)), List.filter_nil, List.append_nil, List.append_nil,
      List.filter_flatMap]
    have e3 : ∀ j, j ≠ k → (lay.roundUses j).filter (fun x => decide (x.1.gate = .DETECTOR ∧ (x.2 : Int) = (k + 1) * lay.perRound ∧
          x.1.args = [.lit (crd h.x), .lit (crd h.y), .lit 0]) && decide (x.1.gate = .DETECTOR ∨ x.1.gate = .OBSERVABLE_INCLUDE)) = [] := by
      intro j hj
      rw [List.filter_eq_nil_iff]
      intro x hx
      obtain ⟨i, hi, rfl⟩ := List.mem_map.1 hx
      have : ¬ ((((j + 1) * lay.perRound : Nat) : Int) = (k + 1) * lay.perRound) := by
        intro h
        have h3 : ((k : Int) + 1) * lay.perRound = ((k + 1) * lay.perRound : Nat) := by push_cast; rfl
        rw [h3] at h
        have := Nat.eq_of_mul_eq_mul_right hP (by exact_mod_cast h : (j + 1) * lay.perRound = (k + 1) * lay.perRound)
        omega
      simp only [this, false_and, and_false, decide_false, Bool.false_and]; simp
    have e4 : (lay.roundUses k).filter (fun x => decide (x.1.gate = .DETECTOR ∧ (x.2 : Int) = (k + 1) * lay.perRound ∧
          x.1.args = [.lit (crd h.x), .lit (crd h.y), .lit 0]) && decide (x.1.gate = .DETECTOR ∨ x.1.gate = .OBSERVABLE_INCLUDE)) =
          [(I, (k + 1) * lay.perRound)] := by
      rw [roundUses, List.filter_map, emitAnn, hp, if_neg (by omega : ¬ (k = 0 ∧ (lay.obsAt 0).1 = .X))]
      simp only [Bool.false_eq_true, if_false, List.append_nil, List.filter_append, List.filter_flatMap]
      rw [flatMap_single (nodup_round_hex_centers hv _) hmem (y := I)]
      · simp [Instr.observable, Instr.shift, Function.comp_def]
      · rw [steady_detector hp _ hk, xorS_singletons hsn]
        simp [detI, hI, Instr.detector, coords3, Function.comp_def]
      · intro b hb hne
        rw [List.filter_eq_nil_iff]
        intro i hi
        have hargs := (mem_detI hi).2
        simp only [Function.comp_def, Bool.and_eq_true, decide_eq_true_eq, not_and]
        rintro ⟨_, _, ha⟩
        rw [hargs] at ha
        exact absurd (coords3_inj (by simpa [coords3] using ha)) hne
    obtain ⟨r, rfl⟩ : ∃ r, N = k + (1 + r) := ⟨N - k - 1, by omega⟩
    rw [range_flatMap_add, range_flatMap_add]
    simp only [List.range_one, List.flatMap_cons, List.flatMap_nil, List.append_nil, Nat.add_zero, e4]
    rw [List.flatMap_eq_nil_iff.2, List.flatMap_eq_nil_iff.2]
    · rfl
    · intro j _; exact e3 _ (by omega)
    · intro j hj; exact e3 _ (by have := List.mem_range.1 hj; omega)
  · rw [hri]
    exact (Finset.sort_nodup _ _).map fun a b h => by simpa using h
  · rw [hri, List.length_map, Finset.length_sort, List.toFinset_card_of_nodup hsn, steadyList]
    have h6 := hnd.2.2.1
    rw [all_edges_around_hex, List.length_append] at h6
    simp only [List.length_append, List.length_map]
    omega
  · intro m
    rw [hri, ← perRound_int hv]
    simp only [List.mem_map, Finset.mem_sort, List.mem_toFinset]
    constructor
    · rintro ⟨x, hx, rfl⟩
      obtain ⟨j, hj, e, he, hr, rfl⟩ := (mem_steadyList hv hk hmem).1 hx
      exact ⟨j, hj, e, he, hr, by simp [mTime]⟩
    · rintro ⟨j, hj, e, he, hr, rfl⟩
      exact ⟨_, (mem_steadyList hv hk hmem).2 ⟨j, hj, e, he, hr, rfl⟩, by simp [mTime]⟩

example : exampleLayout.Valid ∧ exampleLayout.Supported ∧ exampleLayout.style ≠ "PC3" ∧ ((5 : Nat) : Int) < exampleLayout.sub_rounds ∧
    ∃ h, IsHexCenter exampleLayout h ∧ hexColour h = (((5 : Nat) : Int) - 2) % 3 := by
  refine ⟨exampleLayout_valid, exampleLayout_supported, by decide, by decide, ⟨0, 0⟩, ?_, by decide⟩
  simp [IsHexCenter, OnTorus, exampleLayout]

end Honeycomb
