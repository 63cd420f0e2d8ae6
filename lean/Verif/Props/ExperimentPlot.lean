import Verif.Lemmas.CircuitPlot7

/-!
# C83, C84: diagrams of noisy circuits and of the generated experiments
-/

namespace Honeycomb

/-- C83: the noise that a noise model adds does not change the diagram, unless it expands parity measurements. -/
theorem c83_noise_not_shown (nm : NoiseModel) (c d : Circuit) (immune : Option (Finset Nat)) (only_repeat_block : Bool)
    (hnm : nm.use_correlated_parity_measurement_errors = false ∨ ∀ g p, nm.rate g = some p → p ≤ 0)
    (hz : ∀ i ∈ c.ops, i.gate ≠ .MX ∧ i.gate ≠ .RX) (ht : TickOK c) (hb : only_repeat_block = true → c.FlatBlocks)
    (h : nm.noisyCircuit c immune = .ok d) : plotCircuit d only_repeat_block = plotCircuit c only_repeat_block := by
  have key : visible (plottedInstrs d only_repeat_block) = visible (plottedInstrs c only_repeat_block) := by
    cases only_repeat_block with
    | true => exact visible_noisy_once hnm hz ht (shape_of_flat (hb rfl)) h
    | false => exact visible_noisy hnm hz ht h
  simp only [plotCircuit, plotLevels, iter_plotted]
  rw [← fold_visible (plottedInstrs d only_repeat_block), key, fold_visible]

namespace HoneycombLayout
variable (lay : HoneycombLayout)

/-- The generated circuits are plotted like their noiseless versions. -/
theorem plot_noiseless {lay : HoneycombLayout} (hv : lay.Valid) (hs : lay.Supported) (hst : lay.style ≠ "EM3_v2" ∨ lay.noise ≤ 0) {N : Nat}
    (hN : lay.sub_rounds = N) : ∃ c d, lay.generateNoiseless = .ok c ∧ lay.makeCircuit = .ok d ∧ ∀ only, plotCircuit d only = plotCircuit c only := by
  obtain ⟨c, nm, d, hc, hf, hsh, hg, hno, htick, _, _, hnm, _, _, hd, hm⟩ := makeCircuit_ok hv hs hN
  exact ⟨c, d, hc, hm, fun only => c83_noise_not_shown nm c d none only (keepsForm hst hnm) (fun i hi => usesGate_zBased (hg i hi).gate) htick
    (fun _ => flat_of_shape (fun _ _ h => h.1) hsh) hd⟩

end HoneycombLayout

open HoneycombLayout
variable (lay : HoneycombLayout)

/-- C84: the diagram of a generated experiment shows the experiment. -/
theorem c84_experiment (hv : lay.Valid) (hs : lay.Supported) (hst : lay.style ≠ "EM3_v2" ∨ lay.noise ≤ 0) :
    ∃ c d rest ds s, lay.generateNoiseless = .ok c ∧ lay.makeCircuit = .ok d ∧
      c.flatten = lay.diagramCoords.map coordsInstr ++ rest ∧ List.Forall₂ Draws rest ds ∧
      plotCircuit d false = .ok s ∧ IsDiagram lay.diagramCoords ds s ∧ Straight lay.diagramCoords ds := by
  obtain ⟨N, hN⟩ := Int.eq_ofNat_of_zero_le (show 0 ≤ lay.sub_rounds by have := hs.2.2.1; omega)
  have h1N : 1 ≤ N := by have := hs.2.2.1; omega
  obtain ⟨c, d, hc, hm, hp⟩ := plot_noiseless hv hs hst hN
  obtain ⟨c', hc', hf, _⟩ := generateNoiseless_closed hv hs hN
  obtain rfl : c = c' := Except.ok.inj (hc.symm.trans hc')
  have hgood := goodL_rest hs N
  obtain ⟨ds, hds⟩ := exists_drawings (l := lay.afterCoords N) fun i hi => (hgood i hi).drawn
  have hcirc : c.flatten = lay.diagramCoords.map coordsInstr ++ lay.afterCoords N := by rw [hf, closed_after hv]
  obtain ⟨s, h1, h2⟩ := c82_diagram c false lay.diagramCoords (lay.afterCoords N) ds hcirc hds (by rw [coords_fst]; exact (covers_used hv).1)
    (coords_snd_nodup hv) (fits_of_free hv hds (after_free hv hs h1N)) (coords_ne hv)
    (shown_of_tick (tick_drawn hds (by simp [afterCoords])))
  exact ⟨c, d, _, ds, s, hc, hm, hcirc, hds, (hp false).trans h1, h2, straight_of_good hv hds fun i hi => (hgood i hi).good⟩

/-- C84: with `only_repeat_block`, the diagram shows one pass through the `REPEAT` block. -/
theorem c84_block (hv : lay.Valid) (hs : lay.Supported) (hst : lay.style ≠ "EM3_v2" ∨ lay.noise ≤ 0) (hN : lay.subRoundsOfBlock ≤ lay.sub_rounds) :
    ∃ pre n body post d ds s, lay.generateNoiseless = .ok (.ofList pre ++ .rep n (.ofList body) (.ofList post)) ∧ 2 ≤ n ∧
      lay.makeCircuit = .ok d ∧ List.Forall₂ Draws body ds ∧ plotCircuit d true = .ok s ∧ IsDiagram lay.diagramCoords ds s ∧
      Straight lay.diagramCoords ds := by
  obtain ⟨N, hN'⟩ := Int.eq_ofNat_of_zero_le (show 0 ≤ lay.sub_rounds by have := hs.2.2.1; omega)
  have h1N : 1 ≤ N := by have := hs.2.2.1; omega
  obtain ⟨c, d, hc, hm, hp⟩ := plot_noiseless hv hs hst hN'
  obtain ⟨c', hc', hf, hone⟩ := generateNoiseless_block hv hs hN'
  obtain rfl : c = c' := Except.ok.inj (hc.symm.trans hc')
  rcases hone with ⟨_, pre, n, body, post, ⟨⟨hn, htick⟩, _⟩, rfl⟩ | ⟨hno, _⟩
  swap
  · exact absurd (by have := blockFrom_eq lay; omega) hno
  have hfl : pre ++ (List.replicate n body).flatten ++ post = lay.diagramCoords.map coordsInstr ++ lay.afterCoords N := by
    rw [← closed_after hv, ← hf, Circuit.flatten_append, Circuit.flatten_ofList]
    simp [Circuit.flatten, Circuit.flatten_ofList]
  have hgood := goodL_rest hs N
  have hnot : ∀ i ∈ lay.afterCoords N, i.gate ≠ .QUBIT_COORDS := fun i hi => (hgood i hi).notCoords
  have hcoords : ∀ i ∈ lay.diagramCoords.map coordsInstr, i.gate = .QUBIT_COORDS := by
    intro i hi
    obtain ⟨q, _, rfl⟩ := List.mem_map.1 hi
    rfl
  obtain ⟨b1, b2, hb⟩ := List.append_of_mem htick
  obtain ⟨m, rfl⟩ : ∃ m, n = m + 2 := ⟨n - 2, by omega⟩
  have hsplit : (pre ++ b1) ++ (.tick :: (b2 ++ body ++ (List.replicate m body).flatten ++ post)) =
      lay.diagramCoords.map coordsInstr ++ lay.afterCoords N := by
    rw [← hfl, List.replicate_succ, List.replicate_succ, List.flatten_cons, List.flatten_cons]
    nth_rewrite 3 [hb]
    simp only [List.append_assoc, List.cons_append]
  obtain ⟨x, hA, hR⟩ : ∃ x, pre ++ b1 = lay.diagramCoords.map coordsInstr ++ x ∧
      lay.afterCoords N = x ++ .tick :: (b2 ++ body ++ (List.replicate m body).flatten ++ post) := by
    rcases List.append_eq_append_iff.1 hsplit with ⟨a, h1, h2⟩ | ⟨a, h1, h2⟩
    · cases a with
      | nil => exact ⟨[], by rw [h1, List.append_nil, List.append_nil], by rw [List.nil_append]; exact h2.symm⟩
      | cons i a =>
        simp only [List.cons_append, List.cons.injEq] at h2
        have := hcoords i (by rw [h1]; simp)
        rw [← h2.1] at this
        simp [Instr.tick] at this
    · exact ⟨a, h1, h2⟩
  have hbody : ∀ i ∈ body, i ∈ lay.afterCoords N := fun i hi => by rw [hR]; simp [hi]
  have hin : ∀ l : List Instr, (∀ i ∈ l, i ∈ lay.afterCoords N) → coordsIn l = [] := by
    intro l hl
    rw [coordsIn, List.filter_eq_nil_iff]
    intro i hi
    simpa using hnot i (hl i hi)
  have hpre : coordsIn pre = lay.diagramCoords.map coordsInstr := by
    have h1 := congrArg coordsIn hA
    rw [coordsIn_append, coordsIn_append, hin b1 fun i hi => hbody i (by rw [hb]; simp [hi]), hin x fun i hi => by rw [hR]; simp [hi],
      List.append_nil, List.append_nil] at h1
    rw [h1, coordsIn, List.filter_eq_self]
    intro i hi
    simpa using hcoords i hi
  have hplot : plottedInstrs (.ofList pre ++ .rep (m + 2) (.ofList body) (.ofList post)) true = lay.diagramCoords.map coordsInstr ++ body := by
    rw [plottedInstrs, if_pos rfl, onePass_append, onePass_ofList, hpre]
    simp only [onePassOfBlocks, Circuit.flatten_ofList, onePass_ofList]
    rw [hin post fun i hi => by rw [hR]; simp [hi], List.append_nil]
  obtain ⟨ds, hds⟩ := exists_drawings (l := body) fun i hi => (hgood i (hbody i hi)).drawn
  have hfree : lay.StepsFree body := by
    have h := after_free hv hs h1N
    rw [hR] at h
    exact StepsFree.infix (a := x ++ .tick :: b2) (c := (List.replicate m body).flatten ++ post) (by simpa only [List.append_assoc, List.cons_append] using h)
  obtain ⟨s, h1, h2⟩ := c82_diagram _ true lay.diagramCoords body ds hplot hds (by rw [coords_fst]; exact (covers_used hv).1)
    (coords_snd_nodup hv) (fits_of_free hv hds hfree) (coords_ne hv) (shown_of_tick (tick_drawn hds htick))
  exact ⟨pre, m + 2, body, post, d, ds, s, hc, hn, hm, hds, (hp true).trans h1, h2,
    straight_of_good hv hds fun i hi => (hgood i (hbody i hi)).good⟩

/-- C84: with `only_repeat_block`, circuits that are too short to have a `REPEAT` block cannot be drawn. -/
theorem c84_no_block (hv : lay.Valid) (hs : lay.Supported) (hst : lay.style ≠ "EM3_v2" ∨ lay.noise ≤ 0) (hN : lay.sub_rounds < lay.subRoundsOfBlock) :
    ∃ d, lay.makeCircuit = .ok d ∧ plotCircuit d true = .error .valueError := by
  obtain ⟨N, hN'⟩ := Int.eq_ofNat_of_zero_le (show 0 ≤ lay.sub_rounds by have := hs.2.2.1; omega)
  obtain ⟨c, d, hc, hm, hp⟩ := plot_noiseless hv hs hst hN'
  obtain ⟨c', hc', hf, hone⟩ := generateNoiseless_block hv hs hN'
  obtain rfl : c = c' := Except.ok.inj (hc.symm.trans hc')
  refine ⟨d, hm, (hp true).trans ?_⟩
  rcases hone with ⟨hb, _⟩ | ⟨_, pre, rfl⟩
  · exact absurd hb (by have := blockFrom_eq lay; omega)
  have hpre : coordsIn pre = lay.diagramCoords.map coordsInstr := by
    rw [Circuit.flatten_ofList] at hf
    rw [hf, closed_after hv, coordsIn_append]
    have h1 : coordsIn (lay.diagramCoords.map coordsInstr) = lay.diagramCoords.map coordsInstr := by
      rw [coordsIn, List.filter_eq_self]
      intro i hi
      obtain ⟨q, _, rfl⟩ := List.mem_map.1 hi
      rfl
    have h2 : coordsIn (lay.afterCoords N) = [] := by
      rw [coordsIn, List.filter_eq_nil_iff]
      intro i hi
      simpa using (goodL_rest hs N i hi).notCoords
    rw [h1, h2, List.append_nil]
  have hgc : GoodCoords lay.diagramCoords := ⟨by rw [coords_fst]; exact (covers_used hv).1, coords_snd_nodup hv⟩
  obtain ⟨s, e1, e2, e3, e4⟩ := collected hgc (rest := []) (ds := []) .nil (by
    intro l hl
    simp only [splitLevels, List.mem_singleton] at hl
    subst hl
    exact ⟨by simp [lettersOf], by simp [lettersOf]⟩)
  rw [List.append_nil] at e1
  have : plotLevels (.ofList pre) true = .ok ([], []) := by
    rw [plotLevels, iter_plotted, plottedInstrs, if_pos rfl, onePass_ofList, hpre, e1]
    simp only [bind, Except.bind, pure, Except.pure, e2, e3]
    rfl
  rw [plotCircuit, this]
  rfl

/-- C84: with the correlated noise of EM3_v2, the experiments cannot be drawn: the ancilla of the expanded parity measurements has no
coordinates. -/
theorem c84_correlated (hv : lay.Valid) (hs : lay.Supported) (hst : lay.style = "EM3_v2") (hp : 0 < lay.noise) :
    ∃ d e, lay.makeCircuit = .ok d ∧ plotCircuit d false = .error e := by
  obtain ⟨c, d, D, hc, hm, _, hq, idle, hidle, hd⟩ := c33_ancilla lay hv hs hst
  obtain ⟨N, hN⟩ := Int.eq_ofNat_of_zero_le (show 0 ≤ lay.sub_rounds by have := hs.2.2.1; omega)
  obtain ⟨c', _, _, hc', hf, _, _, _, htick, _⟩ := makeCircuit_ok hv hs hN
  obtain rfl : c = c' := Except.ok.inj (hc.symm.trans hc')
  have hex : Expanded D d.flatten c.flatten := by
    rw [hd]
    have := perStep_rel (R := Expanded D) (f := fun _ ops => noisyOps (.EM3_v2 lay.noise) D ops ++ idle ops) (g := fun _ ops => ops)
      ⟨by simp, by simp⟩
      (fun a b a' b' h1 h2 => ⟨fun i hi hq => by
        rcases List.mem_append.1 hi with hi | hi
        · exact List.mem_append_left _ (h1.1 i hi hq)
        · exact List.mem_append_right _ (h2.1 i hi hq), fun i hi hp => by
        rcases List.mem_append.1 hi with hi | hi
        · exact List.mem_append_left _ (h1.2 i hi hp)
        · exact List.mem_append_right _ (h2.2 i hi hp)⟩)
      ⟨fun i hi _ => hi, fun i hi h => by rw [List.mem_singleton.1 hi] at h; cases h.1⟩ (fun _ => True)
      (fun _ ops _ => noisyOps_expanded hp D ops _ fun i hi => (hidle ops i hi).1) c (fun _ _ => trivial) c.num_qubits [] (by simp)
    rwa [perStep_flatten c htick, List.nil_append] at this
  have he : lay.isEM3 = true := by simp [isEM3, hst]
  have hmem : lay.mppOf 0 ∈ c.flatten := by
    rw [hf, closedCircuit, em3_allRounds he]
    refine List.mem_append_left _ (List.mem_append_right _ (List.mem_flatMap.2 ⟨0, ?_, ?_⟩))
    · rw [List.mem_range]
      have := hs.2.2.1
      omega
    · rw [em3Emit_eq]; simp
  have hR : Instr.on .R [D] ∈ d.flatten := by
    refine hex.2 _ hmem ⟨rfl, _, ?_, mpp_targets 0⟩
    have hw := Valid.tw_pos hv
    have hh := Valid.th_pos hv
    have hq : (⟨2, 2⟩ : Pt) ∈ lay.data_qubit_coords := (mem_data_qubit_coords hv).2
      ⟨⟨by simp, by simp; omega, by simp, by simp; omega⟩, by simp, by simp⟩
    obtain ⟨e, he, _⟩ := exists_edge hv hq 0
    intro h
    rw [List.map_eq_nil_iff] at h
    simp only [Nat.cast_zero] at h
    rw [h] at he
    cases he
  obtain ⟨e, h⟩ := fold_unknown (c := 'R') (t := .q D) hR rfl (by simp [Instr.on]) (by
    intro j hj hg hmem
    have hj := hex.1 j hj hg
    have hq := hq j hj
    rw [hf, closed_after hv] at hj
    rcases List.mem_append.1 hj with hj | hj
    · obtain ⟨x, _, rfl⟩ := List.mem_map.1 hj
      have := hq x.1 (by simp [coordsInstr, Instr.qubits, Target.qubit?])
      simp [coordsInstr, Target.value] at hmem
      omega
    · exact (goodL_rest hs N j hj).notCoords hg)
  refine ⟨d, e, hm, ?_⟩
  rw [plotCircuit, plotLevels, iter_plotted, plottedInstrs, if_neg (by decide), h]
  rfl

/-! ## Examples -/

example : ∃ d s, HoneycombLayout.makeCircuit ⟨4, 6, 40, "SD6", "V", 1/1000⟩ = .ok d ∧ plotCircuit d false = .ok s := by
  obtain ⟨_, d, _, _, s, _, h1, _, _, h2, _⟩ := c84_experiment ⟨4, 6, 40, "SD6", "V", 1/1000⟩ (by constructor <;> decide)
    (by refine ⟨?_, ?_, ?_, ?_⟩ <;> simp) (by simp)
  exact ⟨d, s, h1, h2⟩

example : ∃ d s, HoneycombLayout.makeCircuit ⟨4, 6, 40, "PC3", "V", 1/1000⟩ = .ok d ∧ plotCircuit d true = .ok s := by
  obtain ⟨_, _, _, _, d, _, s, _, _, h1, _, h2, _⟩ := c84_block ⟨4, 6, 40, "PC3", "V", 1/1000⟩ (by constructor <;> decide)
    (by refine ⟨?_, ?_, ?_, ?_⟩ <;> simp) (by simp) (by simp [HoneycombLayout.subRoundsOfBlock])
  exact ⟨d, s, h1, h2⟩

example : ∃ d, HoneycombLayout.makeCircuit ⟨4, 6, 9, "EM3", "H", 1/1000⟩ = .ok d ∧ plotCircuit d true = .error .valueError :=
  c84_no_block ⟨4, 6, 9, "EM3", "H", 1/1000⟩ (by constructor <;> decide)
    (by refine ⟨?_, ?_, ?_, ?_⟩ <;> simp) (by simp) (by simp [HoneycombLayout.subRoundsOfBlock])

example : ∃ d e, HoneycombLayout.makeCircuit ⟨4, 6, 40, "EM3_v2", "H", 1/1000⟩ = .ok d ∧ plotCircuit d false = .error e :=
  c84_correlated ⟨4, 6, 40, "EM3_v2", "H", 1/1000⟩ (by constructor <;> decide)
    (by refine ⟨?_, ?_, ?_, ?_⟩ <;> simp) rfl (by norm_num)

/-- Two qubits, a block with gates, and measurements. -/
def noisyExample : Circuit :=
  .ofList [coordsInstr (0, 0, 0), coordsInstr (1, 1, 0), .on .R [0, 1], .tick] ++
    .rep 3 (.ofList [⟨.CX, [.q 0, .q 1], []⟩, .tick, .on .H [0, 1], .tick]) (.ofList [.on .M [0, 1]])

example : ∃ d, (NoiseModel.SD6 (1/100)).noisyCircuit noisyExample none = .ok d ∧ d ≠ noisyExample ∧
    ∀ only, plotCircuit d only = plotCircuit noisyExample only := by
  rcases h : (NoiseModel.SD6 (1/100)).noisyCircuit noisyExample none with e | d
  · have := congrArg Except.isOk h
    exact absurd this (by rw [show ((NoiseModel.SD6 (1/100)).noisyCircuit noisyExample none).isOk = true by decide +kernel]; simp [Except.isOk, Except.toBool])
  · refine ⟨d, rfl, ?_, fun only => c83_noise_not_shown _ _ _ none only (Or.inl rfl) (by decide) (by unfold TickOK; decide) (fun _ => ?_) h⟩
    · rintro rfl
      exact absurd (congrArg (fun x => x.toOption.map Circuit.flatten) h) (by decide +kernel)
    · exact ⟨⟨by decide, _, rfl⟩, trivial⟩

/-- The hypothesis of C83 about `MX` and `RX` is needed: their noise cannot be drawn. -/
example : (plotCircuit (.ofList [coordsInstr (0, 0, 0), .on .MX [0], .tick]) false).isOk = true ∧
    ∃ d, NoiseModel.noisyCircuit { NoiseModel.SD6 (1/100) with noisy_gates := fun | .MX => some (1/100) | _ => none }
      (.ofList [coordsInstr (0, 0, 0), .on .MX [0], .tick]) none = .ok d ∧ (plotCircuit d false).isOk = false := by
  refine ⟨by decide +kernel, .ofList [⟨.Z_ERROR, [.q 0], [.lit (1/100)]⟩, coordsInstr (0, 0, 0), .on .MX [0], .tick], by decide +kernel, by decide +kernel⟩

end Honeycomb
