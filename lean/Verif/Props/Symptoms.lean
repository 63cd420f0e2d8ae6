import Verif.Lemmas.SymptomsCount
import Verif.Props.Frame

/-!
# The symptom of a fault is small and local (C97)

`CanRecordWith S n l rec` (`Spec/Faults.lean`): executing `l` from the all-zero state while `n` single-qubit Pauli faults hit
qubits of `S`, at any places between the instructions, can give the record of measurement flips `rec`. `detectorValues`
(`Spec/Frame.lean`) lists the detectors' values, `some 1` for a detector that fires.
-/

namespace Honeycomb
open HoneycombLayout

variable {lay : HoneycombLayout} {N : Nat}

theorem wrong_result {R R0 : Nat → ZMod 2} {s : Finset Nat} (h : val R s ≠ val R0 s) : ∃ t ∈ s, R t ≠ R0 t := by
  by_contra hc
  push Not at hc
  exact h (Finset.sum_congr rfl hc)

/-- What a run with data faults shows. -/
theorem run_hits (hv : lay.Valid) (hs : lay.Supported) (hN : lay.sub_rounds = N) {d : Circuit} (hd : lay.makeCircuit = .ok d) {S : Nat → Prop} {n : Nat}
    {rec : List (ZMod 2)} (hr : CanRecordWith (fun i => i ∈ lay.data_qubit_indices ∧ S i) n d.flatten rec) :
    rec.length = N * lay.perRound + lay.data_qubit_coords.length ∧ ∃ locs : List (Nat × Pt), locs.length ≤ n ∧
      (∀ l ∈ locs, S (lay.idx l.2)) ∧ ∀ x ∈ allDets lay N, val (recAt rec) x.2.2 ≠ 0 →
        ∃ l ∈ locs, l.2 ∈ lay.data_qubit_coords ∧ l.1 ≤ N ∧ (x.1, x.2.1) ∈ lay.faultHits N l.1 l.2 := by
  have h1 : 1 ≤ N := by have := hs.2.2.1; omega
  obtain ⟨F, F', hF, hr⟩ := hr
  obtain ⟨G, hG⟩ := noisy_frun (B := fun p => S (lay.idx p)) hv hs hN hd (hr.mono fun q hq => by
    obtain ⟨p, hp, e⟩ := List.mem_map.1 hq.1
    exact ⟨p, hp, by show S (lay.idx p); rw [e]; exact hq.2, e⟩)
  obtain ⟨Fs, E, locs, ht, hrec, hl, hloc, hn, hB⟩ := closed_frun hv hs hN hG
  refine ⟨hl, locs, hn, hB, fun x hx hne => ?_⟩
  obtain ⟨φ, hφ⟩ := allDets_reads hv hs.2.1 h1 hx
  rw [hφ.val _ _ hrec] at hne
  exact faults_hits hv hφ locs E Fs ht hloc hne

/-- C97: `n` Pauli faults on data qubits and `w` wrongly reported results fire at most `4 * (n + w)` detectors. -/
theorem c97_symptom (lay : HoneycombLayout) (hv : lay.Valid) (hs : lay.Supported) :
    ∃ d, lay.makeCircuit = .ok d ∧ ∀ n w rec0 rec, CanRecordWith (· ∈ lay.data_qubit_indices) n d.flatten rec0 →
      rec.length = rec0.length → ((List.range rec.length).filter fun t => rec[t]? ≠ rec0[t]?).length = w →
      (detectorValues d.flatten rec).count (some 1) ≤ 4 * (n + w) := by
  obtain ⟨N, hN⟩ := Int.eq_ofNat_of_zero_le (show 0 ≤ lay.sub_rounds by have := hs.2.2.1; omega)
  have h1 : 1 ≤ N := by have := hs.2.2.1; omega
  obtain ⟨_, _, d, _, _, _, _, _, _, _, _, _, _, _, _, hd⟩ := makeCircuit_ok hv hs hN
  refine ⟨d, hd, fun n w rec0 rec hr hlen hw => ?_⟩
  obtain ⟨hl, locs, hn, -, hh⟩ := run_hits hv hs hN hd (S := fun _ => True) (n := n) (rec := rec0) (by simpa using hr)
  obtain ⟨ht, -⟩ := noisy_run hv hs hN hd
  have hval : detectorValues d.flatten rec = detectorValues (lay.closedCircuit N) rec := by rw [detectorValues, ht, detectorValues]
  rw [hval, values_eq hv hs hN (by rw [hlen, hl])]
  choose rh hr4 hru using fun m : Int => record_hits hv hN h1 m
  set ws := (List.range rec.length).filter fun t => decide (rec[t]? ≠ rec0[t]?) with hws
  refine (count_le (keys_nodup hv N) (hits := (locs.flatMap fun l => lay.faultHits N l.1 l.2) ++ ws.flatMap fun t : Nat => rh t) fun x hx hf => ?_).trans ?_
  · have hf : val (recAt rec) x.2.2 = 1 := Option.some.inj hf
    by_cases h0 : val (recAt rec0) x.2.2 = 0
    · obtain ⟨t, ht, hne⟩ := wrong_result (R := recAt rec) (R0 := recAt rec0) (s := x.2.2) (by rw [hf, h0]; decide)
      have hu := allDets_used hv hs hN hx ht
      have hlt := (usedBy_lt hv hN h1 hu).trans_le (layerTime_le h1 _)
      refine List.mem_append_right _ (List.mem_flatMap.2 ⟨t, ?_, hru t _ hu⟩)
      refine List.mem_filter.2 ⟨List.mem_range.2 (by omega), decide_eq_true fun h => hne ?_⟩
      simp only [recAt, List.getD_eq_getElem?_getD, h]
    · obtain ⟨l, hm, _, _, h⟩ := hh x hx h0
      exact List.mem_append_left _ (List.mem_flatMap.2 ⟨l, hm, h⟩)
  · have a1 : (locs.flatMap fun l => lay.faultHits N l.1 l.2).length ≤ 4 * locs.length := by
      rw [List.length_flatMap]
      simp only [faultHits_length, List.map_const', List.sum_replicate]
      simp [Nat.mul_comm]
    have a2 : ∀ l : List Nat, (l.flatMap fun t : Nat => rh t).length ≤ 4 * l.length := by
      intro l
      induction l with
      | nil => simp
      | cons t l ih =>
        rw [List.flatMap_cons, List.length_append, List.length_cons]
        have := hr4 t
        omega
    have a3 := a2 ws
    rw [List.length_append]
    omega

/-- C97: where and when. If the faults hit data qubits of `S`, each detector that fires is at a face or an edge of one of these qubits,
and the layers (sub-rounds) of the detectors fired by one fault span at most three steps. -/
theorem c97_local (lay : HoneycombLayout) (hv : lay.Valid) (hs : lay.Supported) :
    ∃ d, lay.makeCircuit = .ok d ∧ ∀ (S : Nat → Prop) n rec, CanRecordWith (fun i => i ∈ lay.data_qubit_indices ∧ S i) n d.flatten rec →
      ∃ locs : List (Nat × Pt), locs.length ≤ n ∧ (∀ l ∈ locs, S (lay.idx l.2)) ∧
        ∀ (i : Nat) (x : List Rat × Nat), (detectorValues d.flatten rec)[i]? = some (some 1) → (detectorCoords d.flatten)[i]? = some x →
          ∃ l ∈ locs, l.2 ∈ lay.data_qubit_coords ∧ ∃ (layer : Nat) (p : Pt), x.1 = [crd p.x, crd p.y, (layer : Rat)] ∧ l.1 ≤ layer ∧ layer ≤ l.1 + 3 ∧
            ((IsHexCenter lay p ∧ l.2 ∈ lay.qubits_around_hex p) ∨ ∃ e ∈ lay.all_edges, (l.2 = e.left ∨ l.2 = e.right) ∧ p = e.center) := by
  obtain ⟨N, hN⟩ := Int.eq_ofNat_of_zero_le (show 0 ≤ lay.sub_rounds by have := hs.2.2.1; omega)
  have h1 : 1 ≤ N := by have := hs.2.2.1; omega
  obtain ⟨_, _, d, _, _, _, _, _, _, _, _, _, _, _, _, hd⟩ := makeCircuit_ok hv hs hN
  refine ⟨d, hd, fun S n rec hr => ?_⟩
  obtain ⟨hl, locs, hn, hS, hh⟩ := run_hits hv hs hN hd hr
  obtain ⟨ht, -⟩ := noisy_run hv hs hN hd
  refine ⟨locs, hn, hS, fun i x hi hx => ?_⟩
  have hval : detectorValues d.flatten rec = detectorValues (lay.closedCircuit N) rec := by rw [detectorValues, ht, detectorValues]
  have hco : detectorCoords d.flatten = detectorCoords (lay.closedCircuit N) := by rw [detectorCoords, ht, detectorCoords]
  rw [hval, values_eq hv hs hN hl, List.getElem?_map] at hi
  rw [hco, closed_coords_eq hv hs hN, List.getElem?_map] at hx
  obtain ⟨y, hy, hf⟩ := Option.map_eq_some_iff.1 hi
  rw [hy] at hx
  obtain rfl := Option.some.inj hx
  have hym := List.mem_of_getElem? hy
  obtain ⟨l, hm, hq, hj, hk⟩ := hh y hym (by rw [Option.some.inj hf]; decide)
  obtain ⟨a, b, c⟩ := faultHits_place hv hq hj hk
  refine ⟨l, hm, hq, y.1, y.2.1, rfl, a, b, c.imp_left fun h => ⟨(isHex_iff hv _).2 h.1, h.2⟩⟩

/-- The hypotheses of C97 are met by a run with a bit flip on a data qubit, with noise; with the first result reported wrongly at most eight detectors fire. -/
example : ∃ d, HoneycombLayout.makeCircuit ⟨4, 6, 40, "PC3", "H", 1/1000⟩ = .ok d ∧ ∃ rec0 rec : List (ZMod 2),
    CanRecordWith (· ∈ HoneycombLayout.data_qubit_indices ⟨4, 6, 40, "PC3", "H", 1/1000⟩) 1 d.flatten rec0 ∧
      rec.length = rec0.length ∧ ((List.range rec.length).filter fun t => rec[t]? ≠ rec0[t]?).length = 1 ∧
      (detectorValues d.flatten rec).count (some 1) ≤ 8 := by
  have hv : HoneycombLayout.Valid ⟨4, 6, 40, "PC3", "H", 1/1000⟩ := by constructor <;> decide
  have hs : HoneycombLayout.Supported ⟨4, 6, 40, "PC3", "H", 1/1000⟩ := by refine ⟨?_, ?_, ?_, ?_⟩ <;> simp
  obtain ⟨d, hd, h⟩ := c97_symptom _ hv hs
  obtain ⟨q, hq⟩ : ∃ q, q ∈ HoneycombLayout.data_qubit_indices ⟨4, 6, 40, "PC3", "H", 1/1000⟩ :=
    List.exists_mem_of_ne_nil _ (by
      have := length_data_qubit_coords hv
      intro e
      rw [data_qubit_indices, List.map_eq_nil_iff] at e
      rw [e] at this
      simp at this)
  obtain ⟨rec0, F', hr⟩ := runs_exists (Frame.mul (fun _ => 0) q (1, 0)) (actions d.flatten)
  have hr0 : CanRecordWith (· ∈ HoneycombLayout.data_qubit_indices ⟨4, 6, 40, "PC3", "H", 1/1000⟩) 1 d.flatten rec0 :=
    ⟨fun _ => 0, F', fun _ => rfl, .fault q (1, 0) hq (runs_to_faulty hr)⟩
  obtain ⟨hl, -⟩ := run_hits hv hs (N := 40) rfl hd (S := fun _ => True) (n := 1) (rec := rec0) (by simpa using hr0)
  have hP := perRound_pos hv
  cases rec0 with
  | nil =>
    simp only [List.length_nil] at hl
    omega
  | cons a rec0 =>
    have hw : ((List.range ((a + 1) :: rec0).length).filter fun t => ((a + 1) :: rec0)[t]? ≠ (a :: rec0)[t]?).length = 1 := by
      rw [List.length_cons, List.range_succ_eq_map, List.filter_cons]
      have : a + 1 ≠ a := (by decide : ∀ a : ZMod 2, a + 1 ≠ a) a
      simp [this]
    exact ⟨d, hd, _, (a + 1) :: rec0, hr0, rfl, hw, h 1 1 _ _ hr0 rfl hw⟩

end Honeycomb
