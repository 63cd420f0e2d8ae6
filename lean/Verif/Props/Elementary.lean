import Verif.Lemmas.Realised
import Verif.Spec.ParitySum
import Verif.Props.Symptoms
import Verif.Props.Horizontal

/-!
# Faults on data qubits are made of faults that fire at most two detectors (C99)

`CanRecordWith S n l rec` (`Spec/Faults.lean`): executing `l` from the all-zero state while `n` single-qubit Pauli faults hit
qubits of `S`, at any places between the instructions, can give the record of measurement flips `rec`. `sumValues`
(`Spec/ParitySum.lean`) is the exclusive or.
-/

namespace Honeycomb
open HoneycombLayout

variable {lay : HoneycombLayout} {N : Nat}

theorem sumValues_some {α : Type} (f : α → ZMod 2) (l : List α) : sumValues (l.map fun x => some (f x)) = some (l.map f).sum := by
  induction l with
  | nil => rfl
  | cons x l ih => rw [List.map_cons, sumValues, ih, List.map_cons, List.sum_cons]; rfl

/-- The elementary faults of a trajectory. -/
theorem traj_parts (hv : lay.Valid) {E Fs : Nat → PauliOp} (ht : lay.FaultyTrajectory N E Fs) {L : List (Nat × Pt)} (hn : L.Nodup)
    (hL : ∀ l ∈ L, l.1 ≤ N ∧ l.2 ∈ lay.data_qubit_coords) (hE : ∀ k ≤ N, ∀ q ∈ lay.data_qubit_coords, E k q ≠ 0 → (k, q) ∈ L) :
    ∃ xs : List (Nat × Pt × Pauli), xs.length ≤ 2 * L.length ∧ (∀ x ∈ xs, lay.Elem N x ∧ ∃ l ∈ L, x.2.1 = l.2) ∧
      ∀ ψ, lay.Meter N ψ → ψ Fs = (xs.map fun x => ψ (oneFault x.1 x.2.1 x.2.2)).sum := by
  have ht' := ht.trim
  set E' : Nat → PauliOp := fun k q => if k ≤ N then E k q else 0 with hE'
  refine ⟨L.flatMap fun l => parts l.1 l.2 (E' l.1 l.2), ?_, ?_, fun ψ hψ => ?_⟩
  · clear hn hL hE
    induction L with
    | nil => simp
    | cons l M ih =>
      rw [List.flatMap_cons, List.length_append, List.length_cons]
      have := parts_length l.1 l.2 (E' l.1 l.2)
      omega
  · intro x hx
    obtain ⟨l, hm, hx⟩ := List.mem_flatMap.1 hx
    exact ⟨parts_elem (hL l hm).1 (hL l hm).2 hx, l, hm, parts_qubit hx⟩
  · rw [hψ.sum hv L E' Fs hn ht' fun k q hq hne => by
      rw [hE'] at hne
      simp only at hne
      split_ifs at hne with hk
      · exact hE k hk q hq hne
      · exact absurd rfl hne]
    rw [sum_flatMap]
    exact congrArg List.sum (List.map_congr_left fun l hm => hψ.parts hv (hL l hm).1 l.2 _)

/-- The records of elementary faults add up. -/
theorem parts_recs (hv : lay.Valid) (hs : lay.Supported) (hN : lay.sub_rounds = N) {d : Circuit} (hd : lay.makeCircuit = .ok d) {C : List (ZMod 2) → Prop}
    {rec : List (ZMod 2)} {Fs : Nat → PauliOp} (hrec : lay.Recorded N Fs (recAt rec)) (hl : rec.length = lay.total N) {xs : List (Nat × Pt × Pauli)}
    (hxs : ∀ x ∈ xs, lay.Elem N x)
    (hC : ∀ x ∈ xs, ∃ rec Fs, C rec ∧ rec.length = lay.total N ∧ lay.Recorded N Fs (recAt rec) ∧ ∀ ψ, lay.Meter N ψ → ψ Fs = ψ (oneFault x.1 x.2.1 x.2.2))
    (hsum : ∀ ψ, lay.Meter N ψ → ψ Fs = (xs.map fun x => ψ (oneFault x.1 x.2.1 x.2.2)).sum) :
    ∃ recs : List (List (ZMod 2)), recs.length = xs.length ∧
      (∀ r ∈ recs, C r ∧ (detectorValues d.flatten r).count (some 1) ≤ 2) ∧
      (∀ i < (detectorValues d.flatten rec).length,
        (detectorValues d.flatten rec)[i]? = some (sumValues (recs.map fun r => (detectorValues d.flatten r).getD i none))) ∧
      observableValue (if lay.obs = "V" then 0 else 1) d.flatten rec =
        sumValues (recs.map (observableValue (if lay.obs = "V" then 0 else 1) d.flatten)) := by
  have h1 : 1 ≤ N := by have := hs.2.2.1; omega
  obtain ⟨ht, -⟩ := noisy_run hv hs hN hd
  have hval : ∀ r, detectorValues d.flatten r = detectorValues (lay.closedCircuit N) r := fun r => by rw [detectorValues, ht, detectorValues]
  have hobs : ∀ r, observableValue (if lay.obs = "V" then 0 else 1) d.flatten r = observableValue lay.obsI (lay.closedCircuit N) r := fun r => by
    rw [observableValue, ht, observableValue]; rfl
  -- the record of each elementary fault
  choose! φ hφ using fun x (hx : x ∈ allDets lay N) => allDets_reads hv hs.2.1 h1 hx
  choose! rr FF hrr using hC
  refine ⟨xs.map rr, List.length_map _, ?_, ?_, ?_⟩
  · intro r hr
    obtain ⟨x, hx, rfl⟩ := List.mem_map.1 hr
    obtain ⟨g1, g2, g3, g4⟩ := hrr x hx
    refine ⟨g1, ?_⟩
    obtain ⟨hits, hh, hk⟩ := elem_hits hv (hxs x hx) hs.2.1
    rw [hval, values_eq hv hs hN g2]
    refine (count_le (keys_nodup hv N) (hits := hits) fun y hy hf => ?_).trans hh
    refine hk _ _ _ (hφ y hy) ?_
    rw [← g4 _ ((hφ y hy).meter hv), ← (hφ y hy).val _ _ g3, Option.some.inj hf]
    decide
  · intro i hi
    rw [hval, values_eq hv hs hN hl, List.length_map] at hi
    rw [hval, values_eq hv hs hN hl, List.getElem?_map, List.getElem?_eq_getElem hi, Option.map_some]
    have hy := List.getElem_mem hi
    set y := (allDets lay N)[i] with hydef
    congr 1
    rw [List.map_map, List.map_congr_left (g := fun x => some (φ y (oneFault x.1 x.2.1 x.2.2))) fun x hx => by
      obtain ⟨g1, g2, g3, g4⟩ := hrr x hx
      rw [Function.comp, hval, values_eq hv hs hN g2, List.getD_eq_getElem?_getD, List.getElem?_map, List.getElem?_eq_getElem hi, Option.map_some, Option.getD_some,
        ← hydef, (hφ y hy).val _ _ g3, g4 _ ((hφ y hy).meter hv)], sumValues_some, (hφ y hy).val _ _ hrec, hsum _ ((hφ y hy).meter hv)]
  · rw [hobs, closed_obs_value hv hs hN hrec hl, List.map_map,
      List.map_congr_left (g := fun x => some (lay.loopValue (oneFault x.1 x.2.1 x.2.2) lay.obsLoop N)) fun x hx => by
        obtain ⟨g1, g2, g3, g4⟩ := hrr x hx
        rw [Function.comp, hobs, closed_obs_value hv hs hN g3 g2, g4 _ (meter_obs hv)], sumValues_some, hsum _ (meter_obs hv)]

/-- Elementary faults are single faults of the generated circuit. -/
theorem parts_runs (hv : lay.Valid) (hs : lay.Supported) (hN : lay.sub_rounds = N) {d : Circuit} (hd : lay.makeCircuit = .ok d) {S : Nat → Prop}
    {rec : List (ZMod 2)} {Fs : Nat → PauliOp} (hrec : lay.Recorded N Fs (recAt rec)) (hl : rec.length = lay.total N) {xs : List (Nat × Pt × Pauli)}
    (hxs : ∀ x ∈ xs, lay.Elem N x ∧ S (lay.idx x.2.1))
    (hsum : ∀ ψ, lay.Meter N ψ → ψ Fs = (xs.map fun x => ψ (oneFault x.1 x.2.1 x.2.2)).sum) :
    ∃ recs : List (List (ZMod 2)), recs.length = xs.length ∧
      (∀ r ∈ recs, CanRecordWith (fun i => i ∈ lay.data_qubit_indices ∧ S i) 1 d.flatten r ∧ (detectorValues d.flatten r).count (some 1) ≤ 2) ∧
      (∀ i < (detectorValues d.flatten rec).length,
        (detectorValues d.flatten rec)[i]? = some (sumValues (recs.map fun r => (detectorValues d.flatten r).getD i none))) ∧
      observableValue (if lay.obs = "V" then 0 else 1) d.flatten rec =
        sumValues (recs.map (observableValue (if lay.obs = "V" then 0 else 1) d.flatten)) :=
  parts_recs hv hs hN hd hrec hl (fun x hx => (hxs x hx).1) (fun x hx => caused hv hs hN hd (hxs x hx).1 (S := fun i => i ∈ lay.data_qubit_indices ∧ S i)
    ⟨List.mem_map_of_mem (hxs x hx).1.1, (hxs x hx).2⟩) hsum

/-- C99: for every combination of `n` Pauli faults on data qubits there are at most `2 * n` runs with a single fault on one of these qubits, each firing at most
two detectors, such that the combination flips exactly the detectors, and the observable, that these single faults flip together. -/
theorem c99_graphlike (lay : HoneycombLayout) (hv : lay.Valid) (hs : lay.Supported) :
    ∃ d, lay.makeCircuit = .ok d ∧ ∀ (S : Nat → Prop) n rec, CanRecordWith (fun i => i ∈ lay.data_qubit_indices ∧ S i) n d.flatten rec →
      ∃ recs : List (List (ZMod 2)), recs.length ≤ 2 * n ∧
        (∀ r ∈ recs, CanRecordWith (fun i => i ∈ lay.data_qubit_indices ∧ S i) 1 d.flatten r ∧ (detectorValues d.flatten r).count (some 1) ≤ 2) ∧
        (∀ i < (detectorValues d.flatten rec).length,
          (detectorValues d.flatten rec)[i]? = some (sumValues (recs.map fun r => (detectorValues d.flatten r).getD i none))) ∧
        observableValue (if lay.obs = "V" then 0 else 1) d.flatten rec =
          sumValues (recs.map (observableValue (if lay.obs = "V" then 0 else 1) d.flatten)) := by
  obtain ⟨N, hN⟩ := Int.eq_ofNat_of_zero_le (show 0 ≤ lay.sub_rounds by have := hs.2.2.1; omega)
  obtain ⟨_, _, d, _, _, _, _, _, _, _, _, _, _, _, _, hd⟩ := makeCircuit_ok hv hs hN
  refine ⟨d, hd, fun S n rec hr => ?_⟩
  classical
  obtain ⟨F, F', hF, hr⟩ := hr
  obtain ⟨G, hG⟩ := noisy_frun (B := fun p => S (lay.idx p)) hv hs hN hd (hr.mono fun q hq => by
    obtain ⟨p, hp, e⟩ := List.mem_map.1 hq.1
    exact ⟨p, hp, by show S (lay.idx p); rw [e]; exact hq.2, e⟩)
  obtain ⟨Fs, E, locs, ht, hrec, hl, hloc, hn, hB⟩ := closed_frun hv hs hN hG
  set L := (locs.filter fun l => l.1 ≤ N ∧ l.2 ∈ lay.data_qubit_coords).dedup with hL
  have hLm : ∀ l, l ∈ L ↔ l ∈ locs ∧ l.1 ≤ N ∧ l.2 ∈ lay.data_qubit_coords := fun l => by rw [hL, List.mem_dedup, List.mem_filter, decide_eq_true_iff]
  have hLl : L.length ≤ n := (List.dedup_sublist _).length_le.trans ((List.length_filter_le _ _).trans hn)
  obtain ⟨xs, x1, x2, x3⟩ := traj_parts (L := L) hv ht (List.nodup_dedup _) (fun l hm => ((hLm l).1 hm).2)
    (fun k hk q hq hne => (hLm _).2 ⟨hloc k q hq hne, hk, hq⟩)
  obtain ⟨recs, y1, y2⟩ := parts_runs hv hs hN hd hrec hl (S := S) (fun x hx => ⟨(x2 x hx).1, by
    obtain ⟨l, hm, e⟩ := (x2 x hx).2
    rw [e]
    exact hB l ((hLm l).1 hm).1⟩) x3
  exact ⟨recs, by omega, y2⟩

/-- C99: the same for everything the noise channels can do, errors on ancillas and wrong results included. `n` errors of the noise channels happen near at most
`n` edges; there are single faults on the ends of these edges, each firing at most two detectors, which together flip the same detectors and the same observable. -/
theorem c99_channels (lay : HoneycombLayout) (hv : lay.Valid) (hs : lay.Supported) :
    ∃ d, lay.makeCircuit = .ok d ∧ ∀ n rec, CanSample n d.flatten rec →
      ∃ es : List Edge, es.length ≤ n ∧ (∀ e ∈ es, e ∈ lay.all_edges) ∧ ∃ recs : List (List (ZMod 2)),
        (∀ r ∈ recs, CanRecordWith (fun i => i ∈ lay.data_qubit_indices ∧ ∃ e ∈ es, i = lay.idx e.left ∨ i = lay.idx e.right) 1 d.flatten r ∧
          (detectorValues d.flatten r).count (some 1) ≤ 2) ∧
        (∀ i < (detectorValues d.flatten rec).length,
          (detectorValues d.flatten rec)[i]? = some (sumValues (recs.map fun r => (detectorValues d.flatten r).getD i none))) ∧
        observableValue (if lay.obs = "V" then 0 else 1) d.flatten rec =
          sumValues (recs.map (observableValue (if lay.obs = "V" then 0 else 1) d.flatten)) := by
  obtain ⟨N, hN⟩ := Int.eq_ofNat_of_zero_le (show 0 ≤ lay.sub_rounds by have := hs.2.2.1; omega)
  obtain ⟨_, _, d, _, _, _, _, _, _, _, _, _, _, _, _, hd⟩ := makeCircuit_ok hv hs hN
  refine ⟨d, hd, ?_⟩
  rintro n rec ⟨F, F', -, hr⟩
  classical
  obtain ⟨es, rec0, G, m, hle, hes, hrun, hdiff⟩ := sampled hv hs hN hd hr.loose
  obtain ⟨g1, g2, g3⟩ := sampled_inside hv hs hN hes hrun hdiff
  obtain ⟨E, Fs, ht, hrec, hl, hE⟩ := damage_traj hv hs hN g1 g2 g3
  set L := (((List.range (N + 1)).product lay.data_qubit_coords).filter fun l => E l.1 l.2 ≠ 0).dedup with hL
  have hLm : ∀ l, l ∈ L ↔ (l.1 < N + 1 ∧ l.2 ∈ lay.data_qubit_coords) ∧ E l.1 l.2 ≠ 0 := fun l => by
    rw [hL, List.mem_dedup, List.mem_filter, decide_eq_true_iff, ← List.mem_range]
    exact and_congr_left fun _ => List.mem_product
  obtain ⟨xs, -, x2, x3⟩ := traj_parts (L := L) hv ht (List.nodup_dedup _) (fun l hm => ⟨by have := ((hLm l).1 hm).1.1; omega, ((hLm l).1 hm).1.2⟩)
    (fun k hk q hq hne => (hLm _).2 ⟨⟨by omega, hq⟩, hne⟩)
  obtain ⟨recs, -, y2⟩ := parts_runs hv hs hN hd hrec hl (S := fun i => ∃ e ∈ es, i = lay.idx e.left ∨ i = lay.idx e.right) (fun x hx => ⟨(x2 x hx).1, by
    obtain ⟨l, hm, e⟩ := (x2 x hx).2
    obtain ⟨⟨_, hq⟩, hne⟩ := (hLm l).1 hm
    obtain ⟨f, hf, h⟩ := hE _ _ hq hne
    rw [e]
    exact ⟨f, hf, h.imp (fun h => by rw [h]) fun h => by rw [h]⟩⟩) x3
  exact ⟨es, hle, hes, recs, y2⟩

/-- The hypotheses of C99 are met by a run with a `Y` fault on a data qubit, with noise: its symptom is that of at most two single faults on the same qubit which
fire at most two detectors each. -/
example : ∃ d, HoneycombLayout.makeCircuit ⟨4, 6, 40, "EM3_v2", "V", 1/1000⟩ = .ok d ∧ ∃ (q : Nat) (rec : List (ZMod 2)) (recs : List (List (ZMod 2))),
    CanRecordWith (fun i => i ∈ HoneycombLayout.data_qubit_indices ⟨4, 6, 40, "EM3_v2", "V", 1/1000⟩ ∧ i = q) 1 d.flatten rec ∧ recs.length ≤ 2 ∧
      (∀ r ∈ recs, CanRecordWith (fun i => i ∈ HoneycombLayout.data_qubit_indices ⟨4, 6, 40, "EM3_v2", "V", 1/1000⟩ ∧ i = q) 1 d.flatten r ∧
        (detectorValues d.flatten r).count (some 1) ≤ 2) ∧
      observableValue 0 d.flatten rec = sumValues (recs.map (observableValue 0 d.flatten)) := by
  have hv : HoneycombLayout.Valid ⟨4, 6, 40, "EM3_v2", "V", 1/1000⟩ := by constructor <;> decide
  have hs : HoneycombLayout.Supported ⟨4, 6, 40, "EM3_v2", "V", 1/1000⟩ := by refine ⟨?_, ?_, ?_, ?_⟩ <;> simp
  obtain ⟨d, hd, h⟩ := c99_graphlike _ hv hs
  obtain ⟨q, hq⟩ : ∃ q, q ∈ HoneycombLayout.data_qubit_indices ⟨4, 6, 40, "EM3_v2", "V", 1/1000⟩ :=
    List.exists_mem_of_ne_nil _ (by
      have := length_data_qubit_coords hv
      intro e
      rw [data_qubit_indices, List.map_eq_nil_iff] at e
      rw [e] at this
      simp at this)
  obtain ⟨rec, F', hr⟩ := runs_exists (Frame.mul (fun _ => 0) q (1, 1)) (actions d.flatten)
  have hr0 : CanRecordWith (fun i => i ∈ HoneycombLayout.data_qubit_indices ⟨4, 6, 40, "EM3_v2", "V", 1/1000⟩ ∧ i = q) 1 d.flatten rec :=
    ⟨fun _ => 0, F', fun _ => rfl, .fault q (1, 1) ⟨hq, rfl⟩ (runs_to_faulty hr)⟩
  obtain ⟨recs, a, b, -, c⟩ := h (fun i => i = q) 1 rec hr0
  exact ⟨d, hd, q, rec, recs, hr0, a, b, by simpa using c⟩

/-- The hypotheses of C99 for noise channels are met: three errors of the noise channels flip the observable "H" with no detector firing; single faults on the
ends of at most three edges, each firing at most two detectors, do so too. -/
example : ∃ d rec, HoneycombLayout.makeCircuit ⟨4, 6, 39, "SI1000", "H", 1/1000⟩ = .ok d ∧ CanSample 3 d.flatten rec ∧
    observableValue 1 d.flatten rec ≠ some 0 ∧ ∃ (es : List Edge) (recs : List (List (ZMod 2))), es.length ≤ 3 ∧ recs ≠ [] ∧
      (∀ r ∈ recs, (detectorValues d.flatten r).count (some 1) ≤ 2) ∧ sumValues (recs.map (observableValue 1 d.flatten)) ≠ some 0 := by
  have hv : HoneycombLayout.Valid ⟨4, 6, 39, "SI1000", "H", 1/1000⟩ := by constructor <;> decide
  have hs : HoneycombLayout.Supported ⟨4, 6, 39, "SI1000", "H", 1/1000⟩ := by refine ⟨?_, ?_, ?_, ?_⟩ <;> simp
  obtain ⟨d, hd, n, hn, ⟨rec, hr, h0, h1⟩, -⟩ := c96_horizontal_exact _ hv hs (by simp) (by norm_num) rfl (by norm_num)
  obtain rfl : n = 3 := by simp at hn; omega
  obtain ⟨d', hd', h⟩ := c99_channels _ hv hs
  rw [hd] at hd'
  obtain rfl := Except.ok.inj hd'
  obtain ⟨es, hes, -, recs, a, -, b⟩ := h 3 rec hr
  simp only [show ¬ ("H" = "V") by decide, if_false] at b
  refine ⟨d, rec, hd, hr, h1, es, recs, hes, ?_, fun r hr => (a r hr).2, by rw [← b]; exact h1⟩
  rintro rfl
  exact h1 b

end Honeycomb
