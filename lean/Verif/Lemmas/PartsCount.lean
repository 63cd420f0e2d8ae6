import Verif.Lemmas.DamageCount
import Verif.Props.Decompose

/-!
# How many single errors firing at most two detectors an error is

C100 with a bound for a single error.
-/

namespace Honeycomb
namespace HoneycombLayout
variable {lay : HoneycombLayout} {N : Nat} {d : Circuit} {rec : List (ZMod 2)}

/-- What a single error of the noise channels does is what a trajectory with a bounded number of faults does. -/
theorem single_traj (hv : lay.Valid) (hs : lay.Supported) (hN : lay.sub_rounds = N) (hd : lay.makeCircuit = .ok d)
    (h : CanSample 1 d.flatten rec) :
    ∃ E Fs locs, lay.FaultyTrajectory N E Fs ∧ lay.Recorded N Fs (recAt rec) ∧ rec.length = N * lay.perRound + lay.data_qubit_coords.length ∧
      lay.Located E locs ∧ locs.length ≤ 10000 := by
  obtain ⟨F, F', -, hr⟩ := h
  obtain ⟨es, rec0, G, m, hle, hes, hrun, hdiff, hm, hdf⟩ := sampled_count hv hs hN hd hr.loose
  have hlen : rec0.length = rec.length := by rw [hdiff.lengths.1, hdiff.lengths.2]
  have key : ∃ (B : Pt → Prop) (rec1 : List (ZMod 2)) (G' : Frame) (m1 : Nat), FaultyRuns (lay.IsIn B) F (lay.closedCircuit N) rec1 G' m1 ∧
      rec1.length = rec0.length ∧ m1 ≤ 3000 ∧ lay.Spotted N (fun t => recAt rec1 t + recAt rec0 t) 3000 := by
    match es, hle with
    | [], _ =>
      refine ⟨fun _ => False, rec0, G, m, hrun.mono ?_, rfl, by omega, (spotted_diffs hv rfl).mono (by rw [diffs_self]; omega)⟩
      rintro q ⟨e, he, -⟩
      simp at he
    | [e], _ =>
      obtain ⟨rec1, G', m1, h1, h2, h3, h4⟩ := absorbed hv hs hN (hes e (by simp)) hrun
      exact ⟨_, rec1, G', m1, h1, h2, by omega, h4.mono (by omega)⟩
    | _ :: _ :: _, h => simp at h
  obtain ⟨B, rec1, G', m1, h1, h2, h3, h4⟩ := key
  obtain ⟨Fs, E, locs, ht, hrec, hl, hloc, hll, -⟩ := closed_frun hv hs hN h1
  obtain ⟨E', Fs', locs', a1, a2, a3, a4⟩ := patched_count hv ht hrec hloc (h4.add (spotted_diffs hv hlen))
  refine ⟨E', Fs', locs', a1, ?_, by omega, a3, by omega⟩
  convert a2 using 1
  funext t
  generalize recAt rec t = x
  generalize recAt rec1 t = y
  generalize recAt rec0 t = z
  revert x y z
  decide

/-- C100 for a single error, with a bound. -/
theorem single_parts (hv : lay.Valid) (hs : lay.Supported) (hN : lay.sub_rounds = N) (hp : 0 < lay.noise) (hd : lay.makeCircuit = .ok d)
    (h : CanSample 1 d.flatten rec) :
      ∃ recs : List (List (ZMod 2)), recs.length ≤ 20000 ∧
        (∀ r ∈ recs, CanSample 1 d.flatten r ∧ (detectorValues d.flatten r).count (some 1) ≤ 2) ∧
        (∀ i < (detectorValues d.flatten rec).length,
          (detectorValues d.flatten rec)[i]? = some (sumValues (recs.map fun r => (detectorValues d.flatten r).getD i none))) ∧
        observableValue (if lay.obs = "V" then 0 else 1) d.flatten rec =
          sumValues (recs.map (observableValue (if lay.obs = "V" then 0 else 1) d.flatten)) := by
  classical
  obtain ⟨E, Fs, locs, ht, hrec, hl, hloc, hle⟩ := single_traj hv hs hN hd h
  set L := (((List.range (N + 1)).product lay.data_qubit_coords).filter fun l => E l.1 l.2 ≠ 0).dedup with hL
  have hLm : ∀ l, l ∈ L ↔ (l.1 < N + 1 ∧ l.2 ∈ lay.data_qubit_coords) ∧ E l.1 l.2 ≠ 0 := fun l => by
    rw [hL, List.mem_dedup, List.mem_filter, decide_eq_true_iff, ← List.mem_range]
    exact and_congr_left fun _ => List.mem_product
  have hLl : L.length ≤ locs.length := by
    refine (List.subperm_of_subset (List.nodup_dedup _) fun l hl => ?_).length_le
    have := (hLm l).1 hl
    exact hloc _ _ this.1.2 this.2
  obtain ⟨xs, x1, x2, x3⟩ := traj_parts (L := L) hv ht (List.nodup_dedup _) (fun l hm => ⟨by have := ((hLm l).1 hm).1.1; omega, ((hLm l).1 hm).1.2⟩)
    (fun k hk q hq hne => (hLm _).2 ⟨⟨by omega, hq⟩, hne⟩)
  -- leave out the faults that do nothing
  have hsum : ∀ ψ, lay.Meter N ψ → ∀ xs : List (Nat × Pt × Pauli), (xs.map fun x => ψ (oneFault x.1 x.2.1 x.2.2)).sum =
      ((xs.filter fun x => ¬ ∀ ψ, lay.Meter N ψ → ψ (oneFault x.1 x.2.1 x.2.2) = 0).map fun x => ψ (oneFault x.1 x.2.1 x.2.2)).sum := by
    intro ψ hψ xs
    induction xs with
    | nil => rfl
    | cons x xs ih =>
      by_cases h : ∀ ψ, lay.Meter N ψ → ψ (oneFault x.1 x.2.1 x.2.2) = 0
      · rw [List.filter_cons_of_neg (by simpa using h), List.map_cons, List.sum_cons, h ψ hψ, zero_add, ih]
      · rw [List.filter_cons_of_pos (by simpa using h), List.map_cons, List.sum_cons, List.map_cons, List.sum_cons, ih]
  have hys : ∀ x ∈ xs.filter fun x => ¬ ∀ ψ, lay.Meter N ψ → ψ (oneFault x.1 x.2.1 x.2.2) = 0, lay.Elem N x ∧
      ¬ ∀ ψ, lay.Meter N ψ → ψ (oneFault x.1 x.2.1 x.2.2) = 0 := fun x hx => by
    rw [List.mem_filter, decide_eq_true_iff] at hx
    exact ⟨(x2 x hx.1).1, hx.2⟩
  obtain ⟨recs, y1, y2⟩ := parts_recs hv hs hN hd hrec hl (C := CanSample 1 d.flatten) (fun x hx => (hys x hx).1)
    (fun x hx => (HoneycombLayout.drawn hv hs hN hp hd (hys x hx).1).resolve_left (hys x hx).2) (fun ψ hψ => by rw [x3 ψ hψ, hsum ψ hψ])
  refine ⟨recs, ?_, y2⟩
  rw [y1]
  exact (List.length_filter_le _ _).trans (by omega)

end HoneycombLayout
end Honeycomb
