import Verif.Lemmas.DrawnStyles
import Verif.Props.Elementary

/-!
# Errors of the noise channels are made of such errors that fire at most two detectors (C100)

`CanSample n l rec` (`Spec/Damage.lean`): executing `l` from the all-zero state while its noise channels make `n` errors can give the record of measurement flips
`rec`. `detectorValues`, `observableValue`: the parities of this record that the detectors and the observable of the circuit are. `sumValues`
(`Spec/ParitySum.lean`) is the exclusive or.
-/

namespace Honeycomb
open HoneycombLayout
variable {lay : HoneycombLayout} {N : Nat}

/-- C100: whatever `n` errors of the noise channels of a noisy generated circuit do, there is a list of single errors of its noise channels, each firing at most two
detectors, such that the `n` errors flip exactly the detectors, and the observable, that these single errors flip together. -/
theorem c100_decomposes (lay : HoneycombLayout) (hv : lay.Valid) (hs : lay.Supported) (hp : 0 < lay.noise) :
    ∃ d, lay.makeCircuit = .ok d ∧ ∀ n rec, CanSample n d.flatten rec →
      ∃ recs : List (List (ZMod 2)),
        (∀ r ∈ recs, CanSample 1 d.flatten r ∧ (detectorValues d.flatten r).count (some 1) ≤ 2) ∧
        (∀ i < (detectorValues d.flatten rec).length,
          (detectorValues d.flatten rec)[i]? = some (sumValues (recs.map fun r => (detectorValues d.flatten r).getD i none))) ∧
        observableValue (if lay.obs = "V" then 0 else 1) d.flatten rec =
          sumValues (recs.map (observableValue (if lay.obs = "V" then 0 else 1) d.flatten)) := by
  obtain ⟨N, hN⟩ := Int.eq_ofNat_of_zero_le (show 0 ≤ lay.sub_rounds by have := hs.2.2.1; omega)
  obtain ⟨_, _, d, _, _, _, _, _, _, _, _, _, _, _, _, hd⟩ := makeCircuit_ok hv hs hN
  refine ⟨d, hd, ?_⟩
  rintro n rec ⟨F, F', -, hr⟩
  classical
  obtain ⟨es, rec0, G, m, hle, hes, hrun, hdiff⟩ := sampled hv hs hN hd hr.loose
  obtain ⟨g1, g2, g3⟩ := sampled_inside hv hs hN hes hrun hdiff
  obtain ⟨E, Fs, ht, hrec, hl, hE⟩ := damage_traj hv hs hN g1 g2 g3
  set L := (((List.range (N + 1)).product lay.data_qubit_coords).filter fun l => E l.1 l.2 ≠ 0).dedup with hL
  have hLm : ∀ l, l ∈ L ↔ (l.1 < N + 1 ∧ l.2 ∈ lay.data_qubit_coords) ∧ E l.1 l.2 ≠ 0 := fun l => by
    rw [hL, List.mem_dedup, List.mem_filter, decide_eq_true_iff, ← List.mem_range]
    exact and_congr_left fun _ => List.mem_product
  obtain ⟨xs, -, x2, x3⟩ := traj_parts (L := L) hv ht (List.nodup_dedup _) (fun l hm => ⟨by have := ((hLm l).1 hm).1.1; omega, ((hLm l).1 hm).1.2⟩)
    (fun k hk q hq hne => (hLm _).2 ⟨⟨by omega, hq⟩, hne⟩)
  -- leave out the faults that do nothing
  have hsum : ∀ ψ, lay.Meter N ψ → ∀ xs : List (Nat × Pt × Pauli), (xs.map fun x => ψ (oneFault x.1 x.2.1 x.2.2)).sum =
      ((xs.filter fun x => ¬ ∀ ψ, lay.Meter N ψ → ψ (oneFault x.1 x.2.1 x.2.2) = 0).map fun x => ψ (oneFault x.1 x.2.1 x.2.2)).sum := by
    intro ψ hψ xs
    induction xs with
    | nil => rfl
    | cons x xs ih =>
      by_cases h : ∀ ψ, lay.Meter N ψ → ψ (oneFault x.1 x.2.1 x.2.2) = 0
      · rw [List.filter_cons_of_neg (by simpa using h), List.map_cons, List.sum_cons, h ψ hψ, zero_add, ih]
      · rw [List.filter_cons_of_pos (by simpa using h), List.map_cons, List.sum_cons, List.map_cons, List.sum_cons, ih]
  have hys : ∀ x ∈ xs.filter fun x => ¬ ∀ ψ, lay.Meter N ψ → ψ (oneFault x.1 x.2.1 x.2.2) = 0, lay.Elem N x ∧
      ¬ ∀ ψ, lay.Meter N ψ → ψ (oneFault x.1 x.2.1 x.2.2) = 0 := fun x hx => by
    rw [List.mem_filter, decide_eq_true_iff] at hx
    exact ⟨(x2 x hx.1).1, hx.2⟩
  obtain ⟨recs, -, y2⟩ := parts_recs hv hs hN hd hrec hl (C := CanSample 1 d.flatten) (fun x hx => (hys x hx).1)
    (fun x hx => (HoneycombLayout.drawn hv hs hN hp hd (hys x hx).1).resolve_left (hys x hx).2) (fun ψ hψ => by rw [x3 ψ hψ, hsum ψ hψ])
  exact ⟨recs, y2⟩

/-- The hypotheses of C100 are met: three errors of the noise channels flip the observable "H" with no detector firing; so do single errors of the noise channels
which fire at most two detectors each. -/
example : ∃ d rec, HoneycombLayout.makeCircuit ⟨4, 6, 39, "SI1000", "H", 1/1000⟩ = .ok d ∧ CanSample 3 d.flatten rec ∧
    observableValue 1 d.flatten rec ≠ some 0 ∧ ∃ recs : List (List (ZMod 2)), recs ≠ [] ∧
      (∀ r ∈ recs, CanSample 1 d.flatten r ∧ (detectorValues d.flatten r).count (some 1) ≤ 2) ∧ sumValues (recs.map (observableValue 1 d.flatten)) ≠ some 0 := by
  have hv : HoneycombLayout.Valid ⟨4, 6, 39, "SI1000", "H", 1/1000⟩ := by constructor <;> decide
  have hs : HoneycombLayout.Supported ⟨4, 6, 39, "SI1000", "H", 1/1000⟩ := by refine ⟨?_, ?_, ?_, ?_⟩ <;> simp
  obtain ⟨d, hd, n, hn, ⟨rec, hr, h0, h1⟩, -⟩ := c96_horizontal_exact _ hv hs (by simp) (by norm_num) rfl (by norm_num)
  obtain rfl : n = 3 := by simp at hn; omega
  obtain ⟨d', hd', h⟩ := c100_decomposes _ hv hs (by norm_num)
  rw [hd] at hd'
  obtain rfl := Except.ok.inj hd'
  obtain ⟨recs, a, -, b⟩ := h 3 rec hr
  simp only [show ¬ ("H" = "V") by decide, if_false] at b
  refine ⟨d, rec, hd, hr, h1, recs, ?_, a, by rw [← b]; exact h1⟩
  rintro rfl
  exact h1 b

end Honeycomb
