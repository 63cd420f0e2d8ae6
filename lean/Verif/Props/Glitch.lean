import Verif.Lemmas.GlitchNoise
import Verif.Lemmas.Linear
import Verif.Spec.Glitch
import Verif.Props.Symptoms

/-!
# What goes wrong is noticed soon, and is soon over (C106)

`GlitchRecord a b c rec` (`Spec/Glitch.lean`): `rec` can be recorded by `a ++ b ++ c` if anything may happen during `b`. `measured`
(`Spec/Timeline.lean`) lists the measurements of a circuit, `detectorValues` (`Spec/Frame.lean`) the detectors' values, `detectorCoords`
their coordinates, the third of which is the layer, the number of the sub-round.
-/

namespace Honeycomb
open HoneycombLayout

variable {F F' : Frame} {rec : List (ZMod 2)}

theorem runs_measured {l : List Instr} (h : Runs F (actions l) rec F') : rec.length = (measured l).length := by
  rw [runs_length h, actions, List.filterMap_flatMap, measured]
  exact congrArg List.length (List.flatMap_congr fun i _ => results_actions i)

theorem noisy_runs_zero {l : List Instr} {n : Nat} (h : NoisyRuns F l rec F' n) (hn : n = 0) : Runs F (actions l) rec F' := by
  induction h with
  | nil F => exact .nil F
  | step h1 _ ih =>
    rw [actions, List.flatMap_cons]
    exact runs_append.2 ⟨_, _, _, h1, ih hn, rfl⟩
  | error => omega
  | flip => omega

theorem allDets_layer {lay : HoneycombLayout} {N : Nat} {x : Nat × Pt × Finset Nat} (hx : x ∈ allDets lay N) : x.1 ≤ N := by
  rw [allDets, List.mem_append] at hx
  rcases hx with hx | hx
  · obtain ⟨k, hk, hx⟩ := List.mem_flatMap.1 hx
    obtain ⟨y, hy, rfl⟩ := List.mem_map.1 hx
    exact (List.mem_range.1 hk).le
  · obtain ⟨y, hy, rfl⟩ := List.mem_map.1 hx
    exact le_refl _

/-- C106: cut the generated circuit in three parts `a`, `b`, `c`, and let anything happen during `b`. With `P` edges per sub-round, no
detector fires whose layer was over before `b`, that is, every detector that fires is in layer `measured a / P` or later, or in the last
layer. And no detector fires later than `lay.glitchReach` layers after `b`. -/
theorem c106_glitch (lay : HoneycombLayout) (hv : lay.Valid) (hs : lay.Supported) :
    ∃ d, lay.makeCircuit = .ok d ∧ ∀ a b c rec, d.flatten = a ++ b ++ c → GlitchRecord a b c rec →
      ∀ (i : Nat) (x : List Rat × Nat), (detectorValues d.flatten rec)[i]? = some (some 1) → (detectorCoords d.flatten)[i]? = some x →
        ∃ (layer : Nat) (p : Pt), x.1 = [crd p.x, crd p.y, (layer : Rat)] ∧
          ((measured a).length / (lay.round_edges 0).length ≤ layer ∨ layer = lay.sub_rounds) ∧
          layer ≤ (measured (a ++ b)).length / (lay.round_edges 0).length + lay.glitchReach := by
  obtain ⟨N, hN⟩ := Int.eq_ofNat_of_zero_le (show 0 ≤ lay.sub_rounds by have := hs.2.2.1; omega)
  have h1 : 1 ≤ N := by have := hs.2.2.1; omega
  obtain ⟨_, _, d, _, _, _, _, _, _, _, _, _, _, _, _, hd⟩ := makeCircuit_ok hv hs hN
  refine ⟨d, hd, ?_⟩
  rintro a b c rec hcut ⟨F, F1, F2, F', r1, r2, r3, hF, g1, g2, g3, rfl⟩ i x hi hx
  obtain ⟨ht, hsim⟩ := noisy_run hv hs hN hd
  have hP := perRound_pos hv
  rw [perRound_eq hv]
  have l1 := runs_measured g1
  have l3 := runs_measured g3
  have lab : (measured (a ++ b)).length = (measured a).length + (measured b).length := by rw [measured, List.flatMap_append, List.length_append]; rfl
  -- the prefix continued without errors
  obtain ⟨s, T, gs⟩ := runs_exists F1 (actions (b ++ c))
  have hclean : Runs F (actions d.flatten) (r1 ++ s) T := by
    rw [hcut, List.append_assoc, actions_append]; exact runs_append.2 ⟨_, _, _, g1, gs, rfl⟩
  obtain ⟨T', hT'⟩ := hsim _ _ _ hclean
  obtain ⟨Fs, -, -, hls⟩ := closed_run hv hs hN hT'
  have ls := runs_measured gs
  have lbc : (measured (b ++ c)).length = (measured b).length + (measured c).length := by rw [measured, List.flatMap_append, List.length_append]; rfl
  have hl : (r1 ++ r2 ++ r3).length = N * lay.perRound + lay.data_qubit_coords.length := by
    rw [← hls, List.length_append, List.length_append, List.length_append, g2, l3, ls, lbc]; omega
  have hval : ∀ rec, detectorValues d.flatten rec = detectorValues (lay.closedCircuit N) rec := fun rec => by rw [detectorValues, ht, detectorValues]
  have hco : detectorCoords d.flatten = detectorCoords (lay.closedCircuit N) := by rw [detectorCoords, ht, detectorCoords]
  rw [hval, values_eq hv hs hN hl, List.getElem?_map] at hi
  rw [hco, closed_coords_eq hv hs hN, List.getElem?_map] at hx
  obtain ⟨y, hy, hf⟩ := Option.map_eq_some_iff.1 hi
  rw [hy] at hx
  obtain rfl := Option.some.inj hx
  have hym := List.mem_of_getElem? hy
  have hf : val (recAt (r1 ++ r2 ++ r3)) y.2.2 = 1 := Option.some.inj hf
  refine ⟨y.1, y.2.1, rfl, ?_, ?_⟩
  · -- not before the glitch
    by_contra hc
    push Not at hc
    obtain ⟨hc1, hc2⟩ := hc
    have hyN : y.1 < N := by
      by_contra hge
      exact hc2 (by rw [hN, show y.1 = N from le_antisymm (allDets_layer hym) (by omega)])
    have hz : val (recAt (r1 ++ s)) y.2.2 = 0 := by
      have := (closed_zero hv hs hN hT').1
      have hv0 : some (val (recAt (r1 ++ s)) y.2.2) ∈ detectorValues (lay.closedCircuit N) (r1 ++ s) := by
        rw [values_eq hv hs hN hls]; exact List.mem_map.2 ⟨y, hym, rfl⟩
      rw [detectorValues] at hv0
      obtain ⟨z, hz, e⟩ := List.mem_map.1 hv0
      rw [List.mem_filter] at hz
      rw [this z hz.1 (by simpa using hz.2)] at e
      exact (Option.some.inj e).symm
    obtain ⟨t, ht1, ht2⟩ := wrong_result (R := recAt (r1 ++ r2 ++ r3)) (R0 := recAt (r1 ++ s)) (s := y.2.2) (by rw [hf, hz]; decide)
    have hlt := usedBy_lt hv hN h1 (allDets_used hv hs hN hym ht1)
    rw [layerTime, if_pos hyN] at hlt
    have hlt1 : t < r1.length := by
      rw [l1]
      refine lt_of_lt_of_le hlt ?_
      have := Nat.div_mul_le_self (measured a).length lay.perRound
      exact (Nat.mul_le_mul_right _ hc1).trans this
    refine ht2 ?_
    rw [List.append_assoc, recAt_left hlt1, recAt_left hlt1]
  · -- not long after it
    by_contra hc
    push Not at hc
    have hyN := allDets_layer hym
    obtain ⟨a', b', n, J, hcl, hset, hn, hJ⟩ := settles_exists hv hs hN (t := (measured (a ++ b)).length) (by omega)
    obtain ⟨a2, b2, hcut2, hfa, hfb⟩ := noisy_cuts hv hs hN hd a' b' hcl
    -- the cut comes after the glitch
    have key : ∃ m, c = m ++ b2 := by
      rw [hcut] at hcut2
      rcases List.append_eq_append_iff.1 hcut2 with ⟨z, _, e⟩ | ⟨z, e, _⟩
      · exact ⟨z, e⟩
      · exfalso
        have hm : (measured a2).length ≤ (measured (a ++ b)).length := by
          rw [e, measured, measured, List.flatMap_append, List.length_append]; omega
        obtain ⟨u, U, gu⟩ := runs_exists F (actions a2)
        obtain ⟨w, W, gw⟩ := runs_exists U (actions b2)
        obtain ⟨W', gw'⟩ := hfb _ _ _ gw
        have hfull : Runs F (actions d.flatten) (u ++ w) W := by
          rw [hcut, hcut2, actions_append]; exact runs_append.2 ⟨_, _, _, gu, gw, rfl⟩
        have e1 := runs_measured gu
        have e2 := runs_measured hfull
        have e3 := runs_measured hclean
        have e4 := (hset (List.replicate n 0) U w W' (by simp) gw').1
        rw [List.length_append, List.length_replicate, total] at e4
        rw [List.length_append] at e2
        rw [← e3, hls] at e2
        omega
    obtain ⟨m, rfl⟩ := key
    obtain ⟨s1, s2, S1, k1, k2, rfl⟩ := runs_append_actions g3
    obtain ⟨S', k2'⟩ := hfb _ _ _ k2
    have hn' : (r1 ++ r2 ++ s1).length = n := by
      have := (hset (List.replicate n 0) S1 s2 S' (by simp) k2').1
      rw [List.length_append, List.length_replicate, total] at this
      rw [← List.append_assoc, List.length_append] at hl
      omega
    have := (hset (r1 ++ r2 ++ s1) S1 s2 S' hn' k2').2 y hym (by rw [← List.append_assoc] at hf; rw [hf]; decide)
    omega

/-- C106: the noise channels and measurements of `b` may make errors, those of `a` and `c` make none. -/
theorem c106_errors (lay : HoneycombLayout) (hv : lay.Valid) (hs : lay.Supported) :
    ∃ d, lay.makeCircuit = .ok d ∧ ∀ a b c F F1 F2 F' r1 r2 r3 n, d.flatten = a ++ b ++ c → StartFrame F →
      NoisyRuns F a r1 F1 0 → NoisyRuns F1 b r2 F2 n → NoisyRuns F2 c r3 F' 0 →
      ∀ (i : Nat) (x : List Rat × Nat), (detectorValues d.flatten (r1 ++ r2 ++ r3))[i]? = some (some 1) → (detectorCoords d.flatten)[i]? = some x →
        ∃ (layer : Nat) (p : Pt), x.1 = [crd p.x, crd p.y, (layer : Rat)] ∧
          (r1.length / (lay.round_edges 0).length ≤ layer ∨ layer = lay.sub_rounds) ∧ layer ≤ (r1 ++ r2).length / (lay.round_edges 0).length + lay.glitchReach := by
  obtain ⟨d, hd, h⟩ := c106_glitch lay hv hs
  refine ⟨d, hd, fun a b c F F1 F2 F' r1 r2 r3 n hcut hF g1 g2 g3 i x hi hx => ?_⟩
  have l1 := runs_measured (noisy_runs_zero g1 rfl)
  have := h a b c _ hcut ⟨F, F1, F2, F', r1, r2, r3, hF, noisy_runs_zero g1 rfl, g2.length, noisy_runs_zero g3 rfl, rfl⟩ i x hi hx
  have lab : (measured (a ++ b)).length = (measured a).length + (measured b).length := by rw [measured, List.flatMap_append, List.length_append]; rfl
  rw [List.length_append, l1, g2.length, ← lab]
  exact this

/-- The hypotheses of C106 are met at every place of an SD6 circuit with noise: cut out `k` instructions after the first `m`, and let `r` be
any results of these. -/
example : ∃ d, HoneycombLayout.makeCircuit ⟨4, 6, 40, "SD6", "V", 1/1000⟩ = .ok d ∧ ∀ m k : Nat,
    d.flatten = d.flatten.take m ++ (d.flatten.drop m).take k ++ (d.flatten.drop m).drop k ∧
    ∀ r : List (ZMod 2), r.length = (measured ((d.flatten.drop m).take k)).length → ∃ r1 r3,
      GlitchRecord (d.flatten.take m) ((d.flatten.drop m).take k) ((d.flatten.drop m).drop k) (r1 ++ r ++ r3) := by
  have hv : HoneycombLayout.Valid ⟨4, 6, 40, "SD6", "V", 1/1000⟩ := by constructor <;> decide
  have hs : HoneycombLayout.Supported ⟨4, 6, 40, "SD6", "V", 1/1000⟩ := by refine ⟨?_, ?_, ?_, ?_⟩ <;> simp
  obtain ⟨d, hd, -⟩ := c106_glitch _ hv hs
  refine ⟨d, hd, fun m k => ⟨by rw [List.append_assoc, List.take_append_drop, List.take_append_drop], fun r hr => ?_⟩⟩
  obtain ⟨r1, F1, h1⟩ := runs_exists (fun _ => 0) (actions (d.flatten.take m))
  obtain ⟨r3, F', h3⟩ := runs_exists (fun _ => (1, 1)) (actions ((d.flatten.drop m).drop k))
  exact ⟨r1, r3, _, _, _, _, r1, r, r3, fun _ => rfl, h1, hr, h3, rfl⟩

end Honeycomb
