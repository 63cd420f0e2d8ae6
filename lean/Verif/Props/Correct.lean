import Verif.Lemmas.Correct
import Verif.Props.Attained
import Verif.Props.Charged
import Verif.Props.Decoding

/-!
# How many errors decoding corrects (C89), and that no decoder corrects more (C90)

Vocabulary in `Spec/Damage.lean` (`CanSample`: sampling the circuit can give this record with `n` errors drawn from its noise channels) and
`Spec/Correct.lean` (`detectionBits`, `observableBits`: the two parts of a shot; `MinimumErrors`: the decoder predicts what happens with the
fewest errors).
-/

namespace Honeycomb
open HoneycombLayout

/-- C89: in every style a minimum error decoder predicts the observables correctly whenever fewer than a quarter of `data_width` ("V"), a
sixth of `data_height` ("H") errors happened, whichever errors of the noise channels they were. -/
theorem c89_corrects (lay : HoneycombLayout) (hv : lay.Valid) (hs : lay.Supported) :
    ∃ d, lay.makeCircuit = .ok d ∧ ∀ guess, MinimumErrors d guess → ∀ (n : Nat) rec, CanSample n d.flatten rec →
      (if lay.obs = "V" then 4 * (n : Int) < lay.data_width else 6 * (n : Int) < lay.data_height) →
      guess (detectionBits d rec) = observableBits d rec := by
  obtain ⟨d, hd, h⟩ := c76_observable_distance lay hv hs
  refine ⟨d, hd, fun guess hg n rec hr hn => corrected hv hs hd hg hr fun m rec' hm hr' hdet => ?_⟩
  by_contra hobs
  have := h m rec' hr' hdet hobs
  split_ifs at hn this <;> omega

/-- C89: in the styles with ancillas it is correct up to twice as many errors for "V": fewer than half of `data_width`, and fewer than a
quarter of `data_height` for "H". -/
theorem c89_corrects_ancillas (lay : HoneycombLayout) (hv : lay.Valid) (hs : lay.Supported) (hst : lay.style ∈ ["SD6", "PC3", "SI1000"]) :
    ∃ d, lay.makeCircuit = .ok d ∧ ∀ guess, MinimumErrors d guess → ∀ (n : Nat) rec, CanSample n d.flatten rec →
      (if lay.obs = "V" then 2 * (n : Int) < lay.data_width else 4 * (n : Int) < lay.data_height) →
      guess (detectionBits d rec) = observableBits d rec := by
  obtain ⟨d, hd, h⟩ := c85_observable_distance lay hv hs hst
  refine ⟨d, hd, fun guess hg n rec hr hn => corrected hv hs hd hg hr fun m rec' hm hr' hdet => ?_⟩
  by_contra hobs
  have := h m rec' hr' hdet hobs
  split_ifs at hn this <;> omega

/-- C89: in terms of the reported code distance: fewer than a quarter of it in every style, fewer than three eighths of it in the styles
with ancillas. -/
theorem c89_code_distance (lay : HoneycombLayout) (hv : lay.Valid) (hs : lay.Supported) :
    ∃ d, lay.makeCircuit = .ok d ∧ ∀ guess, MinimumErrors d guess → ∀ (n : Nat) rec, CanSample n d.flatten rec →
      (4 * (n : Int) < lay.code_distance_1qdep ∨ lay.style ∈ ["SD6", "PC3", "SI1000"] ∧ 8 * (n : Int) < 3 * lay.code_distance_1qdep) →
      guess (detectionBits d rec) = observableBits d rec := by
  obtain ⟨d, hd, h⟩ := c76_circuit_distance lay hv hs
  refine ⟨d, hd, fun guess hg n rec hr hn => corrected hv hs hd hg hr fun m rec' hm hr' hdet => ?_⟩
  rcases hn with hn | ⟨hst, hn⟩
  · exact h m rec' (by omega) hr' hdet
  · obtain ⟨d', hd', h'⟩ := c85_circuit_distance lay hv hs hst
    obtain rfl := Except.ok.inj (hd.symm.trans hd')
    exact h' m rec' (by omega) hr' hdet

/-- C89: `sample_decode_count_correct` with a minimum error decoder counts every shot as correct if few enough errors happened in each
shot. -/
theorem c89_all_correct (lay : HoneycombLayout) (hv : lay.Valid) (hs : lay.Supported) :
    ∃ d, lay.makeCircuit = .ok d ∧ ∀ guess, MinimumErrors d guess →
      ∀ decoder ∈ ["pymatching", "internal", "internal_correlated"], ∀ recs : List (List (ZMod 2)),
      (∀ rec ∈ recs, ∃ n, CanSample n d.flatten rec ∧
        (if lay.obs = "V" then 4 * (n : Int) < lay.data_width else 6 * (n : Int) < lay.data_height)) →
      sampleDecodeCountCorrect ⟨d.num_detectors, d.num_observables⟩ none decoder
        (recs.map fun rec => detectionBits d rec ++ observableBits d rec) (fun _ _ dets => .ok (dets.map guess)) = .ok recs.length := by
  obtain ⟨d, hd, h⟩ := c89_corrects lay hv hs
  refine ⟨d, hd, fun guess hg decoder hdec recs hrecs => ?_⟩
  obtain ⟨flags, hflags⟩ : ∃ flags, decoderFlags decoder = .ok flags := by
    simp only [List.mem_cons, List.not_mem_nil, or_false] at hdec
    rcases hdec with rfl | rfl | rfl
    exacts [⟨_, c38_flags.1⟩, ⟨_, c38_flags.2.1⟩, ⟨_, c38_flags.2.2⟩]
  have htake : (recs.map fun rec => detectionBits d rec ++ observableBits d rec).map (List.take d.num_detectors) = recs.map (detectionBits d) := by
    rw [List.map_map]
    refine List.map_congr_left fun rec _ => ?_
    rw [Function.comp_apply, ← detectionBits_length d rec, List.take_left]
  have hpred : (recs.map (detectionBits d)).map guess = recs.map (observableBits d) := by
    rw [List.map_map]
    refine List.map_congr_left fun rec hr => ?_
    obtain ⟨n, h1, h2⟩ := hrecs rec hr
    exact h guess hg n rec h1 h2
  rw [c38_counts ⟨d.num_detectors, d.num_observables⟩ none decoder flags _ (recs.map (observableBits d)) _ hflags (.inl rfl) ?_ ?_ ?_]
  · congr 1
    rw [Finset.filter_true_of_mem, Finset.card_range, List.length_map]
    intro k hk
    rw [Finset.mem_range, List.length_map] at hk
    simp only [List.getD_eq_getElem?_getD, List.getElem?_map, List.getElem?_eq_getElem hk, Option.map_some, Option.getD_some]
    rw [← detectionBits_length d recs[k], List.drop_left]
  · intro r hr
    obtain ⟨rec, -, rfl⟩ := List.mem_map.1 hr
    rw [List.length_append, detectionBits_length, observableBits_length]
  · show Except.ok (List.map guess _) = _
    rw [htake, hpred]
  · refine ⟨by simp, fun r hr => ?_⟩
    obtain ⟨rec, -, rfl⟩ := List.mem_map.1 hr
    exact observableBits_length d rec

/-- C89: every circuit has a minimum error decoder. -/
theorem c89_exists (d : Circuit) : ∃ guess, MinimumErrors d guess := by
  classical
  have key : ∀ bits : List Bool, ∃ out : List Bool, ∀ n rec, CanSample n d.flatten rec → detectionBits d rec = bits →
      ∃ m ≤ n, ∃ rec', CanSample m d.flatten rec' ∧ detectionBits d rec' = bits ∧ out = observableBits d rec' := by
    intro bits
    by_cases hb : ∃ n, ∃ rec, CanSample n d.flatten rec ∧ detectionBits d rec = bits
    · obtain ⟨rec', h1, h2⟩ := Nat.find_spec hb
      exact ⟨observableBits d rec', fun n rec hr e => ⟨Nat.find hb, Nat.find_min' hb ⟨rec, hr, e⟩, rec', h1, h2, rfl⟩⟩
    · exact ⟨[], fun n rec hr e => absurd ⟨n, rec, hr, e⟩ hb⟩
  choose guess hg using key
  exact ⟨guess, fun n rec hr => hg _ n rec hr rfl⟩

/-! ## C90 -/

/-- C90: in the styles "EM3" and "EM3_v2" C89 is exact. The least number of errors that a minimum error decoder gets wrong is a quarter of
`data_width` ("V"), a sixth of `data_height` ("H"), rounded up. -/
theorem c90_least (lay : HoneycombLayout) (hv : lay.Valid) (hs : lay.Supported) (hst : lay.style = "EM3" ∨ lay.style = "EM3_v2")
    (hp : 0 < lay.noise) (hr : lay.obs = "V" → 2 ≤ lay.sub_rounds) :
    ∃ d, lay.makeCircuit = .ok d ∧ ∀ guess, MinimumErrors d guess → ∃ n : Nat,
      (n : Int) = (if lay.obs = "V" then (lay.data_width + 3) / 4 else (lay.data_height + 5) / 6) ∧
      IsLeast {n : Nat | ∃ rec, CanSample n d.flatten rec ∧ guess (detectionBits d rec) ≠ observableBits d rec} n := by
  obtain ⟨d, hd, D, hD, ⟨r, h1, h2, h3⟩, -⟩ := c78_observable_distance_exact lay hv hs hst hp hr
  obtain ⟨d', hd', hc⟩ := c89_corrects lay hv hs
  obtain rfl := Except.ok.inj (hd.symm.trans hd')
  have hodd : D % 2 = 1 ∨ D % 2 = 0 := by omega
  refine ⟨d, hd, fun guess hg => ⟨(D + 1) / 2, by split_ifs at hD ⊢ <;> omega, ?_, ?_⟩⟩
  · rw [show D = (D + 1) / 2 + D / 2 by omega] at h1
    rcases uncorrected hv hs hd guess h1 h2 h3 with h | ⟨s, h4, h5⟩
    · exact h
    · rcases hodd with ho | ho
      · refine absurd (hc guess hg _ s h4 ?_) h5
        split_ifs at hD ⊢ <;> omega
      · rw [show D / 2 = (D + 1) / 2 by omega] at h4
        exact ⟨s, h4, h5⟩
  · rintro m ⟨rec, h4, h5⟩
    by_contra hm
    refine h5 (hc guess hg m rec h4 ?_)
    split_ifs at hD ⊢ <;> omega

/-- C90: for "V" it is exact in the styles with ancillas too: half of `data_width`, rounded up. -/
theorem c90_least_vertical (lay : HoneycombLayout) (hv : lay.Valid) (hs : lay.Supported) (hst : lay.style ∈ ["SD6", "PC3", "SI1000"])
    (hp : 0 < lay.noise) (hV : lay.obs = "V") :
    ∃ d, lay.makeCircuit = .ok d ∧ ∀ guess, MinimumErrors d guess → ∃ n : Nat, (n : Int) = (lay.data_width + 1) / 2 ∧
      IsLeast {n : Nat | ∃ rec, CanSample n d.flatten rec ∧ guess (detectionBits d rec) ≠ observableBits d rec} n := by
  obtain ⟨d, hd, D, hD, ⟨r, h1, h2, h3⟩, -⟩ := c85_vertical_exact lay hv hs hst hp hV
  obtain ⟨d', hd', hc⟩ := c89_corrects_ancillas lay hv hs hst
  obtain rfl := Except.ok.inj (hd.symm.trans hd')
  simp only [if_pos hV] at hc
  have e : lay.obsI = 0 := if_pos hV
  rw [← e] at h3
  refine ⟨d, hd, fun guess hg => ⟨(D + 1) / 2, by omega, ?_, ?_⟩⟩
  · rw [show D = (D + 1) / 2 + D / 2 by omega] at h1
    rcases uncorrected hv hs hd guess h1 h2 h3 with h | ⟨s, h4, h5⟩
    · exact h
    · by_cases ho : D / 2 = (D + 1) / 2
      · rw [ho] at h4
        exact ⟨s, h4, h5⟩
      · exact absurd (hc guess hg _ s h4 (by omega)) h5
  · rintro m ⟨rec, h4, h5⟩
    by_contra hm
    exact h5 (hc guess hg m rec h4 (by omega))

/-- C90: no decoder whatsoever, in the styles "EM3" and "EM3_v2", is correct for all samples with that few errors: some sample with at most
a quarter of `data_width` ("V"), a sixth of `data_height` ("H") errors, rounded up, is decoded wrongly. -/
theorem c90_no_decoder (lay : HoneycombLayout) (hv : lay.Valid) (hs : lay.Supported) (hst : lay.style = "EM3" ∨ lay.style = "EM3_v2")
    (hp : 0 < lay.noise) (hr : lay.obs = "V" → 2 ≤ lay.sub_rounds) :
    ∃ d, lay.makeCircuit = .ok d ∧ ∀ guess : List Bool → List Bool, ∃ (n : Nat) (rec : List (ZMod 2)),
      (n : Int) ≤ (if lay.obs = "V" then (lay.data_width + 3) / 4 else (lay.data_height + 5) / 6) ∧
      CanSample n d.flatten rec ∧ guess (detectionBits d rec) ≠ observableBits d rec := by
  obtain ⟨d, hd, D, hD, ⟨r, h1, h2, h3⟩, -⟩ := c78_observable_distance_exact lay hv hs hst hp hr
  refine ⟨d, hd, fun guess => ?_⟩
  rw [show D = (D + 1) / 2 + D / 2 by omega] at h1
  rcases uncorrected hv hs hd guess h1 h2 h3 with ⟨s, h4, h5⟩ | ⟨s, h4, h5⟩
  · exact ⟨_, s, by split_ifs at hD ⊢ <;> omega, h4, h5⟩
  · exact ⟨_, s, by split_ifs at hD ⊢ <;> omega, h4, h5⟩

/-- C90: in any style no decoder is correct for all samples with at most half of `data_width` ("V"), a third of `data_height` ("H") errors,
rounded up. -/
theorem c90_no_decoder_any_style (lay : HoneycombLayout) (hv : lay.Valid) (hs : lay.Supported) (hp : 0 < lay.noise) :
    ∃ d, lay.makeCircuit = .ok d ∧ ∀ guess : List Bool → List Bool, ∃ (n : Nat) (rec : List (ZMod 2)),
      (n : Int) ≤ (if lay.obs = "V" then (lay.data_width + 1) / 2 else (lay.data_height + 2) / 3) ∧
      CanSample n d.flatten rec ∧ guess (detectionBits d rec) ≠ observableBits d rec := by
  obtain ⟨d, hd, D, r, hD, h1, h2, h3⟩ := c77_undetected_flip lay hv hs hp
  refine ⟨d, hd, fun guess => ?_⟩
  rw [show D = (D + 1) / 2 + D / 2 by omega] at h1
  have h3' : observableValue lay.obsI d.flatten r ≠ some 0 := by rw [show observableValue lay.obsI d.flatten r = some 1 from h3]; decide
  rcases uncorrected hv hs hd guess h1 h2 h3' with ⟨s, h4, h5⟩ | ⟨s, h4, h5⟩
  · exact ⟨_, s, by split_ifs at hD ⊢ <;> omega, h4, h5⟩
  · exact ⟨_, s, by split_ifs at hD ⊢ <;> omega, h4, h5⟩

/-! ## Examples -/

/-- The hypotheses of C89, C90: an "EM3" circuit of width 8 for "V". One error is always corrected, two are not. -/
example : ∃ d guess, HoneycombLayout.makeCircuit ⟨8, 12, 40, "EM3", "V", 1/1000⟩ = .ok d ∧ MinimumErrors d guess ∧
    (∀ rec, CanSample 1 d.flatten rec → guess (detectionBits d rec) = observableBits d rec) ∧
    ∃ rec, CanSample 2 d.flatten rec ∧ guess (detectionBits d rec) ≠ observableBits d rec := by
  have hv : HoneycombLayout.Valid ⟨8, 12, 40, "EM3", "V", 1/1000⟩ := by constructor <;> decide
  have hs : HoneycombLayout.Supported ⟨8, 12, 40, "EM3", "V", 1/1000⟩ := by refine ⟨?_, ?_, ?_, ?_⟩ <;> simp
  obtain ⟨d, hd, h⟩ := c89_corrects _ hv hs
  obtain ⟨d', hd', h'⟩ := c90_least _ hv hs (.inl rfl) (by norm_num) (fun _ => by norm_num)
  obtain rfl := Except.ok.inj (hd.symm.trans hd')
  obtain ⟨guess, hg⟩ := c89_exists d
  obtain ⟨n, hn, h1, -⟩ := h' guess hg
  obtain rfl : n = 2 := by simp at hn; omega
  exact ⟨d, guess, hd, hg, fun rec hr => h guess hg 1 rec hr (by simp), h1⟩

/-- The hypotheses of C89, C90 in a style with ancillas: width 8 for "V", three errors are always corrected, four are not. -/
example : ∃ d guess, HoneycombLayout.makeCircuit ⟨8, 12, 40, "SD6", "V", 1/1000⟩ = .ok d ∧ MinimumErrors d guess ∧
    (∀ rec, CanSample 3 d.flatten rec → guess (detectionBits d rec) = observableBits d rec) ∧
    ∃ rec, CanSample 4 d.flatten rec ∧ guess (detectionBits d rec) ≠ observableBits d rec := by
  have hv : HoneycombLayout.Valid ⟨8, 12, 40, "SD6", "V", 1/1000⟩ := by constructor <;> decide
  have hs : HoneycombLayout.Supported ⟨8, 12, 40, "SD6", "V", 1/1000⟩ := by refine ⟨?_, ?_, ?_, ?_⟩ <;> simp
  obtain ⟨d, hd, h⟩ := c89_corrects_ancillas _ hv hs (by simp)
  obtain ⟨d', hd', h'⟩ := c90_least_vertical _ hv hs (by simp) (by norm_num) rfl
  obtain rfl := Except.ok.inj (hd.symm.trans hd')
  obtain ⟨guess, hg⟩ := c89_exists d
  obtain ⟨n, hn, h1, -⟩ := h' guess hg
  obtain rfl : n = 4 := by simp at hn; omega
  exact ⟨d, guess, hd, hg, fun rec hr => h guess hg 3 rec hr (by simp), h1⟩

end Honeycomb
