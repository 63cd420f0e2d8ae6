import Mathlib.Analysis.Convex.SpecificFunctions.Basic
import Verif.Lemmas.Sampling
import Verif.Lemmas.NoError
import Verif.Props.Correct
import Verif.Props.NoiseProb

/-!
# C109: how likely a logical error is

The probabilities are those of `Verif/Spec/Sampling.lean`. The probability that a minimum error decoder is wrong is at most the probability
bound of as many errors as it can correct, plus one: of the order `p ^ k`, where `k` grows with the size of the patch.
-/

namespace Honeycomb
open scoped ENNReal
open HoneycombLayout

/-- The number of places where an error can happen in a circuit. -/
def Circuit.errorPlaces (d : Circuit) : Nat := (d.flatten.map Instr.places).sum

/-- The largest probability of a single error: `noise`, except that measurements are wrong with probability `5 * noise` in SI1000. -/
def HoneycombLayout.worst (lay : HoneycombLayout) : Rat := if lay.style = "SI1000" then 5 * lay.noise else lay.noise

theorem mem_perStep {f : Nat → List Instr → List Instr} {P : Instr → Prop} : ∀ (c : Circuit) (a : Nat) (acc : List Instr), P .tick →
    (∀ a ops, (∀ i ∈ ops, i ∈ acc ∨ i ∈ c.ops) → ∀ i ∈ f a ops, P i) → ∀ i ∈ perStep f c a acc, P i
  | .nil, a, acc, _, h, i, hi => h a acc (fun i hi => .inl hi) i hi
  | .op j c, a, acc, ht, h, i, hi => by
    rw [perStep] at hi
    split_ifs at hi
    · rw [List.mem_append, List.mem_append, List.mem_singleton] at hi
      rcases hi with (hi | rfl) | hi
      · exact h a acc (fun i hi => .inl hi) i hi
      · exact ht
      · exact mem_perStep c a [] ht (fun a ops ho => h a ops fun i hi => (ho i hi).elim (by simp) fun h => .inr (by simp [Circuit.ops, h])) i hi
    · refine mem_perStep c a (acc ++ [j]) ht (fun a ops ho => h a ops fun i hi => ?_) i hi
      rcases ho i hi with h | h
      · rcases List.mem_append.1 h with h | h
        · exact .inl h
        · exact .inr (by simp [Circuit.ops, List.mem_singleton.1 h])
      · exact .inr (by simp [Circuit.ops, h])
  | .rep n b c, a, acc, ht, h, i, hi => by
    rw [perStep, List.mem_append, List.mem_append] at hi
    rcases hi with (hi | hi) | hi
    · exact h a acc (fun i hi => .inl hi) i hi
    · obtain ⟨l, hl, hi⟩ := List.mem_flatten.1 hi
      rw [List.eq_of_mem_replicate hl] at hi
      exact mem_perStep b _ [] ht (fun a ops ho => h a ops fun i hi => (ho i hi).elim (by simp) fun h => .inr (by simp [Circuit.ops, h])) i hi
    · exact mem_perStep c a [] ht (fun a ops ho => h a ops fun i hi => (ho i hi).elim (by simp) fun h => .inr (by simp [Circuit.ops, h])) i hi

theorem lit_chance {g : Gate} {ts : List Target} {p : Rat} : ({ gate := g, targets := ts, args := [.lit p] } : Instr).chance = ENNReal.ofReal p := rfl

/-- A correlated error of EM3_v2 is less likely than the whole mixture. -/
theorem mix_le {p : ℝ} (h0 : 0 ≤ p) (h1 : p ≤ 1) : mixToIndependent p 5 ≤ p := by
  have h : (1 - p) ^ (1 : ℝ) ≤ (1 - p) ^ (1 / (2 : ℝ) ^ ((5 : ℝ) - 1)) :=
    Real.rpow_le_rpow_of_exponent_ge' (by linarith) (by linarith) (by positivity) (by
      rw [show ((5 : ℝ) - 1) = (4 : ℕ) by norm_num, Real.rpow_natCast]; norm_num)
  rw [Real.rpow_one] at h
  rw [mixToIndependent]
  linarith

theorem mix_pos {p : ℝ} (h0 : 0 < p) (h1 : p ≤ 1) : 0 < mixToIndependent p 5 := by
  have h : (1 - p) ^ (1 / (2 : ℝ) ^ ((5 : ℝ) - 1)) < 1 := Real.rpow_lt_one (by linarith) (by linarith) (by positivity)
  rw [mixToIndependent]
  linarith

theorem mix_ge {p : ℝ} (h0 : 0 ≤ p) (h1 : p ≤ 1) : p / 32 ≤ mixToIndependent p 5 := by
  have e : (1 / (2 : ℝ) ^ ((5 : ℝ) - 1)) = 1 / 16 := by
    rw [show ((5 : ℝ) - 1) = (4 : ℕ) by norm_num, Real.rpow_natCast]; norm_num
  have h := rpow_one_add_le_one_add_mul_self (s := -p) (by linarith) (p := 1 / 16) (by norm_num) (by norm_num)
  rw [mixToIndependent, e]
  rw [← sub_eq_add_neg] at h
  linarith

theorem ofReal_rat_le {a b : Rat} (h0 : 0 < a) (h : a ≤ b ∧ b / 50 ≤ a) :
    0 < ENNReal.ofReal a ∧ ENNReal.ofReal a ≤ ENNReal.ofReal b ∧ ENNReal.ofReal (b / 50) ≤ ENNReal.ofReal a :=
  ⟨ENNReal.ofReal_pos.2 (by exact_mod_cast h0), ENNReal.ofReal_le_ofReal (by exact_mod_cast h.1),
    ENNReal.ofReal_le_ofReal (by have : ((b / 50 : Rat) : ℝ) ≤ a := by exact_mod_cast h.2
                                 push_cast at this; exact this)⟩

/-- Every error is possible, none is more likely than `worst`, and none is less likely than a fiftieth of it. -/
theorem chance_between {lay : HoneycombLayout} (hv : lay.Valid) (hs : lay.Supported) (hp : lay.noise ≤ 1) {d : Circuit} (hd : lay.makeCircuit = .ok d) :
    ∀ i ∈ d.flatten, 0 < i.places → 0 < i.chance ∧ i.chance ≤ ENNReal.ofReal lay.worst ∧ ENNReal.ofReal (lay.worst / 50) ≤ i.chance := by
  obtain ⟨N, hN⟩ := Int.eq_ofNat_of_zero_le (show 0 ≤ lay.sub_rounds by have := hs.2.2.1; omega)
  obtain ⟨c, nm, d', hc, hf, hsh, hg, hno, htk, hpm, hnorm, hnm, hpre, hacc, hd', hm⟩ := makeCircuit_ok hv hs hN
  obtain rfl := Except.ok.inj (hd.symm.trans hm)
  have hsh2 : c.Shape fun r _ => 2 ≤ r := Shape.mono (fun _ _ h => h.1) hsh
  have hclean : ∀ i ∈ c.ops, i.places = 0 := fun i hi => by
    rw [Instr.places]
    split_ifs with ha
    · rfl
    · rcases unflipped_closed N i (hf ▸ Circuit.ops_flatten hsh2 hi) with h | h
      · rw [h, channels_clean (hno i hi).1]; rfl
      · exact absurd h ha
  rw [noisyCircuit_tracked] at hd'
  rw [noisyCircuit_ok hd']
  -- the strengths of the noise models
  have hrate : ∀ g p, nm.rate g = some p → 0 < p → p ≤ lay.worst ∧ lay.worst / 50 ≤ p := by
    rcases hs.1 with h | h | h | h | h <;> simp [noise_model, h] at hnm <;> subst hnm <;> intro g p hg hp0 <;>
      (simp only [worst, h]; norm_num) <;> revert hg <;> cases g <;>
      simp [NoiseModel.rate, NoiseModel.SD6, NoiseModel.PC3, NoiseModel.EM3_v1, NoiseModel.EM3_v2, NoiseModel.SI1000, kind] <;>
      intro hg <;> constructor <;> linarith
  have hidle : (0 < nm.idle → nm.idle ≤ lay.worst ∧ lay.worst / 50 ≤ nm.idle) ∧
      (0 < nm.measure_reset_idle → nm.measure_reset_idle ≤ lay.worst ∧ lay.worst / 50 ≤ nm.measure_reset_idle) := by
    rcases hs.1 with h | h | h | h | h <;> simp [noise_model, h] at hnm <;> subst hnm <;>
      simp [worst, h, NoiseModel.SD6, NoiseModel.PC3, NoiseModel.EM3_v1, NoiseModel.EM3_v2, NoiseModel.SI1000] <;>
      (try constructor) <;> intros <;> (try constructor) <;> linarith
  have hcor : nm.use_correlated_parity_measurement_errors = true → nm.rate .MPP = some lay.noise ∧ lay.worst = lay.noise := by
    rcases hs.1 with h | h | h | h | h <;> simp [noise_model, h] at hnm <;> subst hnm <;>
      simp [worst, h, NoiseModel.SD6, NoiseModel.PC3, NoiseModel.EM3_v1, NoiseModel.EM3_v2, NoiseModel.SI1000, NoiseModel.rate]
  have hget : ∀ g, 0 < (nm.rate g).getD 0 → (nm.rate g).getD 0 ≤ lay.worst ∧ lay.worst / 50 ≤ (nm.rate g).getD 0 := fun g h => by
    cases hr : nm.rate g with
    | none => rw [hr] at h; simp at h
    | some p => rw [hr] at h; exact hrate g p hr h
  refine mem_perStep c _ [] (fun h => absurd h (by decide)) fun a ops ho i hi => ?_
  have ho' : ∀ i ∈ ops, i ∈ c.ops := fun i hi => (ho i hi).elim (by simp) id
  rw [stepOf, noisyOps] at hi
  simp only [List.mem_append, List.mem_flatMap] at hi
  intro hpl
  rcases hi with ((⟨j, hj, hi⟩ | ⟨j, hj, hi⟩) | ⟨j, hj, hi⟩) | hi
  · rw [noiseBefore] at hi
    by_cases h0 : (nm.rate j.gate).getD 0 ≤ 0
    · rw [if_pos h0] at hi; simp at hi
    · rw [if_neg h0] at hi
      have := ofReal_rat_le (not_le.1 h0) (hget _ (not_le.1 h0))
      cases hk : kind j.gate <;> simp only [hk] at hi <;> try split_ifs at hi
      all_goals first
        | (simp at hi; done)
        | (rw [List.mem_singleton] at hi; subst hi; exact this)
  · rw [noisyCore] at hi
    by_cases h0 : (nm.rate j.gate).getD 0 ≤ 0
    · rw [if_pos h0, List.mem_singleton] at hi
      subst hi
      exact absurd hpl (by rw [hclean i (ho' i hj)]; decide)
    · rw [if_neg h0] at hi
      have := ofReal_rat_le (not_le.1 h0) (hget _ (not_le.1 h0))
      by_cases hk : kind j.gate = .parity
      · have hmpp : j.gate = .MPP := by revert hk; cases j.gate <;> simp [kind]
        rw [hk] at hi
        simp only at hi
        split_ifs at hi with hu
        · obtain ⟨hr, hw⟩ := hcor hu
          rw [hmpp, hr] at hi h0
          simp only [Option.getD_some] at hi h0
          obtain ⟨x, -, hx⟩ := List.mem_flatMap.1 hi
          have key : ∀ b1 q1 b2 q2, i ∈ parityMeasurementWithCorrelatedNoise b1 q1 b2 q2 a lay.noise →
              0 < i.chance ∧ i.chance ≤ ENNReal.ofReal lay.worst ∧ ENNReal.ofReal (lay.worst / 50) ≤ i.chance := by
            intro b1 q1 b2 q2 h
            simp only [parityMeasurementWithCorrelatedNoise, List.mem_append, List.mem_cons, List.not_mem_nil, or_false, List.mem_map] at h
            rcases h with ((rfl | rfl | rfl) | ⟨e, -, rfl⟩) | rfl
            · exact absurd hpl (by simp [Instr.places, Instr.on])
            · exact absurd hpl (by simp [Instr.places, parityCX, Instr.on])
            · exact absurd hpl (by simp [Instr.places, parityCX, Instr.on])
            · rw [hw]
              have h0' : (0 : ℝ) < lay.noise := by exact_mod_cast not_le.1 h0
              have hp' : (lay.noise : ℝ) ≤ 1 := by exact_mod_cast hp
              have e : ({ gate := .E, targets := e, args := [.indep lay.noise 5] } : Instr).chance = ENNReal.ofReal (mixToIndependent lay.noise 5) := by
                simp [Instr.chance, Arg.chance]
              rw [e]
              exact ⟨ENNReal.ofReal_pos.2 (mix_pos h0' hp'), ENNReal.ofReal_le_ofReal (mix_le h0'.le hp'),
                ENNReal.ofReal_le_ofReal ((by linarith : (lay.noise : ℝ) / 50 ≤ lay.noise / 32).trans (mix_ge h0'.le hp'))⟩
            · exact absurd hpl (by simp [Instr.places, Instr.on])
          split at hx
          · exact key _ _ _ _ hx
          · simp at hx
        · rw [List.mem_singleton] at hi
          subst hi
          exact this
      · have : i = j := by
          cases hk' : kind j.gate <;> simp only [hk'] at hi
          all_goals first
            | exact absurd hk' hk
            | exact List.mem_singleton.1 hi
        subst this
        exact absurd hpl (by rw [hclean i (ho' i hj)]; decide)
  · rw [noiseAfter] at hi
    by_cases h0 : (nm.rate j.gate).getD 0 ≤ 0
    · rw [if_pos h0] at hi; simp at hi
    · rw [if_neg h0] at hi
      have := ofReal_rat_le (not_le.1 h0) (hget _ (not_le.1 h0))
      cases hk : kind j.gate <;> simp only [hk] at hi
      all_goals first
        | (simp at hi; done)
        | (rw [List.mem_singleton] at hi; subst hi; exact this)
  · rw [idleOf, NoiseModel.idleErrors] at hi
    simp only at hi
    rcases List.mem_append.1 hi with hi | hi <;> split_ifs at hi with h
    · rw [List.mem_singleton] at hi; subst hi; exact ofReal_rat_le h.2.2 (hidle.1 h.2.2)
    · simp at hi
    · rw [List.mem_singleton] at hi; subst hi; exact ofReal_rat_le h.2.2 (hidle.2 h.2.2)
    · simp at hi

/-- Every error is possible, and none is more likely than `worst`. -/
theorem chance_le {lay : HoneycombLayout} (hv : lay.Valid) (hs : lay.Supported) (hp : lay.noise ≤ 1) {d : Circuit} (hd : lay.makeCircuit = .ok d) :
    ∀ i ∈ d.flatten, 0 < i.places → 0 < i.chance ∧ i.chance ≤ ENNReal.ofReal lay.worst := fun i hi h =>
  ⟨(chance_between hv hs hp hd i hi h).1, (chance_between hv hs hp hd i hi h).2.1⟩

/-- C109: the logical error rate of a minimum error decoder. If `k` errors are needed to make it fail, the probability that it fails is at most
`errorPlaces.choose k * worst ^ k`: for a given circuit size, of the order `noise ^ k`. `k` is a quarter of `data_width` ("V"), a sixth of
`data_height` ("H"), rounded up. -/
theorem c109_suppressed (lay : HoneycombLayout) (hv : lay.Valid) (hs : lay.Supported) (hp : lay.noise ≤ 1) :
    ∃ d, lay.makeCircuit = .ok d ∧ ∀ guess, MinimumErrors d guess → ∀ F, StartFrame F → ∀ k : Nat,
      (k : Int) = (if lay.obs = "V" then (lay.data_width + 3) / 4 else (lay.data_height + 5) / 6) →
      recordProb d.flatten F {rec | guess (detectionBits d rec) ≠ observableBits d rec} ≤
        d.errorPlaces.choose k * ENNReal.ofReal lay.worst ^ k := by
  obtain ⟨d, hd, h⟩ := c89_corrects lay hv hs
  refine ⟨d, hd, fun guess hg F hF k hk => recordProb_le (fun i hi h => (chance_le hv hs hp hd i hi h).2) fun rec hrec G n hn => ?_⟩
  by_contra hlt
  refine hrec (h guess hg n rec ⟨F, G, hF, hn⟩ ?_)
  split_ifs at hk ⊢ <;> omega

/-- C109: in the styles with ancillas `k` is half of `data_width` ("V"), a quarter of `data_height` ("H"), rounded up. -/
theorem c109_suppressed_ancillas (lay : HoneycombLayout) (hv : lay.Valid) (hs : lay.Supported) (hp : lay.noise ≤ 1)
    (hst : lay.style ∈ ["SD6", "PC3", "SI1000"]) :
    ∃ d, lay.makeCircuit = .ok d ∧ ∀ guess, MinimumErrors d guess → ∀ F, StartFrame F → ∀ k : Nat,
      (k : Int) = (if lay.obs = "V" then (lay.data_width + 1) / 2 else (lay.data_height + 3) / 4) →
      recordProb d.flatten F {rec | guess (detectionBits d rec) ≠ observableBits d rec} ≤
        d.errorPlaces.choose k * ENNReal.ofReal lay.worst ^ k := by
  obtain ⟨d, hd, h⟩ := c89_corrects_ancillas lay hv hs hst
  refine ⟨d, hd, fun guess hg F hF k hk => recordProb_le (fun i hi h => (chance_le hv hs hp hd i hi h).2) fun rec hrec G n hn => ?_⟩
  by_contra hlt
  refine hrec (h guess hg n rec ⟨F, G, hF, hn⟩ ?_)
  split_ifs at hk ⊢ <;> omega

theorem recordProb_pos {l : List Instr} {F : Frame} {S : Set (List (ZMod 2))} : 0 < recordProb l F S ↔ ∃ x ∈ (sampleCircuit l F).support, x.1 ∈ S := by
  rw [recordProb, pos_iff_ne_zero, ne_eq, PMF.toOuterMeasure_apply_eq_zero_iff, Set.not_disjoint_iff]
  constructor
  · rintro ⟨r, hr, hS⟩
    obtain ⟨x, hx, rfl⟩ := (PMF.mem_support_map_iff _ _ _).1 hr
    exact ⟨x, hx, hS⟩
  · rintro ⟨x, hx, hS⟩
    exact ⟨x.1, (PMF.mem_support_map_iff _ _ _).2 ⟨x, hx, rfl⟩, hS⟩

/-- C109: the records that have a positive probability are those of the other properties (`CanSample`), if no probability reaches 1. -/
theorem c109_possible (lay : HoneycombLayout) (hv : lay.Valid) (hs : lay.Supported) (hp : lay.worst < 1) :
    ∃ d, lay.makeCircuit = .ok d ∧ ∀ rec, (∃ F, StartFrame F ∧ 0 < recordProb d.flatten F {rec}) ↔ ∃ n, CanSample n d.flatten rec := by
  obtain ⟨d, hd, -⟩ := c89_corrects lay hv hs
  have hp1 : lay.noise ≤ 1 := by
    rw [worst] at hp
    split_ifs at hp <;> linarith
  refine ⟨d, hd, fun rec => ⟨?_, ?_⟩⟩
  · rintro ⟨F, hF, h⟩
    obtain ⟨x, hx, hr⟩ := recordProb_pos.1 h
    obtain ⟨G, hG⟩ := sampleCircuit_runs _ hx
    rw [Set.mem_singleton_iff] at hr
    exact ⟨_, F, G, hF, hr ▸ hG⟩
  · rintro ⟨n, F, G, hF, hG⟩
    refine ⟨F, hF, recordProb_pos.2 ?_⟩
    obtain ⟨m, -, h⟩ := mem_sampleCircuit hG fun i hi h => by
      obtain ⟨h1, h2⟩ := chance_le hv hs hp1 hd i hi h
      refine ⟨h1, h2.trans_lt ?_⟩
      rw [← ENNReal.ofReal_one]
      exact (ENNReal.ofReal_lt_ofReal_iff one_pos).2 (by exact_mod_cast hp)
    exact ⟨_, h, rfl⟩

/-- C109: with noise, no decoder whatsoever has the logical error rate zero. -/
theorem c109_never_zero (lay : HoneycombLayout) (hv : lay.Valid) (hs : lay.Supported) (h0 : 0 < lay.noise) (hp : lay.worst < 1) :
    ∃ d, lay.makeCircuit = .ok d ∧ ∀ guess : List Bool → List Bool, ∃ F, StartFrame F ∧
      0 < recordProb d.flatten F {rec | guess (detectionBits d rec) ≠ observableBits d rec} := by
  obtain ⟨d, hd, h⟩ := c109_possible lay hv hs hp
  obtain ⟨d', hd', h'⟩ := c90_no_decoder_any_style lay hv hs h0
  obtain rfl := Except.ok.inj (hd.symm.trans hd')
  refine ⟨d, hd, fun guess => ?_⟩
  obtain ⟨n, rec, -, hn, hg⟩ := h' guess
  obtain ⟨F, hF, hpos⟩ := (h rec).2 ⟨n, hn⟩
  obtain ⟨x, hx, hr⟩ := recordProb_pos.1 hpos
  exact ⟨F, hF, recordProb_pos.2 ⟨x, hx, by rw [Set.mem_singleton_iff] at hr; rw [hr]; exact hg⟩⟩

/-- C109: without noise the logical error rate is zero. -/
theorem c109_zero (lay : HoneycombLayout) (hv : lay.Valid) (hs : lay.Supported) (h0 : lay.noise = 0) :
    ∃ d, lay.makeCircuit = .ok d ∧ ∀ guess, MinimumErrors d guess → ∀ F, StartFrame F →
      recordProb d.flatten F {rec | guess (detectionBits d rec) ≠ observableBits d rec} = 0 := by
  obtain ⟨d, hd, h⟩ := c109_suppressed lay hv hs (by rw [h0]; norm_num)
  refine ⟨d, hd, fun guess hg F hF => le_antisymm ?_ zero_le⟩
  have hwp := hv.width_pos
  have hhp := hv.height_pos
  have hk : 0 < (if lay.obs = "V" then (lay.data_width + 3) / 4 else (lay.data_height + 5) / 6) := by split_ifs <;> omega
  obtain ⟨k, hk'⟩ := Int.eq_ofNat_of_zero_le hk.le
  refine (h guess hg F hF k hk'.symm).trans ?_
  have : lay.worst = 0 := by rw [worst, h0]; simp
  rw [this]
  have hk0 : k ≠ 0 := by rintro rfl; rw [hk'] at hk; simp at hk
  simp [hk0]

/-! ## Example -/

/-- The hypotheses of C109: an "SD6" circuit of width 4 for "V". Two errors are needed, so the logical error rate is of the order of the square of
the noise, and not zero. -/
example : ∃ d, HoneycombLayout.makeCircuit ⟨4, 6, 12, "SD6", "V", 1/1000⟩ = .ok d ∧ ∀ guess, MinimumErrors d guess →
    (∀ F, StartFrame F → recordProb d.flatten F {rec | guess (detectionBits d rec) ≠ observableBits d rec} ≤
      d.errorPlaces.choose 2 * ENNReal.ofReal (1 / 1000 : Rat) ^ 2) ∧
    ∃ F, StartFrame F ∧ 0 < recordProb d.flatten F {rec | guess (detectionBits d rec) ≠ observableBits d rec} := by
  have hv : HoneycombLayout.Valid ⟨4, 6, 12, "SD6", "V", 1/1000⟩ := by constructor <;> decide
  have hs : HoneycombLayout.Supported ⟨4, 6, 12, "SD6", "V", 1/1000⟩ := by refine ⟨?_, ?_, ?_, ?_⟩ <;> simp
  obtain ⟨d, hd, h⟩ := c109_suppressed_ancillas _ hv hs (by norm_num) (by simp)
  obtain ⟨d', hd', h'⟩ := c109_never_zero _ hv hs (by norm_num) (by simp [worst]; norm_num)
  obtain rfl := Except.ok.inj (hd.symm.trans hd')
  refine ⟨d, hd, fun guess hg => ⟨fun F hF => ?_, h' guess⟩⟩
  have := h guess hg F hF 2 (by simp)
  simpa [worst] using this

end Honeycomb
