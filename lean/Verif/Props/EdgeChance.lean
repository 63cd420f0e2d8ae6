import Verif.Lemmas.ExistsAnalysis
import Verif.Props.MatchingThreshold

/-!
# C112: how likely the edges of the matching graph are

`AnalysisOf` (`Spec/Analysis.lean`) says where the probabilities of an error model come from: from the arguments of the noise channels of the circuit.
`ErrorModelOf`, `MinimumWeight`, `circuitDistance`: `Spec/ErrorModel.lean`; the probabilities of records are those of `Spec/Sampling.lean`.
-/

namespace Honeycomb
open scoped ENNReal
open HoneycombLayout

/-- C112: there is a number `c` such that for every patch and every number of sub-rounds the error probabilities of all edges of the matching graph are between
`worst / c` and `c * worst`, where `worst` is the largest probability of an error. -/
theorem c112_edges : ∃ c : ℝ, 1 ≤ c ∧ ∀ lay : HoneycombLayout, lay.Valid → lay.Supported → 0 < lay.noise → lay.worst ≤ 1 / 2 → 2 < lay.circuitDistance →
    ∃ d, lay.makeCircuit = .ok d ∧ ∀ m lines, AnalysisOf d m lines → ∃ g, demToNxGraph m = .ok g ∧
      ∀ u v data, g.edge? u v = some data → ∃ P : Rat, data.error_probability = some P ∧ lay.worst / c ≤ (P : ℝ) ∧ (P : ℝ) ≤ c * lay.worst := by
  obtain ⟨r, hr⟩ : ∃ r : Nat, r = 48 := ⟨_, rfl⟩
  obtain ⟨Δ, hΔ⟩ : ∃ Δ : Nat, Δ = 2 * ((2 * r + 1) ^ 2 * 25920) := ⟨_, rfl⟩
  refine ⟨5000 + 15 * Δ, by have : (0 : ℝ) ≤ Δ := by positivity
                            linarith, fun lay hv hs hp0 hw hD => ?_⟩
  obtain ⟨d, hd, h⟩ := c104_graph lay hv hs hp0 hD
  refine ⟨d, hd, fun m lines hA => ?_⟩
  obtain ⟨hG, g, hg, -⟩ := h m hA.toErrorModelOf
  refine ⟨g, hg, fun u v data hdata => ?_⟩
  have hp : lay.noise ≤ 1 := by
    rw [worst] at hw
    split_ifs at hw <;> linarith
  have hw0 : 0 < lay.worst := by rw [worst]; split_ifs <;> linarith
  have hw0' : (0 : ℝ) < lay.worst := by exact_mod_cast hw0
  obtain ⟨P, e1, e2, e3, -⟩ := edge_probability hG hg hdata
  obtain ⟨b1, b2⟩ := between_probability hv hs hp0 hp hd hA hw hr hΔ e3
  rw [← e2] at b1 b2
  have hΔ0 : (0 : ℝ) ≤ Δ := by positivity
  refine ⟨P, e1, ?_, ?_⟩
  · have h1 : ((lay.worst / 5000 : Rat) : ℝ) ≤ P := by exact_mod_cast b1
    push_cast at h1
    refine le_trans (div_le_div_of_nonneg_left hw0'.le (by norm_num) ?_) h1
    linarith
  · have h1 : (P : ℝ) ≤ ((15 * Δ * lay.worst : Rat) : ℝ) := by exact_mod_cast b2
    push_cast at h1
    exact h1.trans (mul_le_mul_of_nonneg_right (by linarith) hw0'.le)

/-- C112: there is a number `K` such that in the matching graph of every patch and every number of sub-rounds no detector has more than `K` neighbours. -/
theorem c112_degree : ∃ K : Nat, ∀ lay : HoneycombLayout, lay.Valid → lay.Supported → 0 < lay.noise → 2 < lay.circuitDistance →
    ∃ d, lay.makeCircuit = .ok d ∧ ∀ m, ErrorModelOf d m → ∃ g, demToNxGraph m = .ok g ∧
      ∀ u < d.num_detectors, ∀ vs : Finset Nat, (∀ v ∈ vs, ∃ data, g.edge? u v = some data) → vs.card ≤ K := by
  classical
  obtain ⟨r, hr⟩ : ∃ r : Nat, r = 48 := ⟨_, rfl⟩
  obtain ⟨Δ, hΔ⟩ : ∃ Δ : Nat, Δ = 2 * ((2 * r + 1) ^ 2 * 25920) := ⟨_, rfl⟩
  refine ⟨Δ * 15, fun lay hv hs hp0 hD => ?_⟩
  obtain ⟨N, hN⟩ := Int.eq_ofNat_of_zero_le (show 0 ≤ lay.sub_rounds by have := hs.2.2.1; omega)
  obtain ⟨d, hd, h⟩ := c104_graph lay hv hs hp0 hD
  refine ⟨d, hd, fun m hm => ?_⟩
  obtain ⟨hG, g, hg, -⟩ := h m hm
  refine ⟨g, hg, fun u hu vs hvs => ?_⟩
  -- the error behind an edge
  have hedge : ∀ v : {v // v ∈ vs}, ∃ a P rec, SampleAt d.flatten [a] rec ∧ HitBy d a P rec ∧
      ∀ x, fired d.flatten rec x = 1 ↔ (x = u ∨ x = v.1) ∧ x ≠ d.num_detectors := fun v => by
    obtain ⟨data, hdata⟩ := hvs v.1 v.2
    obtain ⟨P, -, -, hne, -⟩ := edge_probability hG hg hdata
    obtain ⟨e, he⟩ := List.exists_mem_of_ne_nil _ hne
    obtain ⟨he, hc⟩ := List.mem_filter.1 he
    have hc := of_decide_eq_true hc
    obtain ⟨rec, h1, h2, -⟩ := hm.sound e he hc.1
    have hlt : ∀ x ∈ e.dets, x < m.num_detectors := fun x hx => by
      have := (h2 x).1 hx
      rw [hm.detectors]
      by_contra hge
      rw [List.getElem?_eq_none (by rw [detectionBits_length]; omega)] at this
      cases this
    obtain ⟨H, hH, h1⟩ := h1.at
    obtain ⟨a, rfl⟩ := List.length_eq_one_iff.1 hH
    obtain ⟨P, hP⟩ := h1.hitBy
    refine ⟨a, P, rec, h1, hP, fun x => ?_⟩
    rw [fired_one, ← h2, connects_mem hlt hc.2, hm.detectors]
  choose place err rec c1 c2 c3 using hedge
  obtain ⟨X, hX, hXm⟩ := firing_places hv hs hN hd hr hΔ u
  choose few f1 f2 using hits_few d.flatten
  have hself : ∀ v : {v // v ∈ vs}, v.1 ≠ u := fun v hvu => by
    obtain ⟨data, hdata⟩ := hvs v.1 v.2
    obtain ⟨P, -, -, hne, -⟩ := edge_probability hG hg hdata
    obtain ⟨e, he⟩ := List.exists_mem_of_ne_nil _ hne
    obtain ⟨he, hc⟩ := List.mem_filter.1 he
    have hc := of_decide_eq_true hc
    have hnd := (hm.two e he hc.1).1
    rw [hvu] at hc
    rw [← hm.detectors] at hu
    rcases hc.2 with h1 | h1 | ⟨-, h1⟩ | ⟨-, h1⟩
    · rw [h1] at hnd; simp at hnd
    · rw [h1] at hnd; simp at hnd
    · omega
    · omega
  set code : {v // v ∈ vs} → Nat × Frame := fun v => (place v, err v) with hcode
  have hinj : Function.Injective code := fun v v' hvv => by
    obtain ⟨h1, h2⟩ := Prod.mk.inj hvv
    have hb := c2 v
    rw [h1, h2] at hb
    have hf := hb.fired_eq hv hs hd (c2 v') (c1 v).sample (c1 v').sample
    have key : ∀ x, (x = u ∨ x = v.1) ∧ x ≠ d.num_detectors ↔ (x = u ∨ x = v'.1) ∧ x ≠ d.num_detectors := fun x => by rw [← c3, ← c3, hf]
    refine Subtype.ext ?_
    by_contra hne
    by_cases hvn : v.1 = d.num_detectors
    · have := (key v'.1).2 ⟨.inr rfl, fun e => hne (hvn.trans e.symm)⟩
      rcases this.1 with h | h
      · exact hself v' h
      · exact hne h.symm
    · have := (key v.1).1 ⟨.inr rfl, hvn⟩
      rcases this.1 with h | h
      · exact hself v h
      · exact hne h
  have hmaps : ∀ v ∈ (Finset.univ : Finset {v // v ∈ vs}), code v ∈ X.biUnion fun a => (few a).image fun P => (a, P) := fun v _ => by
    refine Finset.mem_biUnion.2 ⟨place v, hXm _ (rec v) (c1 v) ?_, Finset.mem_image_of_mem _ ?_⟩
    · rw [(c3 v u).2 ⟨.inl rfl, by omega⟩]
      decide
    · obtain ⟨F, F', -, h⟩ := c2 v
      exact f2 _ _ _ _ _ h
  have hcard := Finset.card_le_card_of_injOn code hmaps hinj.injOn
  rw [Finset.card_univ, Fintype.card_coe] at hcard
  refine hcard.trans (Finset.card_biUnion_le.trans ?_)
  calc ∑ a ∈ X, ((few a).image fun P => (a, P)).card ≤ ∑ _a ∈ X, 15 := Finset.sum_le_sum fun a _ => Finset.card_image_le.trans (f1 a)
    _ = X.card * 15 := by rw [Finset.sum_const, smul_eq_mul]
    _ ≤ Δ * 15 := Nat.mul_le_mul hX le_rfl

/-- C112: the threshold of minimum weight matching in the graph of an error model whose probabilities come from the circuit. There are a noise strength `p₀` and
numbers `A` and `C` such that for every patch and every number of sub-rounds, if the largest error probability `worst` is at most half of `p₀`, the probability that
decoding with a matching of least weight fails is at most `C * sub_rounds * num_qubits * (worst / p₀) ^ k`, where `k` is the part `1 / A` of `circuitDistance`. -/
theorem c112_threshold : ∃ p₀ : ℝ, 0 < p₀ ∧ ∃ A C : Nat, 0 < A ∧ ∀ lay : HoneycombLayout, lay.Valid → lay.Supported →
    0 < lay.noise → 2 * (lay.worst : ℝ) ≤ p₀ → 2 < lay.circuitDistance →
    ∃ d, lay.makeCircuit = .ok d ∧ ∀ m lines, AnalysisOf d m lines → ∃ g, demToNxGraph m = .ok g ∧
      ∀ matching, MinimumWeight g d.num_detectors d.num_observables matching → ∀ F, StartFrame F → ∀ k : Nat, (k * A : Int) ≤ lay.circuitDistance →
        recordProb d.flatten F {rec | matching (detectionBits d rec) ≠ observableBits d rec} ≤
          C * lay.sub_rounds.toNat * lay.num_qubits.toNat * ENNReal.ofReal (lay.worst / p₀) ^ k := by
  obtain ⟨c, hc, he⟩ := c112_edges
  obtain ⟨p₀, hp₀, A, C, hA, h⟩ := c111_probabilities c hc
  refine ⟨min p₀ 1, by positivity, A, C, hA, fun lay hv hs hp0 hw hD => ?_⟩
  have hw0' : (0 : ℝ) < lay.worst := by
    have hw0 : 0 < lay.worst := by rw [worst]; split_ifs <;> linarith
    exact_mod_cast hw0
  have hw2 : lay.worst ≤ 1 / 2 := by
    have h1 : 2 * (lay.worst : ℝ) ≤ 1 := hw.trans (min_le_right _ _)
    have h2 : (lay.worst : ℝ) ≤ ((1 / 2 : Rat) : ℝ) := by push_cast; linarith
    exact_mod_cast h2
  obtain ⟨d, hd, h⟩ := h lay hv hs hp0 (hw.trans (min_le_left _ _)) hD
  obtain ⟨d', hd', he⟩ := he lay hv hs hp0 hw2 hD
  obtain rfl := Except.ok.inj (hd.symm.trans hd')
  refine ⟨d, hd, fun m lines hL => ?_⟩
  obtain ⟨g, hg, h⟩ := h m hL.toErrorModelOf
  obtain ⟨g', hg', he⟩ := he m lines hL
  obtain rfl := Except.ok.inj (hg.symm.trans hg')
  refine ⟨g, hg, fun matching hmin F hF k hk => (h he matching hmin F hF k hk).trans ?_⟩
  refine mul_le_mul_right (pow_le_pow_left' (ENNReal.ofReal_le_ofReal ?_) _) _
  exact div_le_div_of_nonneg_left hw0'.le (by positivity) (min_le_left _ _)

/-- C112: below the threshold large patches are reliable: for every polynomial there is a size (`data_width` for "V", `data_height` for "H") from which on the
probability of a wrong prediction is as small as one likes, if the number of qubits times the number of sub-rounds is at most this polynomial of the size. -/
theorem c112_reliable : ∃ p₀ : ℝ, 0 < p₀ ∧ ∀ (e : Nat) (ε : ℝ), 0 < ε → ∃ L : Int, ∀ lay : HoneycombLayout, lay.Valid → lay.Supported →
    0 < lay.noise → lay.worst ≤ p₀ → ∀ size, size = (if lay.obs = "V" then lay.data_width else lay.data_height) → L ≤ size → lay.sub_rounds * lay.num_qubits ≤ size ^ e →
    ∃ d, lay.makeCircuit = .ok d ∧ ∀ m lines, AnalysisOf d m lines → ∃ g, demToNxGraph m = .ok g ∧
      ∀ matching, MinimumWeight g d.num_detectors d.num_observables matching → ∀ F, StartFrame F →
        recordProb d.flatten F {rec | matching (detectionBits d rec) ≠ observableBits d rec} ≤ ENNReal.ofReal ε := by
  obtain ⟨c, hc, he⟩ := c112_edges
  obtain ⟨p₀, hp₀, h⟩ := c111_reliable c hc
  refine ⟨min p₀ (1 / 2), by positivity, fun e ε hε => ?_⟩
  obtain ⟨L, h⟩ := h e ε hε
  refine ⟨max L 9, fun lay hv hs hp0 hw size hsize hL hpoly => ?_⟩
  have hwp := hv.width_pos
  have hhp := hv.height_pos
  have hdist : lay.circuitDistance * 3 + 2 ≥ size := by
    rw [circuitDistance, hsize]
    split_ifs <;> omega
  have hD : 2 < lay.circuitDistance := by omega
  have hw2 : lay.worst ≤ 1 / 2 := by
    have h2 : (lay.worst : ℝ) ≤ ((1 / 2 : Rat) : ℝ) := by push_cast; exact hw.trans (min_le_right _ _)
    exact_mod_cast h2
  obtain ⟨d, hd, h⟩ := h lay hv hs hp0 (hw.trans (min_le_left _ _)) size hsize (by omega) hpoly
  obtain ⟨d', hd', he⟩ := he lay hv hs hp0 hw2 hD
  obtain rfl := Except.ok.inj (hd.symm.trans hd')
  refine ⟨d, hd, fun m lines hA => ?_⟩
  obtain ⟨g, hg, h⟩ := h m hA.toErrorModelOf
  obtain ⟨g', hg', he⟩ := he m lines hA
  obtain rfl := Except.ok.inj (hg.symm.trans hg')
  exact ⟨g, hg, fun matching hmin F hF => h he matching hmin F hF⟩

/-- C112: every circuit has such an error model, and every detector is in one of its lines. -/
theorem c112_exists (lay : HoneycombLayout) (hv : lay.Valid) (hs : lay.Supported) (hp0 : 0 < lay.noise) (hp : lay.worst < 1) :
    ∃ d, lay.makeCircuit = .ok d ∧ ∃ m lines, AnalysisOf d m lines ∧ ∀ x < d.num_detectors, ∃ line ∈ lines, x ∈ line.dets := by
  obtain ⟨N, hN⟩ := Int.eq_ofNat_of_zero_le (show 0 ≤ lay.sub_rounds by have := hs.2.2.1; omega)
  obtain ⟨_, _, d, _, _, _, _, _, _, _, _, _, _, _, _, hd⟩ := makeCircuit_ok hv hs hN
  exact ⟨d, hd, exists_analysis hv hs hp0 hp hd⟩

/-- Arbitrarily large patches of arbitrarily small noise, with an error model, its graph and a matching decoder, satisfy the hypotheses. -/
example (p₀ : ℝ) (h : 0 < p₀) (n : Nat) (style : String) (hst : style ∈ ["SD6", "PC3", "SI1000", "EM3", "EM3_v2"]) : ∃ lay : HoneycombLayout, lay.style = style ∧
    lay.Valid ∧ lay.Supported ∧ 0 < lay.noise ∧ 2 * (lay.worst : ℝ) ≤ p₀ ∧ lay.worst ≤ 1 / 2 ∧ n ≤ lay.circuitDistance ∧ 2 < lay.circuitDistance ∧
    ∃ d m lines g matching F, lay.makeCircuit = .ok d ∧ AnalysisOf d m lines ∧ lines ≠ [] ∧ demToNxGraph m = .ok g ∧
      MinimumWeight g d.num_detectors d.num_observables matching ∧ StartFrame F := by
  obtain ⟨p, h1, h2⟩ := exists_rat_btwn (show (0 : ℝ) < min (p₀ / 20) (1 / 20) by positivity)
  have hp0 : 0 < p := by exact_mod_cast h1
  have hpp : (p : ℝ) ≤ p₀ / 20 := h2.le.trans (min_le_left _ _)
  have hp1 : p ≤ 1 / 20 := by
    have : (p : ℝ) ≤ ((1 / 20 : Rat) : ℝ) := by push_cast; exact h2.le.trans (min_le_right _ _)
    exact_mod_cast this
  set lay : HoneycombLayout := ⟨6 * (n + 1), 6 * (n + 1), 6 * (n + 1), style, "V", p⟩ with hlay
  have hv : lay.Valid := by constructor <;> simp only [hlay] <;> omega
  have hs : lay.Supported := by
    refine ⟨?_, by simp [hlay], by simp only [hlay]; omega, ?_⟩
    · simp only [hlay]
      simp only [List.mem_cons, List.not_mem_nil, or_false] at hst ⊢
      tauto
    · simp only [hlay]
      omega
  have hD : 3 * ((n : Int) + 1) ≤ lay.circuitDistance := by
    simp only [circuitDistance, hlay, data_width]
    split_ifs <;> omega
  have hD2 : 2 < lay.circuitDistance := by omega
  have hw : lay.worst ≤ 5 * p ∧ p ≤ lay.worst := by
    rw [worst]
    simp only [hlay]
    split_ifs <;> constructor <;> linarith
  have hw' : (lay.worst : ℝ) ≤ 5 * p := by exact_mod_cast hw.1
  obtain ⟨d, hd, m, lines, hA, hcov⟩ := c112_exists lay hv hs hp0 (by linarith [hw.1])
  obtain ⟨d', hd', hg⟩ := c104_graph lay hv hs hp0 hD2
  obtain rfl := Except.ok.inj (hd.symm.trans hd')
  obtain ⟨-, g, hg, -⟩ := hg m hA.toErrorModelOf
  obtain ⟨matching, hmin⟩ := exists_minimumWeight g d.num_detectors d.num_observables
  refine ⟨lay, rfl, hv, hs, hp0, by linarith, by linarith [hw.1], by omega, hD2, d, m, lines, g, matching, 0, hd, hA, ?_, hg, hmin, fun q => rfl⟩
  rintro rfl
  obtain ⟨d', hd', hn⟩ := c22_detectors lay hv hs
  obtain rfl := Except.ok.inj (hd.symm.trans hd')
  obtain ⟨l, hl, -⟩ := hcov 0 (by
    have : 0 < (d.num_detectors : Int) := by
      rw [hn]
      have h6 : 6 ≤ lay.data_width * lay.data_height := by
        simp only [hlay, data_width, data_height]
        nlinarith [Int.natCast_nonneg n]
      refine mul_pos (by omega) ?_
      simp only [hlay]
      split_ifs <;> omega
    omega)
  simp at hl

end Honeycomb
