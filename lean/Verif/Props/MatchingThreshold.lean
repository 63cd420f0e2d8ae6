import Verif.Lemmas.MatchingWalk
import Verif.Lemmas.SimpleModel
import Verif.Lemmas.UnionWalks
import Verif.Props.Threshold

/-!
# C111: the threshold of minimum weight matching

Decoding matches the detection events in the graph that `detector_error_model_to_nx_graph` makes of the error model. What a single error does, a bounded number of
edges of this graph does, so a matching of least weight has a threshold too. `ErrorModelOf`, `MinimumWeight`, `Explains`, `circuitDistance`: `Spec/ErrorModel.lean`;
the probabilities are those of `Spec/Sampling.lean`.
-/

namespace Honeycomb
open scoped ENNReal
open HoneycombLayout

/-- C111: there is a number `K` such that whatever a single error of the noise channels does, at most `K` single errors firing at most two detectors each do. -/
theorem c111_parts : ∃ K : Nat, ∀ lay : HoneycombLayout, lay.Valid → lay.Supported → 0 < lay.noise →
    ∃ d, lay.makeCircuit = .ok d ∧ ∀ rec, CanSample 1 d.flatten rec →
      ∃ recs : List (List (ZMod 2)), recs.length ≤ K ∧
        (∀ r ∈ recs, CanSample 1 d.flatten r ∧ (detectorValues d.flatten r).count (some 1) ≤ 2) ∧
        (∀ i < (detectorValues d.flatten rec).length,
          (detectorValues d.flatten rec)[i]? = some (sumValues (recs.map fun r => (detectorValues d.flatten r).getD i none))) ∧
        observableValue (if lay.obs = "V" then 0 else 1) d.flatten rec =
          sumValues (recs.map (observableValue (if lay.obs = "V" then 0 else 1) d.flatten)) := by
  refine ⟨20000, fun lay hv hs hp => ?_⟩
  obtain ⟨N, hN⟩ := Int.eq_ofNat_of_zero_le (show 0 ≤ lay.sub_rounds by have := hs.2.2.1; omega)
  obtain ⟨_, _, d, _, _, _, _, _, _, _, _, _, _, _, _, hd⟩ := makeCircuit_ok hv hs hN
  exact ⟨d, hd, fun rec h => single_parts hv hs hN hp hd h⟩

/-- C111: there is a number `K` such that whatever `n` errors of the noise channels do, at most `K * n` edges of the matching graph do. -/
theorem c111_edges : ∃ K : Nat, ∀ lay : HoneycombLayout, lay.Valid → lay.Supported → 0 < lay.noise → 2 < lay.circuitDistance →
    ∃ d, lay.makeCircuit = .ok d ∧ ∀ m, ErrorModelOf d m → ∃ g, demToNxGraph m = .ok g ∧ ∀ n rec, CanSample n d.flatten rec →
      ∃ T, g.HasEdges T ∧ T.card ≤ K * n ∧ Explains d.num_detectors T (detectionBits d rec) ∧ g.predicts d.num_observables T = observableBits d rec := by
  refine ⟨20000, fun lay hv hs hp hD => ?_⟩
  obtain ⟨d, hd, h⟩ := c104_graph lay hv hs hp hD
  refine ⟨d, hd, fun m hm => ?_⟩
  obtain ⟨-, g, hg, -⟩ := h m hm
  refine ⟨g, hg, fun n rec hrec => ?_⟩
  obtain ⟨H, rfl, h1⟩ := hrec.at
  obtain ⟨rs, e1, e2, e3⟩ := h1.parts hv hs hd
  obtain ⟨T, t1, t2, t3, t4⟩ := few_edges hv hs hp hd hm hD hg rs (fun i => (e1 i).sample) Finset.univ
  rw [Finset.card_univ, Fintype.card_fin] at t2
  refine ⟨T, t1, t2, explains_fired.2 fun x hx => by rw [t3 x hx, e2], ?_⟩
  obtain ⟨r2, h1, -, h3⟩ := edges_sample hv hs hd hm hD hg t1
  rw [h3, sameObservables hv hs hd h1 hrec, ← obsValue_zero hv hs hd (h1.sum hrec), obsValue_add hv hs hd h1 hrec, ← predicts_value hv hs hd h1 h3, t4, e3]
  exact CharTwo.add_self_eq_zero _

theorem matching_core {lay : HoneycombLayout} {N : Nat} (hv : lay.Valid) (hs : lay.Supported) (hN : lay.sub_rounds = N) (hp0 : 0 < lay.noise)
    {d : Circuit} (hd : lay.makeCircuit = .ok d) (hp : lay.noise ≤ 1) {r Δ : Nat} (hr : r = 48) (hΔ : Δ = 2 * ((2 * r + 1) ^ 2 * 25920))
    {m : Dem} (hm : ErrorModelOf d m) (hD2 : 2 < lay.circuitDistance) {g : NxGraph} (hg : demToNxGraph m = .ok g) {w ρ : ℝ} (hw : 0 < w) (hρ : 0 ≤ ρ)
    (hwt : ∀ u v data, g.edge? u v = some data → w ≤ data.weight ∧ data.weight ≤ ρ * w) {A : Nat} (hA : 1 + 20000 * ρ ≤ A)
    {matching : List Bool → List Bool} (hmin : MinimumWeight g d.num_detectors d.num_observables matching) {F : Frame} (hF : StartFrame F)
    {D : Nat} (hdist : D ≤ lay.circuitDistance) (hy : (2 * Δ : ℝ≥0∞) ^ (2 * A) * ENNReal.ofReal lay.worst ≤ 1 / 2) :
    recordProb d.flatten F {rec | matching (detectionBits d rec) ≠ observableBits d rec} ≤
      4 * A * (d.flatten.map Instr.slots).sum * ((2 * Δ : ℝ≥0∞) ^ (2 * A) * ENNReal.ofReal lay.worst) ^ (D / A) := by
  classical
  have hA0 : 0 < A := by
    have : (0 : ℝ) < A := by linarith
    exact_mod_cast this
  rw [recordProb, PMF.toOuterMeasure_map_apply]
  refine union_walks_of (nb := fun a => (Finset.range (d.flatten.map Instr.slots).sum).filter fun b => Share d.flatten a b)
    (cover_circuit _ F fun i hi h => (chance_le hv hs hp hd i hi h).2) (by rw [hΔ]; exact Nat.mul_pos two_pos (Nat.mul_pos (by positivity) (by norm_num))) hA0
    (fun a => hΔ ▸ share_bound hv hs hN hd hr a _) hy fun x hx hsup => ?_
  obtain ⟨G, hG⟩ := sampleCircuit_placed _ hsup
  obtain ⟨c, hc, w, h1, h2, h3, h4, h5⟩ := matching_walk hv hs hp0 hd hm hD2 hg hw hρ hwt hA hmin (D := D) (fun n rec h1 h2 h3 => by
      have := circuitDistance_le hv hs hd h1 h2 h3
      omega) (R := Share d.flatten) (fun a b h => h.symm)
    (fun a b ra rb j ha hb h h' => ⟨ra, rb, j, ha, hb, h, h'⟩) (trues_nodup x.2) ⟨F, G, hF, hG⟩ hx
  refine ⟨c, hc, w, ?_, h2, h3, fun a ha => mem_trues.1 (h4 a ha), h5⟩
  refine List.IsChain.imp_of_mem_imp (fun a b ha hb h => ?_) h1
  exact Finset.mem_filter.2 ⟨Finset.mem_range.2 (h3 b hb), h⟩

/-- C111: the threshold of minimum weight matching. For every ratio `ρ` there are a noise strength `p₀` and numbers `A` and `C` such that for every patch and every
number of sub-rounds, if the largest error probability `worst` is at most half of `p₀`, and the largest weight of the matching graph is at most `ρ` times the
smallest, the probability that decoding with a matching of least weight fails is at most `C * sub_rounds * num_qubits * (worst / p₀) ^ k`, where `k` is the part
`1 / A` of `circuitDistance`. -/
theorem c111_threshold (ρ : ℝ) (hρ : 0 ≤ ρ) : ∃ p₀ : ℝ, 0 < p₀ ∧ ∃ A C : Nat, 0 < A ∧ ∀ lay : HoneycombLayout, lay.Valid → lay.Supported →
    0 < lay.noise → 2 * (lay.worst : ℝ) ≤ p₀ → 2 < lay.circuitDistance →
    ∃ d, lay.makeCircuit = .ok d ∧ ∀ m, ErrorModelOf d m → ∃ g, demToNxGraph m = .ok g ∧
      ∀ w : ℝ, 0 < w → (∀ u v data, g.edge? u v = some data → w ≤ data.weight ∧ data.weight ≤ ρ * w) →
      ∀ matching, MinimumWeight g d.num_detectors d.num_observables matching → ∀ F, StartFrame F → ∀ k : Nat, (k * A : Int) ≤ lay.circuitDistance →
        recordProb d.flatten F {rec | matching (detectionBits d rec) ≠ observableBits d rec} ≤
          C * lay.sub_rounds.toNat * lay.num_qubits.toNat * ENNReal.ofReal (lay.worst / p₀) ^ k := by
  obtain ⟨r, hr⟩ : ∃ r : Nat, r = 48 := ⟨_, rfl⟩
  obtain ⟨Δ, hΔ⟩ : ∃ Δ : Nat, Δ = 2 * ((2 * r + 1) ^ 2 * 25920) := ⟨_, rfl⟩
  obtain ⟨A, hA⟩ := exists_nat_ge (1 + 20000 * ρ)
  have hA0 : 0 < A := by
    have : (0 : ℝ) < A := by linarith
    exact_mod_cast this
  have hΔ1 : (1 : ℝ) ≤ Δ := by
    have : 1 ≤ Δ := by rw [hΔ]; exact Nat.mul_pos two_pos (Nat.mul_pos (by positivity) (by norm_num))
    exact_mod_cast this
  have hK : (1 : ℝ) ≤ (2 * Δ : ℝ) ^ (2 * A) := one_le_pow₀ (by linarith)
  refine ⟨1 / (2 * Δ : ℝ) ^ (2 * A), by positivity, A, 12960 * A, hA0, fun lay hv hs hp0 hw hD => ?_⟩
  obtain ⟨N, hN⟩ := Int.eq_ofNat_of_zero_le (show 0 ≤ lay.sub_rounds by have := hs.2.2.1; omega)
  obtain ⟨d, hd, h⟩ := c104_graph lay hv hs hp0 hD
  have hp : lay.noise ≤ 1 := by
    have h1 : (2 * lay.worst : ℝ) ≤ 1 := hw.trans ((div_le_one (by positivity)).2 hK)
    have h2 : 2 * lay.worst ≤ 1 := by exact_mod_cast h1
    rw [worst] at h2
    split_ifs at h2 <;> linarith
  have e : (2 * Δ : ℝ≥0∞) ^ (2 * A) * ENNReal.ofReal lay.worst = ENNReal.ofReal (lay.worst / (1 / (2 * Δ : ℝ) ^ (2 * A))) := by
    rw [div_div_eq_mul_div, div_one, mul_comm (lay.worst : ℝ), ENNReal.ofReal_mul (by positivity), ENNReal.ofReal_pow (by positivity), ENNReal.ofReal_mul two_pos.le,
      ENNReal.ofReal_natCast, ENNReal.ofReal_ofNat]
  refine ⟨d, hd, fun m hm => ?_⟩
  obtain ⟨-, g, hg, -⟩ := h m hm
  refine ⟨g, hg, fun w hw0 hwt matching hmin F hF k hk => ?_⟩
  have hy : (2 * Δ : ℝ≥0∞) ^ (2 * A) * ENNReal.ofReal lay.worst ≤ 1 / 2 := by
    rw [e, show (1 / 2 : ℝ≥0∞) = ENNReal.ofReal (1 / 2) by rw [ENNReal.ofReal_div_of_pos two_pos]; simp]
    refine ENNReal.ofReal_le_ofReal ?_
    rw [div_le_iff₀ (by positivity)]
    linarith
  have hmain := matching_core hv hs hN hp0 hd hp hr hΔ hm hD hg hw0 hρ hwt hA hmin hF (D := k * A) (by push_cast; exact hk) hy
  rw [e, Nat.mul_div_cancel _ hA0] at hmain
  refine hmain.trans (mul_le_mul_left ?_ _)
  have h1 := slots_le hv hs hN hd
  have h2 : N + 2 ≤ 3 * N := by have := hs.2.2.1; omega
  have h3 : 4 * A * (d.flatten.map Instr.slots).sum ≤ 12960 * A * lay.sub_rounds.toNat * lay.num_qubits.toNat := by
    rw [hN, Int.toNat_natCast]
    calc 4 * A * (d.flatten.map Instr.slots).sum ≤ 4 * A * (lay.num_qubits.toNat * (1080 * (3 * N))) :=
          Nat.mul_le_mul_left _ (h1.trans (Nat.mul_le_mul_left _ (Nat.mul_le_mul_left _ h2)))
      _ = _ := by ring
  exact_mod_cast h3

theorem edge_probability {m : Dem} (h : Graphlike m) {g : NxGraph} (hg : demToNxGraph m = .ok g) {u v : Nat} {data : EdgeData} (hdata : g.edge? u v = some data) :
    ∃ P : Rat, data.error_probability = some P ∧ P = probOdd ((m.between u v).map Mechanism.p) ∧ m.between u v ≠ [] ∧ 0 < P ∧ P < 1 ∧
      data.weight = Real.log ((1 - P) / P) := by
  obtain ⟨g', hg', h1, h2⟩ := c35_graph m h.coords h.prob h.two
  obtain rfl := Except.ok.inj (hg.symm.trans hg')
  have hne := (h1 u v).1 ⟨data, hdata⟩
  obtain ⟨e, he⟩ := List.exists_mem_of_ne_nil _ hne
  obtain ⟨d, f, P, a1, -, -, a4, a5, a6, a7, a8⟩ := h2 u v e.frames.toFinset hne fun e' he' => h.agree _ _ e' he' e he
  rw [hdata] at a1
  obtain rfl := Option.some.inj a1
  exact ⟨P, a7, a4, hne, a5, a6, a8⟩

/-- C111: for every patch and every probability `p` there is an error model for which the code builds a graph all of whose edges have the probability `p`. -/
theorem c111_uniform (lay : HoneycombLayout) (hv : lay.Valid) (hs : lay.Supported) (hp : 0 < lay.noise) (hD : 2 < lay.circuitDistance) :
    ∃ d, lay.makeCircuit = .ok d ∧ ∀ p : Rat, 0 < p → p < 1 → ∃ m g, ErrorModelOf d m ∧ demToNxGraph m = .ok g ∧
      ∀ u v data, g.edge? u v = some data → data.error_probability = some p ∧ data.weight = Real.log ((1 - p) / p) := by
  obtain ⟨d, hd, hw⟩ := c101_watches lay hv hs hp
  obtain ⟨d', hd', h⟩ := c104_graph lay hv hs hp hD
  obtain rfl := Except.ok.inj (hd.symm.trans hd')
  refine ⟨d, hd, fun p h0 h1 => ?_⟩
  obtain ⟨m, hm, hu, hone, -⟩ := exists_simpleModel p h0 h1 hw
  obtain ⟨hG, g, hg, -⟩ := h m hm
  refine ⟨m, g, hm, hg, fun u v data hdata => ?_⟩
  obtain ⟨P, e1, e2, e3, -, -, e4⟩ := edge_probability hG hg hdata
  have : P = p := by
    obtain ⟨e, he⟩ := List.exists_mem_of_ne_nil _ e3
    have hl : m.between u v = [e] := by
      rcases hb : m.between u v with _ | ⟨a, _ | ⟨b, l⟩⟩
      · exact absurd hb e3
      · rw [hb, List.mem_singleton] at he
        rw [he]
      · have := hone u v
        rw [hb] at this
        simp at this
    rw [e2, hl, List.map_singleton, probOdd_cons, probOdd_nil, hu e (List.mem_filter.1 he).1]
    ring
  rw [this] at e1 e4
  exact ⟨e1, e4⟩

/-- C111: the threshold in terms of the error probabilities of the graph. For every `c` there are a noise strength `p₀` and numbers `A` and `C` such that for every
patch and every number of sub-rounds, if the largest error probability `worst` is at most half of `p₀`, and the probabilities of the edges of the matching graph are
between `worst / c` and `c * worst`, the probability that decoding with a matching of least weight fails is at most `C * sub_rounds * num_qubits * (worst / p₀) ^ k`,
where `k` is the part `1 / A` of `circuitDistance`. -/
theorem c111_probabilities (c : ℝ) (hc : 1 ≤ c) : ∃ p₀ : ℝ, 0 < p₀ ∧ ∃ A C : Nat, 0 < A ∧ ∀ lay : HoneycombLayout, lay.Valid → lay.Supported →
    0 < lay.noise → 2 * (lay.worst : ℝ) ≤ p₀ → 2 < lay.circuitDistance →
    ∃ d, lay.makeCircuit = .ok d ∧ ∀ m, ErrorModelOf d m → ∃ g, demToNxGraph m = .ok g ∧
      ((∀ u v data, g.edge? u v = some data → ∃ P : Rat, data.error_probability = some P ∧ lay.worst / c ≤ (P : ℝ) ∧ (P : ℝ) ≤ c * lay.worst) →
      ∀ matching, MinimumWeight g d.num_detectors d.num_observables matching → ∀ F, StartFrame F → ∀ k : Nat, (k * A : Int) ≤ lay.circuitDistance →
        recordProb d.flatten F {rec | matching (detectionBits d rec) ≠ observableBits d rec} ≤
          C * lay.sub_rounds.toNat * lay.num_qubits.toNat * ENNReal.ofReal (lay.worst / p₀) ^ k) := by
  obtain ⟨p₀, hp₀, A, C, hA, h⟩ := c111_threshold 2 two_pos.le
  have hc0 : 0 < c := by linarith
  refine ⟨min p₀ (1 / (4 * c ^ 3)), by positivity, A, C, hA, fun lay hv hs hp hw hD => ?_⟩
  obtain ⟨d, hd, h⟩ := h lay hv hs hp (hw.trans (min_le_left _ _)) hD
  obtain ⟨d', hd', hgr⟩ := c104_graph lay hv hs hp hD
  obtain rfl := Except.ok.inj (hd.symm.trans hd')
  refine ⟨d, hd, fun m hm => ?_⟩
  obtain ⟨g, hg, h⟩ := h m hm
  obtain ⟨hG, -⟩ := hgr m hm
  refine ⟨g, hg, fun hP matching hmin F hF k hk => ?_⟩
  have hq : (0 : ℝ) < lay.worst := by
    have h0 : (0 : Rat) < lay.worst := by rw [worst]; split_ifs <;> linarith
    exact_mod_cast h0
  set q : ℝ := (lay.worst : ℝ) with hqe
  have h3 : c ^ 3 * q ≤ 1 / 8 := by
    have h1 := hw.trans (min_le_right _ _)
    rw [le_div_iff₀ (by positivity)] at h1
    linarith
  have h1 : c * q ≤ 1 / 8 := by
    refine le_trans (mul_le_mul_of_nonneg_right ?_ hq.le) h3
    exact le_self_pow₀ hc (by norm_num)
  have hcq : 0 < c * q := mul_pos hc0 hq
  have hlow : 1 < (1 - c * q) / (c * q) := by rw [lt_div_iff₀ hcq]; linarith
  refine (h (Real.log ((1 - c * q) / (c * q))) (Real.log_pos hlow) (fun u v data hdata => ?_) matching hmin F hF k hk).trans ?_
  · obtain ⟨P, a1, a2, a3⟩ := hP u v data hdata
    obtain ⟨P', b1, -, -, b2, b3, b4⟩ := edge_probability hG hg hdata
    rw [a1] at b1
    obtain rfl := Option.some.inj b1
    have hP0 : (0 : ℝ) < P := by exact_mod_cast b2
    rw [b4]
    constructor
    · refine Real.log_le_log (by linarith) ?_
      rw [div_le_div_iff₀ hcq hP0]
      nlinarith
    · rw [show (2 : ℝ) * Real.log ((1 - c * q) / (c * q)) = Real.log (((1 - c * q) / (c * q)) ^ 2) by rw [Real.log_pow]; norm_num]
      have hP1 : (P : ℝ) < 1 := by exact_mod_cast b3
      refine Real.log_le_log (div_pos (by linarith) hP0) ?_
      have e1 : (1 - (P : ℝ)) / P ≤ c / q := by
        rw [div_le_div_iff₀ hP0 hq]
        rw [div_le_iff₀ hc0] at a2
        nlinarith
      refine e1.trans ?_
      rw [div_pow, div_le_div_iff₀ hq (by positivity)]
      have e2 : (1 / 2 : ℝ) ≤ (1 - c * q) ^ 2 := by nlinarith
      calc c * (c * q) ^ 2 = (c ^ 3 * q) * q := by ring
        _ ≤ 1 / 8 * q := mul_le_mul_of_nonneg_right h3 hq.le
        _ ≤ (1 - c * q) ^ 2 * q := mul_le_mul_of_nonneg_right (by linarith) hq.le
  · refine mul_le_mul_right (pow_le_pow_left' (ENNReal.ofReal_le_ofReal ?_) _) _
    exact div_le_div_of_nonneg_left hq.le (by positivity) (min_le_left _ _)

/-- C111: below the threshold large patches are reliable with matching. For every polynomial there is a size from which on the probability that decoding with a
matching of least weight fails is as small as one likes, if only the number of qubits times the number of sub-rounds is at most this polynomial of the size:
`data_width` ("V"), `data_height` ("H"). -/
theorem c111_reliable (c : ℝ) (hc : 1 ≤ c) : ∃ p₀ : ℝ, 0 < p₀ ∧ ∀ (e : Nat) (ε : ℝ), 0 < ε → ∃ L : Int, ∀ lay : HoneycombLayout, lay.Valid → lay.Supported →
    0 < lay.noise → lay.worst ≤ p₀ → ∀ size, size = (if lay.obs = "V" then lay.data_width else lay.data_height) → L ≤ size → lay.sub_rounds * lay.num_qubits ≤ size ^ e →
    ∃ d, lay.makeCircuit = .ok d ∧ ∀ m, ErrorModelOf d m → ∃ g, demToNxGraph m = .ok g ∧
      ((∀ u v data, g.edge? u v = some data → ∃ P : Rat, data.error_probability = some P ∧ lay.worst / c ≤ (P : ℝ) ∧ (P : ℝ) ≤ c * lay.worst) →
      ∀ matching, MinimumWeight g d.num_detectors d.num_observables matching → ∀ F, StartFrame F →
        recordProb d.flatten F {rec | matching (detectionBits d rec) ≠ observableBits d rec} ≤ ENNReal.ofReal ε) := by
  obtain ⟨p₀, h0, A, C, hA, h⟩ := c111_probabilities c hc
  refine ⟨p₀ / 2, by positivity, fun e ε hε => ?_⟩
  obtain ⟨K, hK⟩ := poly_small (C * (A + 1) ^ e) e hε
  refine ⟨3 * (A * (K + 1) + 3), fun lay hv hs hp hw size hsize hL hpoly => ?_⟩
  have hwp := hv.width_pos
  have hhp := hv.height_pos
  have hA1 : (1 : Int) ≤ A := by exact_mod_cast hA
  have hdist : lay.circuitDistance * 3 + 2 ≥ size := by
    rw [circuitDistance, hsize]
    split_ifs <;> omega
  have hAK : 0 ≤ (A : Int) * (K + 1) := by positivity
  have hD : 2 < lay.circuitDistance := by omega
  obtain ⟨d, hd, h⟩ := h lay hv hs hp (by linarith) hD
  refine ⟨d, hd, fun m hm => ?_⟩
  obtain ⟨g, hg, h⟩ := h m hm
  refine ⟨g, hg, fun hP matching hmin F hF => ?_⟩
  obtain ⟨k, hk⟩ := Int.eq_ofNat_of_zero_le (show 0 ≤ lay.circuitDistance / A from Int.ediv_nonneg (by omega) (by omega))
  have hk1 : (k * A : Int) ≤ lay.circuitDistance := by rw [← hk]; exact Int.ediv_mul_le _ (by omega)
  have hk2 : lay.circuitDistance < (k + 1) * A := by
    rw [← hk]
    exact Int.lt_ediv_add_one_mul_self _ (by omega)
  have hK1 : K + 1 ≤ k := by
    have : ((K + 1 : Nat) : Int) ≤ lay.circuitDistance / A := by
      rw [Int.le_ediv_iff_mul_le (by omega)]
      push_cast
      rw [mul_comm]
      omega
    rw [hk] at this
    exact_mod_cast this
  refine (h hP matching hmin F hF k hk1).trans ?_
  have hsize0 : 0 ≤ size := by omega
  have hsk : size ≤ (A + 1) * (6 * k) := by
    have h1 : ((k : Int) + 1) * A ≤ 2 * k * A := mul_le_mul_of_nonneg_right (by omega) (by omega)
    have h2 : ((A : Int) + 1) * (6 * k) = 3 * (2 * k * A) + 6 * k := by ring
    omega
  have hvol : ((lay.sub_rounds.toNat * lay.num_qubits.toNat : Nat) : ℝ) ≤ (A + 1 : ℝ) ^ e * (6 * k : ℝ) ^ e := by
    obtain ⟨N, hN⟩ := Int.eq_ofNat_of_zero_le (show 0 ≤ lay.sub_rounds by have := hs.2.2.1; omega)
    have hq : 0 ≤ lay.num_qubits := by
      have := mul_nonneg hwp.le hhp.le
      rw [num_qubits]
      split_ifs
      · exact this
      · exact Int.tdiv_nonneg (by omega) (by norm_num)
    have h1 : ((lay.sub_rounds.toNat * lay.num_qubits.toNat : Nat) : Int) ≤ (A + 1 : Int) ^ e * (6 * k : Int) ^ e := by
      rw [Nat.cast_mul, Int.toNat_of_nonneg (by omega), Int.toNat_of_nonneg hq, ← mul_pow]
      exact hpoly.trans (pow_le_pow_left₀ hsize0 hsk e)
    exact_mod_cast h1
  have hx : ENNReal.ofReal (lay.worst / p₀) ≤ ENNReal.ofReal (1 / 2) := by
    refine ENNReal.ofReal_le_ofReal ?_
    rw [div_le_iff₀ h0]
    linarith
  calc (C : ℝ≥0∞) * lay.sub_rounds.toNat * lay.num_qubits.toNat * ENNReal.ofReal (lay.worst / p₀) ^ k
      ≤ C * lay.sub_rounds.toNat * lay.num_qubits.toNat * ENNReal.ofReal (1 / 2) ^ k := by gcongr
    _ = ENNReal.ofReal (C * ((lay.sub_rounds.toNat * lay.num_qubits.toNat : Nat) : ℝ) * (1 / 2) ^ k) := by
        rw [ENNReal.ofReal_mul (by positivity), ENNReal.ofReal_mul (by positivity), ENNReal.ofReal_pow (by norm_num), ENNReal.ofReal_natCast, ENNReal.ofReal_natCast]
        push_cast
        ring
    _ ≤ ENNReal.ofReal ε := by
        have h9 : (C : ℝ) * ((lay.sub_rounds.toNat * lay.num_qubits.toNat : Nat) : ℝ) * (1 / 2) ^ k ≤ (C : ℝ) * ((A + 1 : ℝ) ^ e * (6 * k : ℝ) ^ e) * (1 / 2) ^ k :=
          mul_le_mul_of_nonneg_right (mul_le_mul_of_nonneg_left hvol (by positivity)) (by positivity)
        refine ENNReal.ofReal_le_ofReal (h9.trans (le_of_eq_of_le ?_ (hK k (by omega))))
        push_cast
        ring

/-- Arbitrarily large patches of arbitrarily small noise, with an error model, its graph and a matching decoder, satisfy the hypotheses. -/
example (p₀ : ℝ) (h : 0 < p₀) (n : Nat) (style : String) (hst : style ∈ ["SD6", "PC3", "SI1000", "EM3_v2"]) : ∃ lay : HoneycombLayout, lay.style = style ∧ lay.Valid ∧
    lay.Supported ∧ 0 < lay.noise ∧ 2 * (lay.worst : ℝ) ≤ p₀ ∧ n ≤ lay.circuitDistance ∧ 2 < lay.circuitDistance ∧
    ∃ d m g matching F, lay.makeCircuit = .ok d ∧ ErrorModelOf d m ∧ demToNxGraph m = .ok g ∧ MinimumWeight g d.num_detectors d.num_observables matching ∧ StartFrame F ∧
      ∀ u v data, g.edge? u v = some data → ∃ P : Rat, data.error_probability = some P ∧ lay.worst / (1 : ℝ) ≤ (P : ℝ) ∧ (P : ℝ) ≤ 1 * lay.worst := by
  obtain ⟨p, h1, h2⟩ := exists_rat_btwn (show (0 : ℝ) < min (p₀ / 20) (1 / 20) by positivity)
  have hp0 : 0 < p := by exact_mod_cast h1
  have hpp : (p : ℝ) ≤ p₀ / 20 := h2.le.trans (min_le_left _ _)
  have hp1 : p ≤ 1 / 20 := by
    have : (p : ℝ) ≤ ((1 / 20 : Rat) : ℝ) := by push_cast; exact h2.le.trans (min_le_right _ _)
    exact_mod_cast this
  set lay : HoneycombLayout := ⟨6 * (n + 1), 6 * (n + 1), 6 * (n + 1), style, "V", p⟩ with hlay
  have hv : lay.Valid := by constructor <;> simp only [hlay] <;> omega
  have hs : lay.Supported := by
    refine ⟨?_, by simp [hlay], by simp only [hlay]; omega, ?_⟩
    · simp only [hlay]
      simp only [List.mem_cons, List.not_mem_nil, or_false] at hst ⊢
      tauto
    · simp only [hlay]
      omega
  have hD : 3 * ((n : Int) + 1) ≤ lay.circuitDistance := by
    simp only [circuitDistance, hlay, data_width]
    split_ifs <;> omega
  have hD2 : 2 < lay.circuitDistance := by omega
  have hw : lay.worst ≤ 5 * p ∧ p ≤ lay.worst := by
    rw [worst]
    simp only [hlay]
    split_ifs <;> constructor <;> linarith
  have hw' : (lay.worst : ℝ) ≤ 5 * p := by exact_mod_cast hw.1
  obtain ⟨d, hd, hu⟩ := c111_uniform lay hv hs hp0 hD2
  obtain ⟨m, g, hm, hg, he⟩ := hu lay.worst (by linarith [hw.2]) (by linarith [hw.1])
  obtain ⟨matching, hmin⟩ := exists_minimumWeight g d.num_detectors d.num_observables
  refine ⟨lay, rfl, hv, hs, hp0, by linarith, by omega, hD2, d, m, g, matching, 0, hd, hm, hg, hmin, ?_, fun u v data hdata => ⟨lay.worst, (he u v data hdata).1, by simp, by simp⟩⟩
  intro q
  simp

end Honeycomb
