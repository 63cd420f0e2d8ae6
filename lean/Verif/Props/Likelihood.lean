import Verif.Lemmas.Likelihood

/-!
# Minimum weight matchings are most likely explanations (C102)

`Spec/Likelihood.lean`: `probability ms E` is the probability, when each component of the error model happens independently with its probability, that those which
happen satisfy `E`; `OddOn b l T` says that `T` is the set of the edges that an odd number of the components in `l` connect; `Fires` and `Flips` are what the components
do to detectors and observables. `weightOf`, `endsAt`, `framesOf` are the total weight, the number of ends at a node, and the number of edges marked with an
observable, of a set of edges of the graph.
-/

namespace Honeycomb

/-- The hypotheses on an error model: probabilities below 1, at most two detectors in a component (as in a decomposed error model), and components on the same
edge do the same to the observables (the code has distance above 2). -/
structure Graphlike (m : Dem) : Prop where
  coords : m.CoordsFit
  prob : ∀ e ∈ m.mechanisms, 0 ≤ e.p ∧ e.p < 1
  two : ∀ e ∈ m.mechanisms, e.p ≠ 0 → e.dets.length ≤ 2
  agree : ∀ u v, ∀ e ∈ m.between u v, ∀ e' ∈ m.between u v, e.frames.toFinset = e'.frames.toFinset

/-- The pairs of nodes connected by a component that can happen. -/
def Dem.pairs (m : Dem) : Finset (Nat × Nat) := ((m.mechanisms.filter fun e => e.p ≠ 0).filterMap (Mechanism.key m.num_detectors)).toFinset

theorem mem_demPairs {m : Dem} {k : Nat × Nat} : k ∈ m.pairs ↔ ∃ e ∈ m.mechanisms, e.p ≠ 0 ∧ e.key m.num_detectors = some k := by
  simp [Dem.pairs, and_assoc]

theorem demPairs_ordered (m : Dem) : Ordered m.pairs := fun _ hk => by
  obtain ⟨_, _, _, h⟩ := mem_demPairs.1 hk
  exact key_ordered h

theorem between_eq {m : Dem} {k : Nat × Nat} (hk : k.1 ≤ k.2) :
    m.between k.1 k.2 = m.mechanisms.filter fun e => e.p ≠ 0 ∧ e.key m.num_detectors = some k := by
  rw [Dem.between]
  refine List.filter_congr fun e _ => ?_
  simp only [connects_key hk]

/-- The matching graph of such a model. -/
theorem graphlike_graph {m : Dem} (h : Graphlike m) : ∃ g, demToNxGraph m = .ok g ∧
    (∀ T, g.HasEdges T ↔ T ⊆ m.pairs) ∧
    ∀ k ∈ m.pairs, ∃ d f, g.edge? k.1 k.2 = some d ∧ d.qubit_id = some f ∧
      (∀ e ∈ m.mechanisms, e.p ≠ 0 → e.key m.num_detectors = some k → f.toFinset = e.frames.toFinset) ∧
      0 < oddProb m.num_detectors m.mechanisms k ∧ oddProb m.num_detectors m.mechanisms k < 1 ∧
      d.weight = Real.log ((1 - oddProb m.num_detectors m.mechanisms k) / oddProb m.num_detectors m.mechanisms k) := by
  obtain ⟨g, hg, h1, h2⟩ := c35_graph m h.coords h.prob h.two
  have hne : ∀ k : Nat × Nat, k.1 ≤ k.2 → (m.between k.1 k.2 ≠ [] ↔ k ∈ m.pairs) := fun k hk => by
    rw [between_eq hk, ne_eq, List.filter_eq_nil_iff, mem_demPairs]
    push Not
    simp
  refine ⟨g, hg, fun T => ⟨fun hT k hk => (hne k (hT.1 k hk)).1 ((h1 _ _).1 (hT.2 k hk)), fun hT =>
    ⟨fun k hk => demPairs_ordered m k (hT hk), fun k hk => (h1 _ _).2 ((hne k (demPairs_ordered m k (hT hk))).2 (hT hk))⟩⟩, fun k hk => ?_⟩
  have hk' := demPairs_ordered m k hk
  obtain ⟨e, he, he0, hek⟩ := mem_demPairs.1 hk
  have hb : ∀ e', e' ∈ m.between k.1 k.2 ↔ e' ∈ m.mechanisms ∧ e'.p ≠ 0 ∧ e'.key m.num_detectors = some k := fun e' => by
    rw [between_eq hk', List.mem_filter, decide_eq_true_iff]
  have hmem := (hb e).2 ⟨he, he0, hek⟩
  obtain ⟨d, f, P, a1, a2, a3, a4, a5, a6, -, a7⟩ := h2 k.1 k.2 e.frames.toFinset ((hne k hk').2 hk) fun e' he' => h.agree _ _ e' he' e hmem
  have hP : P = oddProb m.num_detectors m.mechanisms k := by rw [a4, between_eq hk', oddProb]
  rw [← hP]
  exact ⟨d, f, a1, a2, fun e' he' h0 hk'' => a3.trans (h.agree _ _ e hmem e' ((hb e').2 ⟨he', h0, hk''⟩)), a5, a6, a7⟩

theorem countP_sum {α : Type} (P : α → Prop) [DecidablePred P] (l : List α) : l.countP (fun e => P e) = (l.map fun e => if P e then 1 else 0).sum := by
  induction l with
  | nil => rfl
  | cons a l ih =>
    rw [List.countP_cons, ih, List.map_cons, List.sum_cons, add_comm]
    simp only [decide_eq_true_eq]

/-- Events of probability at most one half: an odd number of them has probability at most one half. -/
theorem probOdd_half (ps : List Rat) (h : ∀ p ∈ ps, p ≤ 1 / 2) : probOdd ps ≤ 1 / 2 := by
  induction ps with
  | nil => rw [probOdd_nil]; norm_num
  | cons p ps ih =>
    have h1 := h p (by simp)
    have h2 := ih fun q hq => h q (by simp [hq])
    rw [probOdd_cons]
    have := mul_nonneg (sub_nonneg.2 h1) (sub_nonneg.2 h2)
    linarith

theorem oddProb_half (b : Nat) (ms : List Mechanism) (k : Nat × Nat) (h : ∀ e ∈ ms, 0 ≤ e.p ∧ e.p ≤ 1 / 2) : oddProb b ms k ≤ 1 / 2 := by
  refine probOdd_half _ fun p hp => ?_
  obtain ⟨e, he, rfl⟩ := List.mem_map.1 hp
  exact (h e (List.mem_filter.1 he).1).2

/-- Edges that the graph does not have are not connected. -/
theorem probability_off {m : Dem} (h : Graphlike m) {g : NxGraph} (hg : demToNxGraph m = .ok g) {T : Finset (Nat × Nat)} (hT : Ordered T) (hE : ¬ g.HasEdges T) :
    probability m.mechanisms (fun l => OddOn m.num_detectors l T) = 0 := by
  obtain ⟨g', hg', h1, -⟩ := graphlike_graph h
  obtain rfl := Except.ok.inj (hg.symm.trans hg')
  refine probability_zero fun l hl h0 ho => hE ((h1 T).2 fun k hk => ?_)
  have := ((oddOn_iff.1 ho) k (hT k hk)).2 hk
  obtain ⟨e, he, hek⟩ := List.countP_pos_iff.1 this.pos
  exact mem_demPairs.2 ⟨e, hl.subset he, h0 e he, of_decide_eq_true hek⟩

/-- C102: the probability that exactly the edges of `T` are the ones that an odd number of components connect falls exponentially with the total weight of `T`. -/
theorem c102_likelihood (m : Dem) (h : Graphlike m) : ∃ g, demToNxGraph m = .ok g ∧ ∃ K : ℝ, 0 < K ∧ ∀ T, g.HasEdges T →
    (probability m.mechanisms (fun l => OddOn m.num_detectors l T) : ℝ) = K * Real.exp (-g.weightOf T) := by
  obtain ⟨g, hg, h1, h2⟩ := graphlike_graph h
  refine ⟨g, hg, ∏ k ∈ m.pairs, (1 - oddProb m.num_detectors m.mechanisms k : ℝ), ?_, fun T hT => ?_⟩
  · refine Finset.prod_pos fun k hk => ?_
    obtain ⟨_, _, _, _, _, -, h3, -⟩ := h2 k hk
    have : (oddProb m.num_detectors m.mechanisms k : ℝ) < 1 := by exact_mod_cast h3
    linarith
  · have hsub := (h1 T).1 hT
    rw [probability_oddOn m.num_detectors m.pairs (demPairs_ordered m) m.mechanisms (fun e he h0 k hk => mem_demPairs.2 ⟨e, he, h0, hk⟩) T hsub, NxGraph.weightOf,
      ← Finset.sum_neg_distrib, Real.exp_sum, ← Finset.prod_sdiff hsub, ← Finset.prod_sdiff hsub, mul_assoc, ← Finset.prod_mul_distrib, Rat.cast_mul, Rat.cast_prod,
      Rat.cast_prod]
    congr 1
    · refine Finset.prod_congr rfl fun k hk => ?_
      rw [if_neg (Finset.mem_sdiff.1 hk).2]
      push_cast
      rfl
    · refine Finset.prod_congr rfl fun k hk => ?_
      obtain ⟨d, f, e1, -, -, p0, p1, e2⟩ := h2 k (hsub hk)
      have q0 : (0 : ℝ) < oddProb m.num_detectors m.mechanisms k := by exact_mod_cast p0
      have q1 : (oddProb m.num_detectors m.mechanisms k : ℝ) < 1 := by exact_mod_cast p1
      rw [if_pos hk, NxGraph.weightAt, e1]
      simp only
      rw [e2, Real.exp_neg, Real.exp_log (div_pos (by linarith) q0), inv_div, mul_div_cancel₀ _ (by linarith)]

/-- C102: the edges that an odd number of the components connect have an odd number of ends at the detectors that the components fire, and the observables that the
components flip are those with which an odd number of these edges are marked. -/
theorem c102_explains (m : Dem) (h : Graphlike m) (hz : ∀ e ∈ m.mechanisms, e.p ≠ 0 → e.dets = [] → e.frames = []) :
    ∃ g, demToNxGraph m = .ok g ∧ ∀ (l : List Mechanism) (T : Finset (Nat × Nat)), (∀ e ∈ l, e ∈ m.mechanisms ∧ e.p ≠ 0) → Ordered T → OddOn m.num_detectors l T →
      g.HasEdges T ∧ (∀ x < m.num_detectors, Fires l x ↔ Odd (endsAt T x)) ∧ ∀ j, Flips l j ↔ Odd (g.framesOf T j) := by
  obtain ⟨g, hg, h1, h2⟩ := graphlike_graph h
  refine ⟨g, hg, fun l T hl hT ho => ⟨(h1 T).2 fun k hk => ?_, fun x hx => oddOn_fires (fun e he => h.two e (hl e he).1 (hl e he).2) hT ho hx, fun j => ?_⟩⟩
  · have := ((oddOn_iff.1 ho) k (hT k hk)).2 hk
    obtain ⟨e, he, hek⟩ := List.countP_pos_iff.1 this.pos
    exact mem_demPairs.2 ⟨e, (hl e he).1, (hl e he).2, of_decide_eq_true hek⟩
  · classical
    have := oddOn_sum (b := m.num_detectors) (l := l) (T := T) (w := fun e => ((if j ∈ e.frames then 1 else 0 : Nat) : ZMod 2))
      (f := fun k => ((if g.Marked k j then 1 else 0 : Nat) : ZMod 2)) (fun e he => by
        obtain ⟨hm, h0⟩ := hl e he
        cases hk : e.key m.num_detectors with
        | none =>
          have hd : e.dets = [] := by
            have hlen := h.two e hm h0
            rcases hd : e.dets with _ | ⟨a, _ | ⟨c, _ | ⟨d, r⟩⟩⟩
            · rfl
            · rw [Mechanism.key, hd] at hk; cases hk
            · rw [Mechanism.key, hd] at hk; cases hk
            · rw [hd] at hlen; simp at hlen
          simp [hz e hm h0 hd]
        | some k =>
          obtain ⟨d, f, e1, e2, e3, -⟩ := h2 k (mem_demPairs.2 ⟨e, hm, h0, hk⟩)
          have : g.Marked k j ↔ j ∈ e.frames := by
            rw [← List.mem_toFinset, ← e3 e hm h0 hk, List.mem_toFinset]
            constructor
            · rintro ⟨d', f', a, b, c⟩
              rw [e1] at a
              obtain rfl := Option.some.inj a
              rw [e2] at b
              rwa [Option.some.inj b]
            · exact fun hj => ⟨d, f, e1, e2, hj⟩
          simp only [this]) hT ho
    rw [Flips, odd_iff_cast, odd_iff_cast, NxGraph.framesOf, Nat.cast_sum, ← this, countP_sum, Nat.cast_list_sum, List.map_map]
    rfl

/-- C102: a set of edges of the matching graph which has the least weight among those explaining the same detection events is a most likely one. -/
theorem c102_most_likely (m : Dem) (h : Graphlike m) : ∃ g, demToNxGraph m = .ok g ∧ ∀ T, g.HasEdges T →
    (∀ T', g.HasEdges T' → SameSymptoms m.num_detectors T T' → g.weightOf T ≤ g.weightOf T') →
    ∀ T', Ordered T' → SameSymptoms m.num_detectors T T' →
      probability m.mechanisms (fun l => OddOn m.num_detectors l T') ≤ probability m.mechanisms (fun l => OddOn m.num_detectors l T) := by
  obtain ⟨g, hg, K, hK, h1⟩ := c102_likelihood m h
  refine ⟨g, hg, fun T hT hmin T' hT' hsame => ?_⟩
  by_cases hE : g.HasEdges T'
  · have : (probability m.mechanisms (fun l => OddOn m.num_detectors l T') : ℝ) ≤ probability m.mechanisms (fun l => OddOn m.num_detectors l T) := by
      rw [h1 T hT, h1 T' hE]
      exact mul_le_mul_of_nonneg_left (Real.exp_le_exp.2 (neg_le_neg (hmin T' hE hsame))) hK.le
    exact_mod_cast this
  · rw [probability_off h hg hT' hE]
    exact probability_nonneg fun e he => ⟨(h.prob e he).1, (h.prob e he).2.le⟩

/-- The detectors of an edge. -/
theorem demPairs_bound (m : Dem) : ∀ k ∈ m.pairs, k.2 ≤ m.num_detectors := fun k hk => by
  obtain ⟨e, he, -, hek⟩ := mem_demPairs.1 hk
  have hlt := mechanisms_ids m e he
  rw [Mechanism.key] at hek
  split at hek
  · rename_i a ha
    have := hlt a (by rw [ha]; simp)
    cases hek
    simp only [edgeKey]
    omega
  · rename_i a c ha
    have h1 := hlt a (by rw [ha]; simp)
    have h2 := hlt c (by rw [ha]; simp)
    cases hek
    simp only [edgeKey]
    omega
  · cases hek

/-- The graph handed to pymatching: the edges of the error model are kept, the others are heavy, and none has a negative weight. -/
theorem pymatching_graph {m : Dem} (h : Graphlike m) (hh : ∀ e ∈ m.mechanisms, e.p ≤ 1 / 2) {g : NxGraph} (hg : demToNxGraph m = .ok g) :
    ∃ g', demToPymatchingGraph m = .ok g' ∧ (∀ k ∈ m.pairs, g'.edge? k.1 k.2 = g.edge? k.1 k.2) ∧
      (∀ k d, k.1 ≤ k.2 → g'.edge? k.1 k.2 = some d → k ∉ m.pairs → d.weight = 9999999999) ∧
      ∀ T, g'.HasEdges T → ∀ k ∈ T, 0 ≤ g'.weightAt k := by
  obtain ⟨g1, hg1, hsub, hedge⟩ := graphlike_graph h
  obtain rfl := Except.ok.inj (hg.symm.trans hg1)
  have hpairs : ∀ u v d, u ≤ v → g.edge? u v = some d → (u, v) ∈ m.pairs := fun u v d huv hd =>
    (hsub {(u, v)}).1 ⟨by rintro e he; rw [Finset.mem_singleton.1 he]; exact huv, by rintro e he; rw [Finset.mem_singleton.1 he]; exact ⟨d, hd⟩⟩ (by simp)
  have hids := demPairs_bound m
  have hswap : ∀ u v, g.edge? u v = g.edge? (edgeKey u v).1 (edgeKey u v).2 := fun u v => by
    rw [NxGraph.edge?, NxGraph.edge?, edgeKey_of_le (edgeKey_ordered u v)]
  have hfar : ∀ x, g.edge? x (m.num_detectors + 1) = none := fun x => by
    by_contra hne
    obtain ⟨d, hd⟩ := Option.ne_none_iff_exists'.1 hne
    rw [hswap] at hd
    have := hids _ (hpairs _ _ d (edgeKey_ordered _ _) hd)
    simp only [edgeKey] at this
    omega
  obtain ⟨hE, -⟩ := addSpandrels_eq g m.num_detectors m.num_observables hfar
  refine ⟨addSpandrels g m.num_detectors m.num_observables, by rw [demToPymatchingGraph, hg]; rfl, ?_⟩
  set g' := addSpandrels g m.num_detectors m.num_observables with hg'
  -- edges of the error model are kept, the others are heavy
  have hold : ∀ k ∈ m.pairs, g'.edge? k.1 k.2 = g.edge? k.1 k.2 := fun k hk => by
    have h1 := hids k hk
    have h2 := demPairs_ordered m k hk
    rw [hE, if_neg (by rw [edgeKey_eq_iff]; omega), if_neg (by omega)]
  have hnew : ∀ k d, k.1 ≤ k.2 → g'.edge? k.1 k.2 = some d → k ∉ m.pairs → d.weight = 9999999999 := fun k d hk hd hnot => by
    rw [hE] at hd
    split_ifs at hd
    · cases hd; rfl
    · cases hd; rfl
    · exact absurd (hpairs _ _ d hk hd) hnot
  refine ⟨hold, hnew, fun T hT k hk => ?_⟩
  obtain ⟨d, hd⟩ := hT.2 k hk
  rw [NxGraph.weightAt, hd]
  show 0 ≤ d.weight
  by_cases hkp : k ∈ m.pairs
  · obtain ⟨d', f, e1, -, -, p0, p1, e2⟩ := hedge k hkp
    rw [hold k hkp, e1] at hd
    obtain rfl := Option.some.inj hd
    have q0 : (0 : ℝ) < oddProb m.num_detectors m.mechanisms k := by exact_mod_cast p0
    have q1 : (oddProb m.num_detectors m.mechanisms k : ℝ) ≤ 1 / 2 := by
      have := oddProb_half m.num_detectors m.mechanisms k fun e he => ⟨(h.prob e he).1, hh e he⟩
      have h2 : ((oddProb m.num_detectors m.mechanisms k : Rat) : ℝ) ≤ ((1 / 2 : Rat) : ℝ) := by exact_mod_cast this
      simpa using h2
    rw [e2]
    refine Real.log_nonneg ?_
    rw [le_div_iff₀ q0]
    linarith
  · rw [hnew k d (hT.1 k hk) hd hkp]
    norm_num

/-- C102: the same for the graph that is handed to pymatching, if no probability is above one half and the weights of the edges of the error model together stay
below that of the extra edges: a set of its edges of least weight is a most likely explanation. -/
theorem c102_pymatching (m : Dem) (h : Graphlike m) (hh : ∀ e ∈ m.mechanisms, e.p ≤ 1 / 2) :
    ∃ g g', demToNxGraph m = .ok g ∧ demToPymatchingGraph m = .ok g' ∧ ((∀ T, g.HasEdges T → g.weightOf T < 9999999999) →
      ∀ T, g'.HasEdges T → (∀ T', g'.HasEdges T' → SameSymptoms m.num_detectors T T' → g'.weightOf T ≤ g'.weightOf T') →
        ∀ T', Ordered T' → SameSymptoms m.num_detectors T T' →
          probability m.mechanisms (fun l => OddOn m.num_detectors l T') ≤ probability m.mechanisms (fun l => OddOn m.num_detectors l T)) := by
  obtain ⟨g, hg, hsub, -⟩ := graphlike_graph h
  obtain ⟨g', hg', hold, hnew, hpos⟩ := pymatching_graph h hh hg
  refine ⟨g, g', hg, hg', fun hbound T hT hmin T' hT' hsame => ?_⟩
  have hpos := hpos T hT
  have hw : ∀ T ⊆ m.pairs, g'.weightOf T = g.weightOf T := fun T hT => Finset.sum_congr rfl fun k hk => by rw [NxGraph.weightAt, NxGraph.weightAt, hold k (hT hk)]
  have hE' : ∀ T, g.HasEdges T → g'.HasEdges T := fun T hT => ⟨hT.1, fun k hk => by rw [hold k ((hsub T).1 hT hk)]; exact hT.2 k hk⟩
  by_cases hex : ∃ T0, g.HasEdges T0 ∧ SameSymptoms m.num_detectors T T0
  · obtain ⟨T0, h0, hs0⟩ := hex
    have hle : g'.weightOf T < 9999999999 := (hmin T0 (hE' T0 h0) hs0).trans_lt (by rw [hw T0 ((hsub T0).1 h0)]; exact hbound T0 h0)
    have hTp : T ⊆ m.pairs := fun k hk => by
      by_contra hkp
      obtain ⟨d, hd⟩ := hT.2 k hk
      have h1 := Finset.single_le_sum (f := g'.weightAt) hpos hk
      simp only [NxGraph.weightAt, hd, hnew k d (hT.1 k hk) hd hkp] at h1
      have h2 : (9999999999 : ℝ) ≤ g'.weightOf T := h1
      linarith
    obtain ⟨g2, hg2, hml⟩ := c102_most_likely m h
    obtain rfl := Except.ok.inj (hg.symm.trans hg2)
    refine hml T ((hsub T).2 hTp) (fun T2 hT2 hs2 => ?_) T' hT' hsame
    rw [← hw T hTp, ← hw T2 ((hsub T2).1 hT2)]
    exact hmin T2 (hE' T2 hT2) hs2
  · rw [probability_off h hg hT' fun hno => hex ⟨T', hno, hsame⟩]
    exact probability_nonneg fun e he => ⟨(h.prob e he).1, (h.prob e he).2.le⟩

/-! ## Examples -/

/-- `probability` is a probability, -/
theorem probability_true (ms : List Mechanism) : probability ms (fun _ => True) = 1 := by
  induction ms with
  | nil => simp [probability]
  | cons e ms ih => rw [probability, ih]; ring

/-- and agrees with `probOdd` (C35) on the event that an odd number of components happen. -/
theorem probability_odd (ms : List Mechanism) : probability ms (fun l => Odd l.length) = probOdd (ms.map Mechanism.p) ∧
    probability ms (fun l => ¬ Odd l.length) = 1 - probOdd (ms.map Mechanism.p) := by
  induction ms with
  | nil => simp [probability, probOdd_nil]
  | cons e ms ih =>
    have e1 : probability ms (fun l => Odd (e :: l).length) = probability ms (fun l => ¬ Odd l.length) :=
      probability_congr fun l => by rw [List.length_cons, Nat.odd_add_one]
    have e2 : probability ms (fun l => ¬ Odd (e :: l).length) = probability ms (fun l => Odd l.length) :=
      probability_congr fun l => by rw [List.length_cons, Nat.odd_add_one, not_not]
    rw [probability, probability, e1, e2, ih.1, ih.2, List.map_cons, probOdd_cons]
    constructor <;> ring

/-- Two detectors; an error that fires both and flips the observable, and one for each of them. -/
def exampleTriangle : Dem :=
  .op (.error (1 / 10) [.det 0, .det 1, .obs 0]) (.op (.error (1 / 5) [.det 0]) (.op (.error (1 / 5) [.det 1]) .nil))

theorem exampleTriangle_mechanisms : exampleTriangle.mechanisms = [⟨1 / 10, [0, 1], [0]⟩, ⟨1 / 5, [0], []⟩, ⟨1 / 5, [1], []⟩] := rfl

/-- The hypotheses of C102 are met by this model, -/
theorem exampleTriangle_graphlike : Graphlike exampleTriangle where
  coords := by
    intro i hi
    simp [exampleTriangle, Dem.unroll] at hi
    rcases hi with rfl | rfl | rfl <;> simp [DemInstr.coordArgs]
  prob := by
    rw [exampleTriangle_mechanisms]
    intro e he
    simp at he
    rcases he with rfl | rfl | rfl <;> norm_num
  two := by
    rw [exampleTriangle_mechanisms]
    intro e he _
    simp at he
    rcases he with rfl | rfl | rfl <;> simp
  agree := by
    have hn : exampleTriangle.num_detectors = 2 := by rfl
    intro u v e he e' he'
    rw [Dem.between, exampleTriangle_mechanisms, hn, List.mem_filter, decide_eq_true_iff] at he he'
    obtain ⟨he, -, hc⟩ := he
    obtain ⟨he', -, hc'⟩ := he'
    simp only [List.mem_cons, List.not_mem_nil, or_false] at he he'
    rcases he with rfl | rfl | rfl <;> rcases he' with rfl | rfl | rfl <;> first | rfl | (exfalso; simp [Mechanism.connects] at hc hc'; omega)

/-- and matching the two detectors with each other is the solution of least weight if both fire: `log 9` against `2 * log 4`. -/
example : ∃ g, demToNxGraph exampleTriangle = .ok g ∧ g.HasEdges {(0, 1)} ∧
    (∀ T', g.HasEdges T' → SameSymptoms exampleTriangle.num_detectors {(0, 1)} T' → g.weightOf {(0, 1)} ≤ g.weightOf T') ∧
    probability exampleTriangle.mechanisms (fun l => OddOn 2 l {(0, 2), (1, 2)}) ≤ probability exampleTriangle.mechanisms (fun l => OddOn 2 l {(0, 1)}) := by
  have hn : exampleTriangle.num_detectors = 2 := by rfl
  obtain ⟨g, hg, hsub, hedge⟩ := graphlike_graph exampleTriangle_graphlike
  have hp : exampleTriangle.pairs = {(0, 1), (0, 2), (1, 2)} := by
    rw [Dem.pairs, exampleTriangle_mechanisms, hn]
    simp [Mechanism.key, edgeKey]
  rw [hp, hn, exampleTriangle_mechanisms] at hedge
  have hT : g.HasEdges {(0, 1)} := (hsub _).2 (by rw [hp]; simp)
  have w1 : g.weightAt (0, 1) = Real.log 9 := by
    obtain ⟨d, _, e1, -, -, -, -, e2⟩ := hedge (0, 1) (by simp)
    rw [NxGraph.weightAt, e1]
    show d.weight = _
    rw [e2, show oddProb 2 _ (0, 1) = 1 / 10 by simp [oddProb, Mechanism.key, edgeKey, probOdd_single]]
    norm_num
  have w2 : g.weightAt (0, 2) = Real.log 4 := by
    obtain ⟨d, _, e1, -, -, -, -, e2⟩ := hedge (0, 2) (by simp)
    rw [NxGraph.weightAt, e1]
    show d.weight = _
    rw [e2, show oddProb 2 _ (0, 2) = 1 / 5 by simp [oddProb, Mechanism.key, edgeKey, probOdd_single]]
    norm_num
  have w3 : g.weightAt (1, 2) = Real.log 4 := by
    obtain ⟨d, _, e1, -, -, -, -, e2⟩ := hedge (1, 2) (by simp)
    rw [NxGraph.weightAt, e1]
    show d.weight = _
    rw [e2, show oddProb 2 _ (1, 2) = 1 / 5 by simp [oddProb, Mechanism.key, edgeKey, probOdd_single]]
    norm_num
  have hmin : ∀ T', g.HasEdges T' → SameSymptoms exampleTriangle.num_detectors {(0, 1)} T' → g.weightOf {(0, 1)} ≤ g.weightOf T' := by
    intro T' hT' hs
    have hT'' := (hsub T').1 hT'
    rw [hp] at hT''
    rw [hn] at hs
    have : T' = {(0, 1)} ∨ T' = {(0, 2), (1, 2)} := 
      (show ∀ T' ∈ ({(0, 1), (0, 2), (1, 2)} : Finset (Nat × Nat)).powerset, (∀ x < 2, Odd (endsAt {(0, 1)} x) ↔ Odd (endsAt T' x)) →
        T' = {(0, 1)} ∨ T' = {(0, 2), (1, 2)} by decide +kernel) T' (Finset.mem_powerset.2 hT'') hs
    rcases this with rfl | rfl
    · exact le_refl _
    · rw [NxGraph.weightOf, NxGraph.weightOf, Finset.sum_singleton, Finset.sum_pair (by simp), w1, w2, w3, ← Real.log_mul (by norm_num) (by norm_num)]
      exact Real.log_le_log (by norm_num) (by norm_num)
  obtain ⟨g', hg', hml⟩ := c102_most_likely _ exampleTriangle_graphlike
  obtain rfl := Except.ok.inj (hg.symm.trans hg')
  refine ⟨g, hg, hT, hmin, hml _ hT hmin _ (by intro e he; simp at he; rcases he with rfl | rfl <;> simp) ?_⟩
  rw [hn]
  intro x hx
  rcases (show x = 0 ∨ x = 1 by omega) with rfl | rfl <;> decide

/-- The hypotheses of C102's second part are met: the first error happens and nothing else. -/
example : ∃ g, demToNxGraph exampleTriangle = .ok g ∧ Odd (endsAt {(0, 1)} 0) ∧ Odd (g.framesOf {(0, 1)} 0) := by
  have hn : exampleTriangle.num_detectors = 2 := by rfl
  have hm := exampleTriangle_mechanisms
  obtain ⟨g, hg, h⟩ := c102_explains _ exampleTriangle_graphlike (by
    rw [hm]
    intro e he _ hd
    simp at he
    rcases he with rfl | rfl | rfl <;> simp at hd)
  have ho : OddOn exampleTriangle.num_detectors [⟨1 / 10, [0, 1], [0]⟩] {(0, 1)} := by
    rw [hn, oddOn_cons_some (k := (0, 1)) rfl, show symmDiff ({(0, 1)} : Finset (Nat × Nat)) {(0, 1)} = ∅ from symmDiff_self _, oddOn_iff]
    simp
  obtain ⟨-, h1, h2⟩ := h [⟨1 / 10, [0, 1], [0]⟩] {(0, 1)} (by rw [hm]; simp) (by intro e he; rw [Finset.mem_singleton.1 he]; simp) ho
  exact ⟨g, hg, (h1 0 (by rw [hn]; omega)).1 (by simp [Fires]), (h2 0).1 (by simp [Flips])⟩

end Honeycomb
