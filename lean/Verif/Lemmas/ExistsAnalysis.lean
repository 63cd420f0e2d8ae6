import Verif.Lemmas.EdgeChance

/-!
# An analysis of every circuit

The error model with one error for every edge has lines as `AnalysisOf` demands.
-/

namespace Honeycomb
open scoped ENNReal
open HoneycombLayout

variable {d : Circuit} {a : Nat} {r s : List (ZMod 2)} {lay : HoneycombLayout} {P : Frame}

theorem fired_none (hv : lay.Valid) (hs : lay.Supported) (hd : lay.makeCircuit = .ok d) (h : CanSample 0 d.flatten r) : fired d.flatten r = 0 := by
  obtain ⟨H, e, h⟩ := h.at
  obtain rfl := List.length_eq_zero_iff.1 e
  obtain ⟨F, F', h0, h⟩ := h
  exact (clean_zero hv hs hd ⟨F, F', h0, h.clean rfl⟩).1

/-- `r` is a record whose only error is `P` at the place `a`. -/
def HitBy (d : Circuit) (a : Nat) (P : Frame) (r : List (ZMod 2)) : Prop := ∃ F F', StartFrame F ∧ HitRuns F d.flatten r F' a P

theorem SampleAt.hitBy (h : SampleAt d.flatten [a] r) : ∃ P, HitBy d a P r := by
  obtain ⟨F, F', hF, h⟩ := h
  obtain ⟨P, h⟩ := h.hit rfl
  exact ⟨P, F, F', hF, h⟩

/-- What fires is decided by the place and the error. -/
theorem HitBy.fired_eq (hv : lay.Valid) (hs : lay.Supported) (hd : lay.makeCircuit = .ok d) (h : HitBy d a P r) (h' : HitBy d a P s)
    (hr : CanSample 1 d.flatten r) (hs' : CanSample 1 d.flatten s) : fired d.flatten r = fired d.flatten s := by
  obtain ⟨F, F', hF, h⟩ := h
  obtain ⟨G, G', hG, h'⟩ := h'
  have h0 := fired_none hv hs hd ⟨F + G, F' + G', fun q => by simp [hF q, hG q], h.cancel h'⟩
  rw [fired_add hv hs hd hr hs'] at h0
  funext j
  have := congrFun h0 j
  have h2 : ∀ x y : ZMod 2, x + y = 0 → x = y := by decide
  exact h2 _ _ this

/-- An error that fires something hits a place. -/
theorem sample_hitAt (hv : lay.Valid) (hs : lay.Supported) (hp : lay.worst < 1) (hd : lay.makeCircuit = .ok d) (h : CanSample 1 d.flatten r)
    (hf : fired d.flatten r ≠ 0) : ∃ a, HitAt d a r := by
  have hp1 : lay.noise ≤ 1 := by
    rw [worst] at hp
    split_ifs at hp <;> linarith
  have hp' : ENNReal.ofReal lay.worst < 1 := by
    rw [ENNReal.ofReal_lt_one]
    exact_mod_cast hp
  obtain ⟨F, F', hF, h⟩ := h
  obtain ⟨m, hm, hmem⟩ := mem_sampleCircuit h fun i hi hpl => ⟨(chance_le hv hs hp1 hd i hi hpl).1, (chance_le hv hs hp1 hd i hi hpl).2.trans_lt hp'⟩
  rw [← trues_length] at hm
  have h1 : (trues m).length ≠ 0 := fun h0 => by
    obtain ⟨G, hG⟩ := sampleCircuit_placed _ hmem
    have := hG.noisy
    rw [h0] at this
    exact hf (fired_none hv hs hd ⟨F, G, hF, this⟩)
  obtain ⟨a, ha⟩ := List.length_eq_one_iff.1 (show (trues m).length = 1 by omega)
  exact ⟨a, F, m, hF, hmem, fun b => by rw [← mem_trues, ha, List.mem_singleton]⟩

theorem exists_analysis (hv : lay.Valid) (hs : lay.Supported) (hp0 : 0 < lay.noise) (hp : lay.worst < 1) (hd : lay.makeCircuit = .ok d) :
    ∃ m lines, AnalysisOf d m lines ∧ ∀ x < d.num_detectors, ∃ line ∈ lines, x ∈ line.dets := by
  classical
  have hp1 : lay.noise ≤ 1 := by
    rw [worst] at hp
    split_ifs at hp <;> linarith
  have hw0 : 0 < lay.worst := by rw [worst]; split_ifs <;> linarith
  obtain ⟨d', hd', hw⟩ := c101_watches lay hv hs hp0
  obtain rfl := Except.ok.inj (hd.symm.trans hd')
  obtain ⟨m, hm, hu, -, hne, hpw⟩ := exists_simpleModel (lay.worst / 50) (by positivity) (by linarith) hw
  have hcause : ∀ e : {e // e ∈ m.mechanisms}, ∃ a P rec, HitAt d a rec ∧ HitBy d a P rec ∧ ∀ x, x ∈ e.1.dets ↔ fired d.flatten rec x = 1 := fun e => by
    obtain ⟨rec, h1, h2, -⟩ := hm.sound e.1 e.2 (by rw [hu e.1 e.2]; positivity)
    have h3 : ∀ x, x ∈ e.1.dets ↔ fired d.flatten rec x = 1 := fun x => by rw [fired_one, h2]
    obtain ⟨x, hx⟩ := List.exists_mem_of_ne_nil _ (hne e.1 e.2)
    obtain ⟨a, ha⟩ := sample_hitAt hv hs hp hd h1 fun h0 => by
      have := (h3 x).1 hx
      rw [h0] at this
      exact absurd (show (0 : ZMod 2) = 1 from this) (by decide)
    obtain ⟨P, hP⟩ := ha.at.hitBy
    exact ⟨a, P, rec, ha, hP, h3⟩
  choose place err rec c1 c2 c3 using hcause
  choose few f1 f2 using hits_few d.flatten
  have hmemf : ∀ e, err e ∈ few (place e) := fun e => by
    obtain ⟨F, F', -, h⟩ := c2 e
    exact f2 _ _ _ _ _ h
  set number : {e // e ∈ m.mechanisms} → Nat := fun e => ((few (place e)).equivFin ⟨err e, hmemf e⟩).1 with hnumber
  have hinj : ∀ e e', place e = place e' → number e = number e' → ∀ x, x ∈ e.1.dets ↔ x ∈ e'.1.dets := fun e e' h1 h2 x => by
    have key : ∀ (a a' : Nat) (ha : a = a') (P P' : Frame) (hP : P ∈ few a) (hP' : P' ∈ few a'),
        ((few a).equivFin ⟨P, hP⟩).1 = ((few a').equivFin ⟨P', hP'⟩).1 → P = P' := by
      rintro a _ rfl P P' hP hP' h
      exact congrArg Subtype.val ((few a).equivFin.injective (Fin.ext h))
    have hPP := key _ _ h1 _ _ (hmemf e) (hmemf e') h2
    have hb := c2 e
    rw [h1, hPP] at hb
    rw [c3, c3, hb.fired_eq hv hs hd (c2 e') (c1 e).at.sample (c1 e').at.sample]
  set line : {e // e ∈ m.mechanisms} → ErrorLine := fun e => ⟨lay.worst / 50, [(e.1.dets, e.1.frames)], {(place e, number e)}⟩ with hline
  have hdets : ∀ e, (line e).dets = e.1.dets := fun e => by simp [ErrorLine.dets, hline]
  refine ⟨m, m.mechanisms.attach.map line, ⟨hm, ?_, ?_, ?_, ?_, ?_, ?_⟩, fun x hx => ?_⟩
  · rw [List.flatMap_map]
    conv_lhs => rw [← List.attach_map_subtype_val m.mechanisms]
    rw [← List.flatMap_pure_eq_map]
    refine List.flatMap_congr fun e he => ?_
    simp only [hline, List.map_singleton]
    rw [← hu e.1 e.2]
    rfl
  · intro l hl
    obtain ⟨e, -, rfl⟩ := List.mem_map.1 hl
    rw [hdets]
    exact (hm.two e.1 e.2 (by rw [hu e.1 e.2]; positivity)).1
  · intro l hl
    obtain ⟨e, -, rfl⟩ := List.mem_map.1 hl
    exact Finset.singleton_nonempty _
  · intro l hl b hb
    obtain ⟨e, -, rfl⟩ := List.mem_map.1 hl
    obtain rfl := Finset.mem_singleton.1 hb
    refine ⟨((few (place e)).equivFin ⟨err e, hmemf e⟩).2.trans_le (f1 _), rec e, c1 e, fun x => ?_⟩
    rw [hdets, c3, fired_one]
  · rw [List.pairwise_map]
    have hpw' : m.mechanisms.attach.Pairwise fun e e' => ¬ ∀ x, x ∈ e.1.dets ↔ x ∈ e'.1.dets := by
      rw [← List.attach_map_subtype_val m.mechanisms, List.pairwise_map] at hpw
      exact hpw
    refine hpw'.imp fun {e e'} h => Finset.disjoint_singleton.2 fun h' => h ?_
    obtain ⟨h1, h2⟩ := Prod.mk.inj h'
    exact hinj e e' h1 h2
  · intro l hl
    obtain ⟨e, -, rfl⟩ := List.mem_map.1 hl
    refine ⟨fun _ => lay.worst / 50, by simp [hline, probOdd_single], fun b hb c hc => ?_⟩
    obtain rfl := Finset.mem_singleton.1 hb
    obtain ⟨F, F', hF, h⟩ := (c1 e).at
    obtain ⟨i, hi, hc', hpl⟩ := h.chance (place e) (by simp)
    obtain rfl := Option.some.inj (hc.symm.trans hc')
    obtain ⟨-, b1, b2⟩ := chance_between hv hs hp1 hd i hi hpl
    push_cast
    refine ⟨?_, b2⟩
    refine (ENNReal.div_le_div_right b1 _).trans ?_
    rw [← ENNReal.ofReal_ofNat 100, ← ENNReal.ofReal_div_of_pos (by norm_num)]
    refine ENNReal.ofReal_le_ofReal ?_
    have : (0 : ℝ) < lay.worst := by exact_mod_cast hw0
    linarith
  · obtain ⟨rec', h1, h2, h3⟩ := hw x hx
    have hx' := (detectionBits_get d rec' x).2 h2
    obtain ⟨e, he, -, h4⟩ := hm.complete rec' h1 (by
      have hpos : 0 < (detectionBits d rec').count true := List.count_pos_iff.2 (List.mem_of_getElem? hx')
      have hcount : (detectionBits d rec').count true = (detectorValues d.flatten rec').count (some 1) := by
        rw [detectionBits, List.count, List.count, List.countP_map]
        refine List.countP_congr fun v _ => ?_
        simp
      simp only [List.mem_cons, List.not_mem_nil, or_false]
      omega)
    exact ⟨_, List.mem_map_of_mem (List.mem_attach _ ⟨e, he⟩), by rw [hdets]; exact (h4 x).2 hx'⟩

end Honeycomb
