import Verif.Lemmas.ErrorModel
import Mathlib.Data.Set.Finite.List

/-! # Every generated circuit has an error model -/

namespace Honeycomb
open HoneycombLayout

/-- The model with the given instructions. -/
def Dem.ofList : List DemInstr → Dem
  | [] => .nil
  | i :: l => .op i (Dem.ofList l)

theorem unroll_ofList : ∀ l : List DemInstr, (Dem.ofList l).unroll = l
  | [] => rfl
  | i :: l => by rw [Dem.ofList, Dem.unroll, unroll_ofList l]

/-- The instruction for one error without decomposition. -/
def errorInstr (p : Rat) (dets obs : List Nat) : DemInstr := .error p (dets.map .det ++ obs.map .obs)

theorem demDets_error (dets obs : List Nat) : demDets (dets.map .det ++ obs.map .obs) = dets := by
  induction dets with
  | nil =>
    induction obs with
    | nil => rfl
    | cons a l ih => exact ih
  | cons a l ih => exact congrArg (a :: ·) ih

theorem demObs_error (dets obs : List Nat) : demObs (dets.map .det ++ obs.map .obs) = obs := by
  induction dets with
  | nil =>
    induction obs with
    | nil => rfl
    | cons a l ih => exact congrArg (a :: ·) ih
  | cons a l ih => exact ih

theorem detOffset_errors {l : List DemInstr} (h : ∀ i ∈ l, i.shiftOf = 0) (i : Nat) : detOffsetAt l i = 0 := by
  rw [detOffsetAt, List.sum_eq_zero_iff]
  rintro x hx
  obtain ⟨j, hj, rfl⟩ := List.mem_map.1 hx
  exact h j (List.mem_of_mem_take hj)

theorem mechanisms_errors {α : Type} (p : Rat) (dets obs : α → List Nat) (l : List α) (e : Mechanism) :
    e ∈ (Dem.ofList (l.map fun a => errorInstr p (dets a) (obs a))).mechanisms ↔ ∃ a ∈ l, e = ⟨p, dets a, obs a⟩ := by
  have hsh : ∀ i ∈ l.map (fun a => errorInstr p (dets a) (obs a)), i.shiftOf = 0 := fun i hi => by
    obtain ⟨a, -, rfl⟩ := List.mem_map.1 hi
    rfl
  have hsplit : ∀ a, (((dets a).map DemTarget.det ++ (obs a).map DemTarget.obs).splitOn .sep) = [(dets a).map DemTarget.det ++ (obs a).map DemTarget.obs] := fun a => by
    have := List.splitOn_intercalate (ls := [(dets a).map DemTarget.det ++ (obs a).map DemTarget.obs]) .sep (by simp) (by simp)
    simpa [List.intercalate] using this
  have hat : ∀ i (hi : i < l.length), callsAt (l.map fun a => errorInstr p (dets a) (obs a)) i = [.error p (dets l[i]) (obs l[i])] := fun i hi => by
    rw [callsAt, List.getElem?_map, List.getElem?_eq_getElem hi]
    simp only [Option.map_some, errorInstr]
    rw [hsplit]
    simp [demDets_error, demObs_error, detOffset_errors hsh, errorInstr]
    rw [← show (l.map fun a => errorInstr p (dets a) (obs a)) = l.map fun a => DemInstr.error p ((dets a).map .det ++ (obs a).map .obs) from rfl, detOffset_errors hsh]
    simp
  rw [Dem.mechanisms, unroll_ofList, List.mem_filterMap]
  constructor
  · rintro ⟨c, hc, he⟩
    obtain ⟨i, hi, hc⟩ := List.mem_flatMap.1 hc
    rw [List.mem_range, List.length_map] at hi
    rw [hat i hi, List.mem_singleton] at hc
    subst hc
    exact ⟨l[i], List.getElem_mem hi, (Option.some.inj he).symm⟩
  · rintro ⟨a, ha, rfl⟩
    obtain ⟨i, hi, rfl⟩ := List.getElem_of_mem ha
    refine ⟨.error p (dets l[i]) (obs l[i]), List.mem_flatMap.2 ⟨i, by simpa using hi, by rw [hat i hi]; simp⟩, rfl⟩

theorem idBound_le {l : List Nat} {n : Nat} (h : ∀ x ∈ l, x < n) : idBound l ≤ n := by
  induction l with
  | nil => exact Nat.zero_le _
  | cons a l ih =>
    have h1 := h a List.mem_cons_self
    have h2 := ih fun x hx => h x (List.mem_cons_of_mem _ hx)
    show max (a + 1) (idBound l) ≤ n
    omega

theorem num_detectors_errors {α : Type} (p : Rat) (dets obs : α → List Nat) (l : List α) {n : Nat} (h : ∀ a ∈ l, ∀ x ∈ dets a, x < n)
    (hc : ∀ x < n, ∃ a ∈ l, x ∈ dets a) : (Dem.ofList (l.map fun a => errorInstr p (dets a) (obs a))).num_detectors = n := by
  refine le_antisymm ?_ ?_
  · have hsh : ∀ i ∈ l.map (fun a => errorInstr p (dets a) (obs a)), i.shiftOf = 0 := fun i hi => by
      obtain ⟨a, -, rfl⟩ := List.mem_map.1 hi
      rfl
    rw [Dem.num_detectors, unroll_ofList]
    refine idBound_le fun x hx => ?_
    obtain ⟨i, hi, hx⟩ := List.mem_flatMap.1 hx
    rw [List.mem_range, List.length_map] at hi
    rw [absDetIds, List.getElem?_map, List.getElem?_eq_getElem hi, detOffset_errors hsh] at hx
    have hx' : x ∈ demDets ((dets l[i]).map .det ++ (obs l[i]).map .obs) := by simpa [errorInstr, DemInstr.detIds] using hx
    rw [demDets_error] at hx'
    exact h _ (List.getElem_mem hi) x hx'
  · by_contra hlt
    push Not at hlt
    obtain ⟨a, ha, hx⟩ := hc _ hlt
    exact lt_irrefl _ (mechanisms_ids _ ⟨p, dets a, obs a⟩ ((mechanisms_errors p dets obs l _).2 ⟨a, ha, rfl⟩) _ hx)

/-- The positions of the marks. -/
def trueAt (row : List Bool) : List Nat := (List.range row.length).filter fun x => row[x]? = some true

theorem mem_trueAt {row : List Bool} {x : Nat} : x ∈ trueAt row ↔ row[x]? = some true := by
  rw [trueAt, List.mem_filter, List.mem_range, decide_eq_true_iff]
  refine ⟨fun h => h.2, fun h => ⟨?_, h⟩⟩
  by_contra hx
  rw [List.getElem?_eq_none (by omega)] at h
  cases h

theorem trueAt_length (row : List Bool) : (trueAt row).length = row.count true := by
  rw [trueAt, ← List.countP_eq_length_filter]
  induction row with
  | nil => rfl
  | cons b row ih =>
    rw [List.length_cons, List.range_succ_eq_map, List.countP_cons, List.countP_map, List.count_cons, ← ih]
    congr 1
    cases b <;> simp

theorem exists_errorModel {d : Circuit} (p : Rat) (hp0 : 0 < p) (hp1 : p < 1)
    (hw : ∀ i < d.num_detectors, ∃ rec, CanSample 1 d.flatten rec ∧
      (detectorValues d.flatten rec)[i]? = some (some 1) ∧ (detectorValues d.flatten rec).count (some 1) ≤ 2) :
    ∃ m, ErrorModelOf d m ∧ ∀ e ∈ m.mechanisms, e.p = p := by
  classical
  have hfin : {rec | CanSample 1 d.flatten rec ∧ (detectionBits d rec).count true ∈ [1, 2]}.Finite :=
    (List.finite_length_eq (ZMod 2) (measured d.flatten).length).subset fun rec h => h.1.length
  set S := hfin.toFinset.toList with hS
  have hmem : ∀ rec, rec ∈ S ↔ CanSample 1 d.flatten rec ∧ (detectionBits d rec).count true ∈ [1, 2] := fun rec => by
    rw [hS, Finset.mem_toList, Set.Finite.mem_toFinset]
    rfl
  have hcount : ∀ rec, (detectionBits d rec).count true = (detectorValues d.flatten rec).count (some 1) := fun rec => by
    rw [detectionBits, List.count, List.count, List.countP_map]
    refine List.countP_congr fun v _ => ?_
    simp
  set m := Dem.ofList (S.map fun rec => errorInstr p (trueAt (detectionBits d rec)) (trueAt (observableBits d rec))) with hm
  have hmech : ∀ e, e ∈ m.mechanisms ↔ ∃ rec ∈ S, e = ⟨p, trueAt (detectionBits d rec), trueAt (observableBits d rec)⟩ := mechanisms_errors _ _ _ _
  refine ⟨m, ⟨?_, ?_, ?_, ?_, ?_, ?_⟩, ?_⟩
  · refine num_detectors_errors _ _ _ _ (fun rec _ x hx => ?_) fun x hx => ?_
    · rw [mem_trueAt] at hx
      by_contra hge
      rw [List.getElem?_eq_none (by rw [detectionBits_length]; omega)] at hx
      cases hx
    · obtain ⟨rec, h1, h2, h3⟩ := hw x hx
      have hx' := (detectionBits_get d rec x).2 h2
      refine ⟨rec, (hmem rec).2 ⟨h1, ?_⟩, mem_trueAt.2 hx'⟩
      have hpos : 0 < (detectionBits d rec).count true := List.count_pos_iff.2 (List.mem_of_getElem? hx')
      rw [← hcount] at h3
      simp only [List.mem_cons, List.not_mem_nil, or_false]
      omega
  · intro i hi
    rw [hm, unroll_ofList] at hi
    obtain ⟨rec, -, rfl⟩ := List.mem_map.1 hi
    exact Nat.zero_le _
  · intro e he
    obtain ⟨rec, -, rfl⟩ := (hmech e).1 he
    exact ⟨hp0.le, hp1⟩
  · intro e he _
    obtain ⟨rec, hr, rfl⟩ := (hmech e).1 he
    have := ((hmem rec).1 hr).2
    simp only [List.mem_cons, List.not_mem_nil, or_false] at this
    exact ⟨List.nodup_range.filter _, by show (trueAt _).length ≤ 2; rw [trueAt_length]; omega⟩
  · intro e he _
    obtain ⟨rec, hr, rfl⟩ := (hmech e).1 he
    exact ⟨rec, ((hmem rec).1 hr).1, fun x => mem_trueAt, fun j => mem_trueAt⟩
  · intro rec h1 h2
    exact ⟨_, (hmech _).2 ⟨rec, (hmem rec).2 ⟨h1, h2⟩, rfl⟩, hp0.ne', fun x => mem_trueAt⟩
  · intro e he
    obtain ⟨rec, -, rfl⟩ := (hmech e).1 he
    rfl

/-- Every graph has a minimum weight decoder. -/
theorem exists_minimumWeight (g : NxGraph) (boundary no : Nat) : ∃ matching, MinimumWeight g boundary no matching := by
  classical
  have key : ∀ row, ∃ out, (∃ T, g.HasEdges T ∧ Explains boundary T row) → ∃ T, g.HasEdges T ∧ Explains boundary T row ∧
      (∀ T', g.HasEdges T' → Explains boundary T' row → g.weightOf T ≤ g.weightOf T') ∧ out = g.predicts no T := by
    intro row
    by_cases h : ∃ T, g.HasEdges T ∧ Explains boundary T row
    · have hsub : ∀ T, g.HasEdges T → T ⊆ (g.edges.map Prod.fst).toFinset := fun T hT k hk => by
        obtain ⟨data, hdata⟩ := hT.2 k hk
        rw [NxGraph.edge?, edgeKey_of_le (hT.1 k hk)] at hdata
        rw [List.mem_toFinset, ← PyDict.get?_isSome_iff, show g.edges.get? k = some data from hdata]
        rfl
      obtain ⟨T0, h0, h0'⟩ := h
      obtain ⟨T, hT, hmin⟩ := Finset.exists_min_image ((g.edges.map Prod.fst).toFinset.powerset.filter fun T => g.HasEdges T ∧ Explains boundary T row) g.weightOf
        ⟨T0, by rw [Finset.mem_filter, Finset.mem_powerset]; exact ⟨hsub T0 h0, h0, h0'⟩⟩
      rw [Finset.mem_filter] at hT
      exact ⟨g.predicts no T, fun _ => ⟨T, hT.2.1, hT.2.2, fun T' h1 h2 => hmin T' (by
        rw [Finset.mem_filter, Finset.mem_powerset]; exact ⟨hsub T' h1, h1, h2⟩), rfl⟩⟩
    · exact ⟨[], fun h' => absurd h' h⟩
  choose matching hmatch using key
  exact ⟨matching, hmatch⟩

end Honeycomb
