import Verif.Lemmas.ModelExists

/-!
# An error model with one error for every edge

Of the errors that fire the same detectors one is kept.
-/

namespace Honeycomb
open HoneycombLayout

theorem mechanisms_list {α : Type} (p : Rat) (dets obs : α → List Nat) (l : List α) :
    (Dem.ofList (l.map fun a => errorInstr p (dets a) (obs a))).mechanisms = l.map fun a => ⟨p, dets a, obs a⟩ := by
  have hsh : ∀ i ∈ l.map (fun a => errorInstr p (dets a) (obs a)), i.shiftOf = 0 := fun i hi => by
    obtain ⟨a, -, rfl⟩ := List.mem_map.1 hi
    rfl
  have hsplit : ∀ a, (((dets a).map DemTarget.det ++ (obs a).map DemTarget.obs).splitOn .sep) = [(dets a).map DemTarget.det ++ (obs a).map DemTarget.obs] := fun a => by
    have := List.splitOn_intercalate (ls := [(dets a).map DemTarget.det ++ (obs a).map DemTarget.obs]) .sep (by simp) (by simp)
    simpa [List.intercalate] using this
  have hat : ∀ i (hi : i < l.length), callsAt (l.map fun a => errorInstr p (dets a) (obs a)) i = [.error p (dets l[i]) (obs l[i])] := fun i hi => by
    rw [callsAt, List.getElem?_map, List.getElem?_eq_getElem hi]
    simp only [Option.map_some, errorInstr]
    rw [hsplit]
    simp [demDets_error, demObs_error, detOffset_errors hsh, errorInstr]
    rw [← show (l.map fun a => errorInstr p (dets a) (obs a)) = l.map fun a => DemInstr.error p ((dets a).map .det ++ (obs a).map .obs) from rfl, detOffset_errors hsh]
    simp
  have hr : ∀ l : List α, (List.range l.length).flatMap (fun i => (l[i]?.toList).map fun a => DemCall.error p (dets a) (obs a)) = l.map fun a => .error p (dets a) (obs a) := by
    intro l
    induction l with
    | nil => rfl
    | cons a l ih =>
      rw [List.length_cons, List.range_succ_eq_map, List.flatMap_cons, List.flatMap_map]
      simp only [List.getElem?_cons_zero, List.getElem?_cons_succ]
      rw [ih]
      rfl
  have hc : demCalls (l.map fun a => errorInstr p (dets a) (obs a)) = l.map fun a => .error p (dets a) (obs a) := by
    rw [← hr l, demCalls, List.length_map]
    refine List.flatMap_congr fun i hi => ?_
    rw [List.mem_range] at hi
    rw [hat i hi, List.getElem?_eq_getElem hi]
    rfl
  rw [Dem.mechanisms, unroll_ofList, hc, List.filterMap_map]
  exact List.filterMap_eq_map (f := fun a => (⟨p, dets a, obs a⟩ : Mechanism)) ▸ rfl

theorem connects_mem {e : Mechanism} {n u v : Nat} (hn : ∀ x ∈ e.dets, x < n) (h : e.connects n u v) (x : Nat) : x ∈ e.dets ↔ (x = u ∨ x = v) ∧ x ≠ n := by
  rcases h with h | h | ⟨h, rfl⟩ | ⟨h, rfl⟩ <;> rw [h] at hn ⊢ <;> simp only [List.mem_cons, List.not_mem_nil, or_false, forall_eq_or_imp, forall_eq] at hn ⊢
  · refine ⟨fun h => ⟨h, ?_⟩, fun h => h.1⟩
    rcases h with rfl | rfl <;> omega
  · refine ⟨fun h => ⟨h.symm, ?_⟩, fun h => h.1.symm⟩
    rcases h with rfl | rfl <;> omega
  · omega
  · omega

theorem exists_simpleModel {d : Circuit} (p : Rat) (hp0 : 0 < p) (hp1 : p < 1)
    (hw : ∀ i < d.num_detectors, ∃ rec, CanSample 1 d.flatten rec ∧
      (detectorValues d.flatten rec)[i]? = some (some 1) ∧ (detectorValues d.flatten rec).count (some 1) ≤ 2) :
    ∃ m, ErrorModelOf d m ∧ (∀ e ∈ m.mechanisms, e.p = p) ∧ (∀ u v, (m.between u v).length ≤ 1) ∧
      (∀ e ∈ m.mechanisms, e.dets ≠ []) ∧ m.mechanisms.Pairwise fun e e' => ¬ ∀ x, x ∈ e.dets ↔ x ∈ e'.dets := by
  classical
  have hfin : {rec | CanSample 1 d.flatten rec ∧ (detectionBits d rec).count true ∈ [1, 2]}.Finite :=
    (List.finite_length_eq (ZMod 2) (measured d.flatten).length).subset fun rec h => h.1.length
  set S := (hfin.image (detectionBits d)).toFinset.toList with hS
  have hmem : ∀ row, row ∈ S ↔ ∃ rec, (CanSample 1 d.flatten rec ∧ (detectionBits d rec).count true ∈ [1, 2]) ∧ detectionBits d rec = row := fun row => by
    rw [hS, Finset.mem_toList, Set.Finite.mem_toFinset]
    rfl
  have hlen : ∀ row ∈ S, row.length = d.num_detectors := fun row hrow => by
    obtain ⟨rec, -, rfl⟩ := (hmem row).1 hrow
    exact detectionBits_length d rec
  obtain ⟨rep, hrep⟩ : ∃ rep : List Bool → List (ZMod 2), ∀ row ∈ S, (CanSample 1 d.flatten (rep row) ∧ (detectionBits d (rep row)).count true ∈ [1, 2]) ∧
      detectionBits d (rep row) = row := by
    refine ⟨fun row => if h : ∃ rec, (CanSample 1 d.flatten rec ∧ (detectionBits d rec).count true ∈ [1, 2]) ∧ detectionBits d rec = row then h.choose else [], fun row hrow => ?_⟩
    have h := (hmem row).1 hrow
    simp only [dif_pos h]
    exact h.choose_spec
  have hcount : ∀ rec, (detectionBits d rec).count true = (detectorValues d.flatten rec).count (some 1) := fun rec => by
    rw [detectionBits, List.count, List.count, List.countP_map]
    refine List.countP_congr fun v _ => ?_
    simp
  set m := Dem.ofList (S.map fun row => errorInstr p (trueAt row) (trueAt (observableBits d (rep row)))) with hm
  have hlist : m.mechanisms = S.map fun row => ⟨p, trueAt row, trueAt (observableBits d (rep row))⟩ := mechanisms_list _ _ _ _
  have hmech : ∀ e, e ∈ m.mechanisms ↔ ∃ row ∈ S, e = ⟨p, trueAt row, trueAt (observableBits d (rep row))⟩ := mechanisms_errors _ _ _ _
  have hlt : ∀ row ∈ S, ∀ x ∈ trueAt row, x < d.num_detectors := fun row hrow x hx => by
    rw [mem_trueAt] at hx
    by_contra hge
    rw [List.getElem?_eq_none (by rw [hlen row hrow]; omega)] at hx
    cases hx
  have hnum : m.num_detectors = d.num_detectors := by
    refine num_detectors_errors _ _ _ _ hlt fun x hx => ?_
    obtain ⟨rec, h1, h2, h3⟩ := hw x hx
    have hx' := (detectionBits_get d rec x).2 h2
    refine ⟨_, (hmem _).2 ⟨rec, ⟨h1, ?_⟩, rfl⟩, mem_trueAt.2 hx'⟩
    have hpos : 0 < (detectionBits d rec).count true := List.count_pos_iff.2 (List.mem_of_getElem? hx')
    rw [← hcount] at h3
    simp only [List.mem_cons, List.not_mem_nil, or_false]
    omega
  have hinj : ∀ row ∈ S, ∀ row' ∈ S, (∀ x, x ∈ trueAt row ↔ x ∈ trueAt row') → row = row' := fun row hr row' hr' h => by
    refine List.ext_getElem ((hlen row hr).trans (hlen row' hr').symm) fun i h1 h2 => ?_
    have := h i
    rw [mem_trueAt, mem_trueAt, List.getElem?_eq_getElem h1, List.getElem?_eq_getElem h2] at this
    cases ha : row[i] <;> cases hb : row'[i] <;> simp [ha, hb] at this ⊢
  refine ⟨m, ⟨hnum, ?_, ?_, ?_, ?_, ?_⟩, ?_, ?_, ?_, ?_⟩
  · intro i hi
    rw [hm, unroll_ofList] at hi
    obtain ⟨rec, -, rfl⟩ := List.mem_map.1 hi
    exact Nat.zero_le _
  · intro e he
    obtain ⟨row, -, rfl⟩ := (hmech e).1 he
    exact ⟨hp0.le, hp1⟩
  · intro e he _
    obtain ⟨row, hr, rfl⟩ := (hmech e).1 he
    obtain ⟨⟨-, h1⟩, h2⟩ := hrep row hr
    rw [h2] at h1
    simp only [List.mem_cons, List.not_mem_nil, or_false] at h1
    exact ⟨List.nodup_range.filter _, by show (trueAt _).length ≤ 2; rw [trueAt_length]; omega⟩
  · intro e he _
    obtain ⟨row, hr, rfl⟩ := (hmech e).1 he
    obtain ⟨⟨h1, -⟩, h2⟩ := hrep row hr
    exact ⟨rep row, h1, fun x => by rw [h2]; exact mem_trueAt, fun j => mem_trueAt⟩
  · intro rec h1 h2
    exact ⟨_, (hmech _).2 ⟨_, (hmem _).2 ⟨rec, ⟨h1, h2⟩, rfl⟩, rfl⟩, hp0.ne', fun x => mem_trueAt⟩
  · intro e he
    obtain ⟨rec, -, rfl⟩ := (hmech e).1 he
    rfl
  · intro u v
    have hnd : m.mechanisms.Nodup := by
      rw [hlist]
      refine List.Nodup.map_on (fun row hr row' hr' h => ?_) (Finset.nodup_toList _)
      injection h with _ h1 _
      exact hinj row hr row' hr' fun x => by rw [h1]
    have hall : ∀ e ∈ m.between u v, ∀ e' ∈ m.between u v, e = e' := fun e he e' he' => by
      obtain ⟨he, h1⟩ := List.mem_filter.1 he
      obtain ⟨he', h1'⟩ := List.mem_filter.1 he'
      rw [decide_eq_true_iff, hnum] at h1 h1'
      obtain ⟨row, hr, rfl⟩ := (hmech e).1 he
      obtain ⟨row', hr', rfl⟩ := (hmech e').1 he'
      have a := connects_mem (hlt row hr) h1.2
      have b := connects_mem (hlt row' hr') h1'.2
      rw [hinj row hr row' hr' fun x => (a x).trans (b x).symm]
    have hnb : (m.between u v).Nodup := hnd.filter _
    rcases hl : m.between u v with _ | ⟨a, _ | ⟨b, l⟩⟩
    · simp
    · simp
    · rw [hl] at hall hnb
      have := hall a (by simp) b (by simp)
      subst this
      simp at hnb
  · intro e he h0
    obtain ⟨row, hr, rfl⟩ := (hmech e).1 he
    obtain ⟨⟨-, h1⟩, h2⟩ := hrep row hr
    rw [h2] at h1
    simp only [List.mem_cons, List.not_mem_nil, or_false] at h1
    have := congrArg List.length h0
    simp only [trueAt_length, List.length_nil] at this
    omega
  · rw [hlist, List.pairwise_map]
    exact (List.Pairwise.imp_of_mem fun {row row'} hr hr' hne h => hne (hinj row hr row' hr' h)) (Finset.nodup_toList _)

end Honeycomb
