import Verif.Props.Csv

/-!
# Grouping, changing and summarising shot data (C51, C54, C55, C56)
-/

namespace Honeycomb

/-! ## C51: grouping, merging and filtering conserve shots -/

section

variable {κ : Type} [DecidableEq κ]

theorem get?_perm {ν : Type} {a b : PyDict κ ν} (h : a.Perm b) (hn : (b.map Prod.fst).Nodup) (k : κ) : a.get? k = b.get? k := by
  have hn' : (a.map Prod.fst).Nodup := (h.map _).nodup_iff.mpr hn
  cases hd : PyDict.get? b k with
  | none =>
    rw [PyDict.get?_eq_none_iff] at hd ⊢
    exact fun hm => hd ((h.map _).mem_iff.mp hm)
  | some v => exact PyDict.get?_of_mem hn' (h.mem_iff.mpr (PyDict.mem_of_get? hd))

theorem sortedByKey_sorted {ν : Type} (le : κ → κ → Bool) (htrans : ∀ a b c, le a b = true → le b c = true → le a c = true)
    (htotal : ∀ a b, le a b = true ∨ le b a = true) (d : PyDict κ ν) :
    ((sortedByKey le d).map Prod.fst).Pairwise fun a b => le a b = true := by
  rw [List.pairwise_map]
  exact List.pairwise_mergeSort (fun a b c => htrans a.1 b.1 c.1)
    (fun a b => by simpa using htotal a.1 b.1) d

theorem sortedByKey_perm {ν : Type} (le : κ → κ → Bool) (d : PyDict κ ν) : (sortedByKey le d).Perm d := List.mergeSort_perm _ _

theorem set_new {ν : Type} {d : PyDict κ ν} {k : κ} (h : k ∉ d.map Prod.fst) (v : ν) : d.set k v = d ++ [(k, v)] := by
  induction d with
  | nil => rfl
  | cons x d ih =>
    obtain ⟨x1, x2⟩ := x
    rw [PyDict.set, if_neg (by intro hh; exact h (by simp [hh])), ih (fun hh => h (by simp [hh]))]
    rfl

/-- The entries of `data` whose description has the given key. -/
def entriesOf (key : DecodingProblemDesc → κ) (data : ProblemShotData) (k : κ) : ProblemShotData :=
  data.filter fun e => decide (key e.1 = k)

theorem grouped_fold (key : DecodingProblemDesc → κ) (data : ProblemShotData) (hn : (data.map Prod.fst).Nodup) :
    (((data.foldl (fun result kv =>
      result.set (key kv.1) (PyDict.set ((result.get? (key kv.1)).getD []) kv.1 kv.2)) []) : PyDict κ ProblemShotData).map
        Prod.fst).Nodup ∧
    ∀ k, PyDict.get? (data.foldl (fun result kv =>
      result.set (key kv.1) (PyDict.set ((result.get? (key kv.1)).getD []) kv.1 kv.2)) []) k
      = if entriesOf key data k = [] then none else some (entriesOf key data k) := by
  induction data using List.reverseRecOn with
  | nil => exact ⟨by simp, fun k => rfl⟩
  | append_singleton data e ih =>
    have hn1 : (data.map Prod.fst).Nodup := by
      rw [List.map_append, List.nodup_append] at hn
      exact hn.1
    have he : e.1 ∉ data.map Prod.fst := by
      intro hm
      rw [List.map_append, List.nodup_append] at hn
      exact hn.2.2 _ hm _ (by simp) rfl
    obtain ⟨i1, i2⟩ := ih hn1
    rw [List.foldl_append, List.foldl_cons, List.foldl_nil]
    refine ⟨PyDict.nodup_set i1 _ _, fun k => ?_⟩
    rw [PyDict.get?_set]
    by_cases hk : key e.1 = k
    · rw [if_pos hk]
      have e1 : entriesOf key (data ++ [e]) k = entriesOf key data k ++ [e] := by
        simp [entriesOf, List.filter_append, hk]
      rw [e1, if_neg (by simp), hk, i2 k]
      have hnk : e.1 ∉ (entriesOf key data k).map Prod.fst := by
        intro hm
        obtain ⟨x, hx, hxe⟩ := List.mem_map.mp hm
        exact he (List.mem_map.mpr ⟨x, (List.mem_filter.mp hx).1, hxe⟩)
      have hg : (if entriesOf key data k = [] then none else some (entriesOf key data k)).getD [] = entriesOf key data k := by
        by_cases h0 : entriesOf key data k = []
        · rw [if_pos h0, h0]; rfl
        · rw [if_neg h0]; rfl
      rw [hg, set_new hnk]
    · rw [if_neg hk, i2 k]
      have e1 : entriesOf key (data ++ [e]) k = entriesOf key data k := by
        simp [entriesOf, List.filter_append, hk]
      rw [e1]

/-- `grouped_by` puts every entry, unchanged, into the group of its key and nowhere else: the group of `k` has exactly the entries
with key `k`, and there are no empty groups. -/
theorem c51_grouped (le : κ → κ → Bool) (key : DecodingProblemDesc → κ) (data : ProblemShotData)
    (hn : (data.map Prod.fst).Nodup) (k : κ) :
    (groupedBy le key data).get? k = if entriesOf key data k = [] then none else some (entriesOf key data k) := by
  obtain ⟨h1, h2⟩ := grouped_fold key data hn
  rw [groupedBy, get?_perm (sortedByKey_perm le _) h1, h2]

/-- The keys of the groups are distinct and sorted. -/
theorem c51_grouped_sorted (le : κ → κ → Bool) (htrans : ∀ a b c, le a b = true → le b c = true → le a c = true)
    (htotal : ∀ a b, le a b = true ∨ le b a = true) (key : DecodingProblemDesc → κ) (data : ProblemShotData)
    (hn : (data.map Prod.fst).Nodup) :
    ((groupedBy le key data).map Prod.fst).Nodup ∧ ((groupedBy le key data).map Prod.fst).Pairwise fun a b => le a b = true :=
  ⟨((sortedByKey_perm le _).map _).nodup_iff.mpr (grouped_fold key data hn).1, sortedByKey_sorted le htrans htotal _⟩

/-- All groups together have exactly the entries of the data. -/
theorem c51_grouped_partition (le : κ → κ → Bool) (key : DecodingProblemDesc → κ) (data : ProblemShotData)
    (hn : (data.map Prod.fst).Nodup) : ((groupedBy le key data).flatMap Prod.snd).Perm data := by
  have hnd : ((groupedBy le key data).map Prod.fst).Nodup :=
    ((sortedByKey_perm le _).map _).nodup_iff.mpr (grouped_fold key data hn).1
  have hgrp : ∀ g ∈ groupedBy le key data, g.2 = entriesOf key data g.1 := by
    intro g hg
    have := PyDict.get?_of_mem hnd (k := g.1) (v := g.2) hg
    rw [c51_grouped le key data hn] at this
    split_ifs at this
    exact (Option.some.inj this).symm
  have hdn : data.Nodup := List.Nodup.of_map _ hn
  refine (List.perm_ext_iff_of_nodup ?_ hdn).mpr ?_
  · rw [List.nodup_flatMap]
    refine ⟨fun g hg => ?_, ?_⟩
    · rw [hgrp g hg]
      exact hdn.filter _
    · rw [List.Nodup, List.pairwise_map] at hnd
      refine hnd.imp_of_mem fun {x y} hx hy hxy => ?_
      simp only [Function.onFun]
      rw [hgrp x hx, hgrp y hy]
      intro e he he'
      have h1 := (List.mem_filter.mp he).2
      have h2 := (List.mem_filter.mp he').2
      simp only [decide_eq_true_eq] at h1 h2
      exact hxy (h1.symm.trans h2)
  · intro e
    rw [List.mem_flatMap]
    constructor
    · rintro ⟨g, hg, he⟩
      rw [hgrp g hg] at he
      exact (List.mem_filter.mp he).1
    · intro he
      have hm : e ∈ entriesOf key data (key e.1) := List.mem_filter.mpr ⟨he, by simp⟩
      have hgk := c51_grouped le key data hn (key e.1)
      rw [if_neg (List.ne_nil_of_mem hm)] at hgk
      exact ⟨(key e.1, entriesOf key data (key e.1)), PyDict.mem_of_get? hgk, hm⟩

/-- `merged_by` holds, per key, the sums over the entries with that key. -/
theorem c51_merged (le : κ → κ → Bool) (key : DecodingProblemDesc → κ) (data : ProblemShotData) :
    HoldsTotals (mergedBy le key data) (data.map fun e => (key e.1, e.2)) := by
  have h := holdsTotals_fold (data.map fun e => (key e.1, e.2)) (holdsTotals_nil (κ := κ))
  rw [List.foldl_map, List.nil_append] at h
  refine ⟨((sortedByKey_perm le _).map _).nodup_iff.mpr h.1, fun k => ?_⟩
  rw [mergedBy, get?_perm (sortedByKey_perm le _) h.1, h.2]

/-- The keys of the result are sorted. -/
theorem c51_merged_sorted (le : κ → κ → Bool) (htrans : ∀ a b c, le a b = true → le b c = true → le a c = true)
    (htotal : ∀ a b, le a b = true ∨ le b a = true) (key : DecodingProblemDesc → κ) (data : ProblemShotData) :
    ((mergedBy le key data).map Prod.fst).Pairwise fun a b => le a b = true := sortedByKey_sorted le htrans htotal _

theorem sumShots_add_cons (v : ShotData) (vs : List ShotData) : sumShots (v :: vs) = v.add (sumShots vs) := by
  simp [sumShots, ShotData.add]

theorem add_assoc' (a b c : ShotData) : (a.add b).add c = a.add (b.add c) := by
  simp only [ShotData.add, add_assoc]

theorem add_comm' (a b : ShotData) : a.add b = b.add a := by
  simp only [ShotData.add, add_comm]

theorem sumShots_addShots (d : PyDict κ ShotData) (k : κ) (v : ShotData) :
    sumShots ((addShots d k v).map Prod.snd) = (sumShots (d.map Prod.snd)).add v := by
  unfold addShots
  induction d with
  | nil => simp [PyDict.set, PyDict.get?, sumShots, ShotData.add]
  | cons x d ih =>
    obtain ⟨x1, x2⟩ := x
    by_cases hk : x1 = k
    · subst hk
      simp only [PyDict.get?, PyDict.set, if_true, Option.getD_some, List.map_cons, sumShots_add_cons]
      rw [add_assoc', add_comm' v, ← add_assoc']
    · simp only [PyDict.get?, PyDict.set, if_neg hk, List.map_cons, sumShots_add_cons, ih, add_assoc']

/-- No shots get lost or counted twice: the sums over all keys are the sums over all entries. -/
theorem c51_merged_conserves (le : κ → κ → Bool) (key : DecodingProblemDesc → κ) (data : ProblemShotData) :
    sumShots ((mergedBy le key data).map Prod.snd) = sumShots (data.map Prod.snd) := by
  rw [mergedBy, sumShots_perm ((sortedByKey_perm le _).map _)]
  induction data using List.reverseRecOn with
  | nil => rfl
  | append_singleton data e ih =>
    rw [List.foldl_append, List.foldl_cons, List.foldl_nil, sumShots_addShots, ih, List.map_append, List.map_singleton,
      sumShots_concat]

theorem merge_heap_inv (key : DecodingProblemDesc → κ) (heap : List ShotData) (data : PyDict DecodingProblemDesc Nat)
    (hv : ∀ e ∈ data, e.2 < heap.length) :
    let s := mergeHeap key data heap
    let D : PyDict κ ShotData := (data.map fun e => (key e.1, (heap[e.2]?).getD {})).foldl (fun d r => addShots d r.1 r.2) []
    heap <+: s.2 ∧ s.1.map Prod.fst = D.map Prod.fst ∧
    (∀ k t, s.1.get? k = some t → heap.length ≤ t ∧ t < s.2.length) ∧
    (∀ k k' t, s.1.get? k = some t → s.1.get? k' = some t → k = k') ∧
    ∀ k, (s.1.get? k).map (fun t => (s.2[t]?).getD {}) = D.get? k := by
  induction data using List.reverseRecOn with
  | nil => exact ⟨List.prefix_refl _, rfl, by simp [mergeHeap, PyDict.get?], by simp [mergeHeap, PyDict.get?], fun k => rfl⟩
  | append_singleton data e ih =>
    have ih := ih (fun x hx => hv x (by simp [hx]))
    have hve : e.2 < heap.length := hv e (by simp)
    simp only at ih ⊢
    have hs : mergeHeap key (data ++ [e]) heap = mergeStep key (mergeHeap key data heap) e := by
      simp [mergeHeap]
    rw [hs, List.map_append, List.foldl_append, List.map_singleton, List.foldl_cons, List.foldl_nil]
    revert ih
    generalize mergeHeap key data heap = s
    generalize (data.map fun e => (key e.1, (heap[e.2]?).getD {})).foldl (fun d r => addShots d r.1 r.2) [] = D
    rintro ⟨i1, i2, i3, i4, i5⟩
    obtain ⟨res, hp⟩ := s
    simp only at i1 i2 i3 i4 i5
    have hlen : heap.length ≤ hp.length := i1.length_le
    have hread : (hp ++ [({} : ShotData)])[e.2]? = heap[e.2]? := by
      rw [List.getElem?_append_left (by omega)]
      obtain ⟨r, rfl⟩ := i1
      rw [List.getElem?_append_left hve]
    have hD : D.get? (key e.1) = (res.get? (key e.1)).map (fun t => (hp[t]?).getD {}) := (i5 _).symm
    have hkeep : ∀ (t : Nat) (f : ShotData → ShotData), heap.length ≤ t → heap <+: (hp ++ [({} : ShotData)]).modify t f := by
      intro t f ht
      obtain ⟨r, rfl⟩ := i1
      rw [List.prefix_iff_getElem?]
      intro j hj
      rw [List.getElem?_modify, List.append_assoc, List.getElem?_append_left hj]
      simp only [if_neg (show ¬ t = j by omega)]
      simp [List.getElem?_eq_getElem hj]
    simp only [mergeStep, hread, addShots]
    cases hr : res.get? (key e.1) with
    | some t =>
      obtain ⟨t1, t2⟩ := i3 _ _ hr
      rw [hr, Option.map_some] at hD
      have hin : key e.1 ∈ D.map Prod.fst := by
        rw [← PyDict.get?_isSome_iff, hD]; rfl
      simp only [Option.getD_some, hD]
      refine ⟨hkeep t _ t1, ?_, ?_, i4, ?_⟩
      · rw [PyDict.map_fst_set, if_pos hin, i2]
      · intro k u hk
        obtain ⟨u1, u2⟩ := i3 k u hk
        refine ⟨u1, ?_⟩
        rw [List.length_modify, List.length_append]
        omega
      · intro k
        rw [PyDict.get?_set]
        by_cases hk : key e.1 = k
        · subst hk
          rw [hr, if_pos rfl, Option.map_some, List.getElem?_modify, List.getElem?_append_left t2,
            List.getElem?_eq_getElem t2]
          simp
        · rw [if_neg hk, ← i5 k]
          cases hu : res.get? k with
          | none => rfl
          | some u =>
            obtain ⟨u1, u2⟩ := i3 k u hu
            have hne : t ≠ u := by
              rintro rfl
              exact hk (i4 _ _ _ hr hu)
            rw [Option.map_some, Option.map_some, List.getElem?_modify, List.getElem?_append_left u2]
            simp [hne]
    | none =>
      rw [hr, Option.map_none] at hD
      have hout : key e.1 ∉ D.map Prod.fst := (PyDict.get?_eq_none_iff _ _).mp hD
      have hout' : key e.1 ∉ res.map Prod.fst := (PyDict.get?_eq_none_iff _ _).mp hr
      simp only [Option.getD_none, hD]
      refine ⟨hkeep hp.length _ hlen, ?_, ?_, ?_, ?_⟩
      · rw [PyDict.map_fst_set, PyDict.map_fst_set, if_neg hout, if_neg hout', i2]
      · intro k u hk
        rw [PyDict.get?_set] at hk
        rw [List.length_modify, List.length_append]
        by_cases hk' : key e.1 = k
        · rw [if_pos hk'] at hk
          cases hk
          simp [hlen]
        · rw [if_neg hk'] at hk
          obtain ⟨u1, u2⟩ := i3 k u hk
          exact ⟨u1, by omega⟩
      · intro k k' t h1 h2
        rw [PyDict.get?_set] at h1 h2
        by_cases hk : key e.1 = k <;> by_cases hk' : key e.1 = k'
        · exact hk.symm.trans hk'
        · rw [if_pos hk] at h1
          rw [if_neg hk'] at h2
          cases h1
          exact absurd (i3 _ _ h2).2 (lt_irrefl _)
        · rw [if_neg hk] at h1
          rw [if_pos hk'] at h2
          cases h2
          exact absurd (i3 _ _ h1).2 (lt_irrefl _)
        · rw [if_neg hk] at h1
          rw [if_neg hk'] at h2
          exact i4 _ _ _ h1 h2
      · intro k
        rw [PyDict.get?_set, PyDict.get?_set]
        by_cases hk : key e.1 = k
        · rw [if_pos hk, if_pos hk, Option.map_some, List.getElem?_modify]
          simp
        · rw [if_neg hk, if_neg hk, ← i5 k]
          cases hu : res.get? k with
          | none => rfl
          | some u =>
            obtain ⟨u1, u2⟩ := i3 k u hu
            rw [Option.map_some, Option.map_some, List.getElem?_modify, List.getElem?_append_left u2]
            simp [show hp.length ≠ u by omega]

/-- `merged_by` works on fresh objects: run on shared mutable `ShotData` objects, it leaves every object that existed before
unchanged, and the objects in its result are new ones that hold the merged sums. -/
theorem c51_merged_leaves_input (key : DecodingProblemDesc → κ) (heap : List ShotData) (data : PyDict DecodingProblemDesc Nat)
    (hv : ∀ e ∈ data, e.2 < heap.length) :
    heap <+: (mergeHeap key data heap).2 ∧
    (∀ k t, (mergeHeap key data heap).1.get? k = some t → heap.length ≤ t ∧ t < (mergeHeap key data heap).2.length) ∧
    ∀ (le : κ → κ → Bool) (k : κ), ((mergeHeap key data heap).1.get? k).map (fun t => ((mergeHeap key data heap).2[t]?).getD {})
      = (mergedBy le key (data.map fun e => (e.1, (heap[e.2]?).getD {}))).get? k := by
  obtain ⟨h1, _, h3, _, h5⟩ := merge_heap_inv key heap data hv
  refine ⟨h1, h3, fun le k => ?_⟩
  rw [h5 k, (c51_merged le key _).2]
  have := (holdsTotals_fold (data.map fun e => (key e.1, (heap[e.2]?).getD ({} : ShotData))) (holdsTotals_nil (κ := κ))).2 k
  rw [this, List.map_map]
  rfl

end

/-- `filter` keeps exactly the entries whose description satisfies the predicate, unchanged and in order. -/
theorem c51_filter (p : DecodingProblemDesc → Bool) (data : ProblemShotData) (hn : (data.map Prod.fst).Nodup) :
    filterData p data = data.filter fun e => p e.1 := by
  rw [filterData]
  induction data using List.reverseRecOn with
  | nil => rfl
  | append_singleton data e ih =>
    have hn1 : (data.map Prod.fst).Nodup := by
      rw [List.map_append, List.nodup_append] at hn
      exact hn.1
    have he : e.1 ∉ data.map Prod.fst := by
      intro hm
      rw [List.map_append, List.nodup_append] at hn
      exact hn.2.2 _ hm _ (by simp) rfl
    rw [List.foldl_append, List.foldl_cons, List.foldl_nil, ih hn1, List.filter_append]
    by_cases hp : p e.1 = true
    · rw [if_pos hp, set_new]
      · simp [hp]
      · intro hm
        obtain ⟨x, hx, hxe⟩ := List.mem_map.mp hm
        exact he (List.mem_map.mpr ⟨x, (List.mem_filter.mp hx).1, hxe⟩)
    · rw [if_neg hp]
      simp [hp]

/-- Three entries, grouped and merged by the number of rounds modulo 2. -/
example :
    let data : ProblemShotData := [(demoDesc, ⟨10, 9, 1⟩), ({ demoDesc with rounds := 8 }, ⟨5, 5, 1⟩),
      ({ demoDesc with rounds := 9 }, ⟨20, 16, 2⟩)]
    (data.map Prod.fst).Nodup ∧
    (mergedBy (fun a b => decide (a ≤ b)) (fun d => d.rounds % 2) data).get? 1 = some ⟨30, 25, 3⟩ ∧
    ((groupedBy (fun a b => decide (a ≤ b)) (fun d => d.rounds % 2) data).get? 1).map List.length = some 2 := by
  refine ⟨by decide, ?_, ?_⟩
  · rw [(c51_merged _ _ _).2]; with_unfolding_all rfl
  · rw [c51_grouped _ _ _ (by decide)]; with_unfolding_all rfl

/-! ## C54: `with_changes` -/

/-- Every field is the given value if there is one and the old value otherwise. -/
theorem c54_fields (d : DecodingProblemDesc) (c : DescChanges) :
    (d.withChanges c).data_width = c.data_width.getD d.data_width ∧
    (d.withChanges c).data_height = c.data_height.getD d.data_height ∧
    (d.withChanges c).code_distance = c.code_distance.getD d.code_distance ∧
    (d.withChanges c).num_qubits = c.num_qubits.getD d.num_qubits ∧
    (d.withChanges c).rounds = c.rounds.getD d.rounds ∧
    (d.withChanges c).noise = c.noise.getD d.noise ∧
    (d.withChanges c).circuit_style = c.circuit_style.getD d.circuit_style ∧
    (d.withChanges c).preserved_observable = c.preserved_observable.getD d.preserved_observable ∧
    (d.withChanges c).decoder = c.decoder.getD d.decoder := by
  obtain ⟨c1, c2, c3, c4, c5, c6, c7, c8, c9⟩ := c
  refine ⟨?_, ?_, ?_, ?_, ?_, ?_, ?_, ?_, ?_⟩ <;> simp only [DecodingProblemDesc.withChanges]
  · cases c1 <;> rfl
  · cases c2 <;> rfl
  · cases c3 <;> rfl
  · cases c4 <;> rfl
  · cases c5 <;> rfl
  · cases c6 <;> rfl
  · cases c7 <;> rfl
  · cases c8 <;> rfl
  · cases c9 <;> rfl

/-- No change is the identity. -/
theorem c54_identity (d : DecodingProblemDesc) : d.withChanges {} = d := rfl

/-- Two sets of changes that do not name a common field. -/
def DescChanges.Disjoint (a b : DescChanges) : Prop :=
  (a.data_width = none ∨ b.data_width = none) ∧ (a.data_height = none ∨ b.data_height = none) ∧
  (a.code_distance = none ∨ b.code_distance = none) ∧ (a.num_qubits = none ∨ b.num_qubits = none) ∧
  (a.rounds = none ∨ b.rounds = none) ∧ (a.noise = none ∨ b.noise = none) ∧
  (a.circuit_style = none ∨ b.circuit_style = none) ∧
  (a.preserved_observable = none ∨ b.preserved_observable = none) ∧ (a.decoder = none ∨ b.decoder = none)

theorem desc_ext {a b : DecodingProblemDesc} (h1 : a.data_width = b.data_width) (h2 : a.data_height = b.data_height)
    (h3 : a.code_distance = b.code_distance) (h4 : a.num_qubits = b.num_qubits) (h5 : a.rounds = b.rounds)
    (h6 : a.noise = b.noise) (h7 : a.circuit_style = b.circuit_style) (h8 : a.preserved_observable = b.preserved_observable)
    (h9 : a.decoder = b.decoder) : a = b := by
  cases a; cases b; simp_all

/-- Changes of different fields commute. -/
theorem c54_commute (d : DecodingProblemDesc) (a b : DescChanges) (h : a.Disjoint b) :
    (d.withChanges a).withChanges b = (d.withChanges b).withChanges a := by
  have key : ∀ {α : Type} (x y : Option α) (z : α), (x = none ∨ y = none) → y.getD (x.getD z) = x.getD (y.getD z) := by
    intro α x y z h
    rcases h with rfl | rfl
    · simp
    · simp
  obtain ⟨g1, g2, g3, g4, g5, g6, g7, g8, g9⟩ := h
  obtain ⟨a1, a2, a3, a4, a5, a6, a7, a8, a9⟩ := c54_fields d a
  obtain ⟨b1, b2, b3, b4, b5, b6, b7, b8, b9⟩ := c54_fields d b
  obtain ⟨e1, e2, e3, e4, e5, e6, e7, e8, e9⟩ := c54_fields (d.withChanges a) b
  obtain ⟨f1, f2, f3, f4, f5, f6, f7, f8, f9⟩ := c54_fields (d.withChanges b) a
  apply desc_ext
  · rw [e1, f1, a1, b1, key _ _ _ g1]
  · rw [e2, f2, a2, b2, key _ _ _ g2]
  · rw [e3, f3, a3, b3, key _ _ _ g3]
  · rw [e4, f4, a4, b4, key _ _ _ g4]
  · rw [e5, f5, a5, b5, key _ _ _ g5]
  · rw [e6, f6, a6, b6, key _ _ _ g6]
  · rw [e7, f7, a7, b7, key _ _ _ g7]
  · rw [e8, f8, a8, b8, key _ _ _ g8]
  · rw [e9, f9, a9, b9, key _ _ _ g9]

example : (demoDesc.withChanges { rounds := some 100, decoder := some "pymatching" }).rounds = 100 ∧
    (demoDesc.withChanges { rounds := some 100, decoder := some "pymatching" }).data_width = 4 := by decide

example : DescChanges.Disjoint { rounds := some 100 } { decoder := some "pymatching" } := by
  simp [DescChanges.Disjoint]

/-! ## C55: remaining work -/

theorem finished_iff (w : RemainingWork) : w.finished = true ↔
    w.max_shots ≤ w.shot_data.num_shots ∨ w.max_errors ≤ w.shot_data.num_errors ∨
      (w.threshold_circuit_breaker ≤ w.shot_data.logical_error_rate ∧ 10 ≤ w.shot_data.num_shots) := by
  unfold RemainingWork.finished
  by_cases h1 : w.shot_data.num_shots ≥ w.max_shots
  · rw [if_pos h1]; exact ⟨fun _ => Or.inl h1, fun _ => rfl⟩
  rw [if_neg h1]
  by_cases h2 : w.shot_data.num_errors ≥ w.max_errors
  · rw [if_pos h2]; exact ⟨fun _ => Or.inr (Or.inl h2), fun _ => rfl⟩
  rw [if_neg h2]
  by_cases h3 : w.shot_data.logical_error_rate ≥ w.threshold_circuit_breaker ∧ w.shot_data.num_shots ≥ 10
  · rw [if_pos h3]; exact ⟨fun _ => Or.inr (Or.inr h3), fun _ => rfl⟩
  rw [if_neg h3]
  refine ⟨fun h => (Bool.false_ne_true h).elim, ?_⟩
  rintro (h | h | h)
  · exact (h1 h).elim
  · exact (h2 h).elim
  · exact (h3 h).elim

/-- `finished` is true exactly when one of the three limits is reached. -/
theorem c55_finished (v : ShotData) (max_shots max_errors : Int) (breaker : Rat) :
    (v.remaining_work max_shots max_errors breaker).finished = true ↔
      max_shots ≤ v.num_shots ∨ max_errors ≤ v.num_shots - v.num_correct ∨
      (breaker ≤ v.logical_error_rate ∧ 10 ≤ v.num_shots) :=
  finished_iff (v.remaining_work max_shots max_errors breaker)

/-- The remaining shots and errors are 0 when finished, and otherwise positive and exactly what is missing to the limits. -/
theorem c55_remaining (v : ShotData) (max_shots max_errors : Int) (breaker : Rat) :
    let w := v.remaining_work max_shots max_errors breaker
    (w.finished = true → w.remaining_shots = 0 ∧ w.remaining_errors = 0 ∧ w.remaining_time = some 0) ∧
    (w.finished = false → 0 < w.remaining_shots ∧ 0 < w.remaining_errors ∧
      v.num_shots + w.remaining_shots = max_shots ∧ (v.num_shots - v.num_correct) + w.remaining_errors = max_errors) := by
  intro w
  have hf := c55_finished v max_shots max_errors breaker
  refine ⟨fun h => ?_, fun h => ?_⟩
  · simp only [RemainingWork.remaining_shots, RemainingWork.remaining_errors, RemainingWork.remaining_time, h, if_true, and_self]
  · have hn : ¬ (v.remaining_work max_shots max_errors breaker).finished = true := by
      rw [show (v.remaining_work max_shots max_errors breaker).finished = false from h]; simp
    rw [hf] at hn
    have e1 : w.remaining_shots = max_shots - v.num_shots := by
      simp only [RemainingWork.remaining_shots, h, Bool.false_eq_true, if_false]; rfl
    have e2 : w.remaining_errors = max_errors - (v.num_shots - v.num_correct) := by
      simp only [RemainingWork.remaining_errors, h, Bool.false_eq_true, if_false]; rfl
    rw [e1, e2]
    omega

/-- The remaining time is not negative; unless finished it is the smaller one of the extrapolations from the shots and from the
errors seen so far, and infinite (`none`) exactly if there were no shots. -/
theorem c55_time (v : ShotData) (max_shots max_errors : Int) (breaker : Rat) (h0 : 0 ≤ v.num_correct)
    (h1 : v.num_correct ≤ v.num_shots) (ht : 0 ≤ v.total_processing_seconds) :
    let w := v.remaining_work max_shots max_errors breaker
    (∀ t, w.remaining_time = some t → 0 ≤ t) ∧
    (w.remaining_time = none ↔ w.finished = false ∧ v.num_shots = 0) ∧
    (∀ t, w.finished = false → w.remaining_time = some t →
      t ≤ (w.remaining_shots : Rat) * v.total_processing_seconds / (v.num_shots : Rat) ∧
      (v.num_shots - v.num_correct ≠ 0 →
        t ≤ (w.remaining_errors : Rat) * v.total_processing_seconds / ((v.num_shots - v.num_correct : Int) : Rat)) ∧
      (t = (w.remaining_shots : Rat) * v.total_processing_seconds / (v.num_shots : Rat) ∨
        t = (w.remaining_errors : Rat) * v.total_processing_seconds / ((v.num_shots - v.num_correct : Int) : Rat))) := by
  intro w
  obtain ⟨hfin, hrem⟩ := c55_remaining v max_shots max_errors breaker
  by_cases hf : w.finished = true
  · have := (hfin hf).2.2
    refine ⟨?_, ?_, ?_⟩
    · intro t h
      rw [show w.remaining_time = some 0 from this] at h
      cases h
      exact le_refl 0
    · rw [show w.remaining_time = some 0 from this]
      simp [hf]
    · intro t h
      rw [hf] at h
      cases h
  · have hff : w.finished = false := by simpa using hf
    obtain ⟨r1, r2, _, _⟩ := hrem hff
    have hw : w.remaining_time = w.timeEstimates.min? := by
      simp only [RemainingWork.remaining_time, hff, Bool.false_eq_true, if_false]
    have hA : 0 ≤ (w.remaining_shots : Rat) * v.total_processing_seconds / (v.num_shots : Rat) :=
      div_nonneg (mul_nonneg (by exact_mod_cast r1.le) ht) (by exact_mod_cast h0.trans h1)
    have hB : 0 ≤ (w.remaining_errors : Rat) * v.total_processing_seconds / ((v.num_shots - v.num_correct : Int) : Rat) :=
      div_nonneg (mul_nonneg (by exact_mod_cast r2.le) ht) (by exact_mod_cast sub_nonneg.mpr h1)
    have hte : w.timeEstimates =
        (if v.num_shots ≠ 0 then [(w.remaining_shots : Rat) * v.total_processing_seconds / (v.num_shots : Rat)] else []) ++
        (if v.num_shots - v.num_correct ≠ 0 then
          [(w.remaining_errors : Rat) * v.total_processing_seconds / ((v.num_shots - v.num_correct : Int) : Rat)] else []) := rfl
    revert hA hB hte
    generalize (w.remaining_shots : Rat) * v.total_processing_seconds / (v.num_shots : Rat) = A
    generalize (w.remaining_errors : Rat) * v.total_processing_seconds / ((v.num_shots - v.num_correct : Int) : Rat) = B
    intro hA hB hte
    rw [hw, hte]
    by_cases hs : v.num_shots = 0
    · have hc : v.num_shots - v.num_correct = 0 := by omega
      rw [if_neg (by simpa using hs), if_neg (by simpa using hc)]
      simp [hff, hs]
    · rw [if_pos hs]
      by_cases he : v.num_shots - v.num_correct = 0
      · rw [if_neg (by simpa using he)]
        simp [hff, hs, he, hA]
      · rw [if_pos he]
        have hm : ([A] ++ [B]).min? = some (min A B) := rfl
        rw [hm]
        refine ⟨?_, by simp [hs], ?_⟩
        · intro t h
          cases h
          exact le_min hA hB
        · intro t _ h
          cases h
          exact ⟨min_le_left _ _, fun _ => min_le_right _ _, min_choice A B⟩

/-- The logical error rate is a probability: the fraction of wrong predictions, and 1 if there were no shots. -/
theorem c55_rate (v : ShotData) (h0 : 0 ≤ v.num_correct) (h1 : v.num_correct ≤ v.num_shots) :
    0 ≤ v.logical_error_rate ∧ v.logical_error_rate ≤ 1 ∧
    (v.num_shots = 0 → v.logical_error_rate = 1) ∧
    v.logical_error_rate * v.num_shots = ((v.num_shots - v.num_correct : Int) : Rat) := by
  unfold ShotData.logical_error_rate
  by_cases hs : v.num_shots = 0
  · rw [if_pos hs]
    have : v.num_correct = 0 := by omega
    refine ⟨by norm_num, by norm_num, fun _ => rfl, ?_⟩
    rw [hs, this]
    norm_num
  · rw [if_neg hs]
    have hp : (0 : Rat) < v.num_shots := by
      have : 0 < v.num_shots := by omega
      exact_mod_cast this
    refine ⟨div_nonneg (by exact_mod_cast sub_nonneg.mpr h1) hp.le, ?_, fun h => absurd h hs, ?_⟩
    · rw [div_le_one hp]
      exact_mod_cast (by omega : v.num_shots - v.num_correct ≤ v.num_shots)
    · exact div_mul_cancel₀ _ hp.ne'

example : ((⟨100, 90, 20⟩ : ShotData).remaining_work 1000 50 (1 / 2)).finished = false ∧
    ((⟨100, 90, 20⟩ : ShotData).remaining_work 1000 50 (1 / 2)).remaining_time = some 80 := by
  constructor <;> with_unfolding_all rfl

/-! ## C56: detection fractions -/

theorem count_bools (r : List Bool) : r.count true + r.count false = r.length := by
  induction r with
  | nil => rfl
  | cons b r ih => cases b <;> simp <;> omega

theorem count_le (rows : List (List Bool)) (cols : Nat) (h : ∀ r ∈ rows, r.length = cols) :
    (rows.map fun r => r.count true).sum + (rows.map fun r => r.count false).sum = rows.length * cols := by
  induction rows with
  | nil => simp
  | cons r rows ih =>
    have h1 := ih (fun x hx => h x (by simp [hx]))
    have h2 := h r (by simp)
    have h3 := count_bools r
    simp only [List.map_cons, List.sum_cons, List.length_cons, Nat.add_mul, Nat.one_mul]
    omega

/-- The record of a problem has its description, except for the observable `-` and the decoder `detection_fraction`; it counts all
samples of all detectors as shots and those without detection as correct, so that its error rate is the detection fraction. -/
theorem c56_record (d : DecodingProblemDesc) (s : DetectionSample) (h : ∀ r ∈ s.rows, r.length = s.cols) :
    (detectionRecord d s).1 = d.withChanges { preserved_observable := some "-", decoder := some "detection_fraction" } ∧
    (detectionRecord d s).2.num_shots = ((s.rows.length * s.cols : Nat) : Int) ∧
    (detectionRecord d s).2.num_correct = (((s.rows.map fun r => r.count false).sum : Nat) : Int) ∧
    (0 < s.rows.length * s.cols → (detectionRecord d s).2.logical_error_rate
      = (((s.rows.map fun r => r.count true).sum : Nat) : Rat) / ((s.rows.length * s.cols : Nat) : Rat)) := by
  have hc := count_le s.rows s.cols h
  refine ⟨rfl, rfl, ?_, ?_⟩
  · simp only [detectionRecord]
    omega
  · intro hp
    have hrate : ∀ v : ShotData, v.num_shots ≠ 0 →
        v.logical_error_rate = ((v.num_shots - v.num_correct : Int) : Rat) / (v.num_shots : Rat) := fun v hv => if_neg hv
    rw [hrate _ (by
      show ((s.rows.length * s.cols : Nat) : Int) ≠ 0
      exact_mod_cast hp.ne')]
    simp only [detectionRecord]
    rw [sub_sub_cancel, Int.cast_natCast, Int.cast_natCast]

/-- One row per problem, in order, both in the file (after what it held before or the header) and on stdout (after the header). -/
theorem c56_output (F : FloatText) (shots : Int) (has_out discard : Bool)
    (probs : List (DecodingProblemDesc × (Int → DetectionSample))) (file : Option Text) :
    printed (detectionFractions F shots has_out discard probs file)
      = csvHeader :: (probs.map fun p => detectionRecord p.1 (p.2 shots)).map (fun r => record F r.1 r.2) ∧
    fileAfter file (detectionFractions F shots has_out discard probs file)
      = if has_out = true then some ((if discard = true then line csvHeader else file.getD (line csvHeader))
          ++ rowsText F (probs.map fun p => detectionRecord p.1 (p.2 shots))) else file := by
  unfold detectionFractions
  have hbody : ∀ (rs : List Row) (t : Text), fileAfter (some t) (rs.flatMap fun r => recordEffs F true r.1 r.2)
      = some (t ++ rowsText F rs) := by
    intro rs
    induction rs with
    | nil => intro t; simp [fileAfter, rowsText]
    | cons r rs ih =>
      intro t
      rw [List.flatMap_cons, fileAfter_append]
      have : fileAfter (some t) (recordEffs F true r.1 r.2) = some (t ++ line (record F r.1 r.2)) := by
        simp [fileAfter, recordEffs, Eff.apply]
      rw [this, ih]
      simp [rowsText]
  have hnone : ∀ (rs : List Row) (f : Option Text), fileAfter f (rs.flatMap fun r => recordEffs F false r.1 r.2) = f := by
    intro rs
    induction rs with
    | nil => intro f; rfl
    | cons r rs ih =>
      intro f
      rw [List.flatMap_cons, fileAfter_append]
      exact ih f
  have hprint : ∀ rs : List Row, printed (rs.flatMap fun r => recordEffs F has_out r.1 r.2)
      = rs.map fun r => record F r.1 r.2 := by
    intro rs
    induction rs with
    | nil => rfl
    | cons r rs ih =>
      rw [List.flatMap_cons, printed_append, ih]
      cases has_out <;> simp [printed, recordEffs]
  have hmap : (probs.flatMap fun p => recordEffs F has_out (detectionRecord p.1 (p.2 shots)).1 (detectionRecord p.1 (p.2 shots)).2)
      = (probs.map fun p => detectionRecord p.1 (p.2 shots)).flatMap fun r => recordEffs F has_out r.1 r.2 := by
    rw [List.flatMap_map]
  have hp : printed (startEffs has_out discard file) = [csvHeader] := by
    unfold startEffs printed
    split_ifs <;> rfl
  refine ⟨?_, ?_⟩
  · rw [printed_append, hp, hmap, hprint]
    rfl
  · rw [fileAfter_append, hmap]
    cases has_out with
    | false =>
      rw [hnone]
      simp [startEffs, fileAfter, Eff.apply]
    | true =>
      have := start_file ⟨0, 0, none, 1, 0, true, discard⟩ file rfl
      simp only at this
      rw [this, hbody, if_pos rfl]

/-- Two shots of three detectors with two detections: 6 samples, 4 of them without detection. -/
example : (detectionRecord demoDesc ⟨3, [[true, false, false], [false, true, false]], 1⟩).2 = ⟨6, 4, 1⟩ := by decide

end Honeycomb
