import Verif.Lemmas.Tracker

/-!
# Measurement tracker properties: C14 - C17

`Tracker.entries`, `Selects`, `Missing`, `Reachable` are defined in `Verif/Spec/Tracker.lean`.
-/

namespace Honeycomb
open Tracker

set_option linter.unusedSectionVars false

variable {κ : Type} [DecidableEq κ]

/-- A tracker for the examples: two measurements of key 0 and one of key 1, a dummy and an obstacle, and a
group that contains a repeated key. -/
def exampleOps : List (TOp Nat) :=
  [.dummies [5] false, .dummies [6] true, .measure [0, 1, 0],
   .group [.plain 0, .prev 0 1, .plain 1, .plain 1] 7]

/-! ## C14 -/

/-- C14: a query returns the set of times that occur in an odd number of the selected entries. (A query
succeeds with a set exactly when every key selects a non-obstacle entry.) -/
theorem c14_query_is_xor (m : Tracker κ) (keys : List (TKey κ)) (s : Finset Nat) :
    m.timeSet keys = .ok (some s) ↔
      ∃ vs : List (Finset Nat), List.Forall₂ (fun k v => Selects m k (some v)) keys vs ∧
        ∀ t, t ∈ s ↔ Odd (vs.countP fun v => decide (t ∈ v)) := by
  unfold timeSet
  rw [timeSetFrom_some]
  refine exists_congr fun vs => and_congr_right fun _ => ?_
  constructor
  · rintro rfl t
    rw [mem_foldl_symmDiff]
    simp
  · intro h
    ext t
    rw [h t, mem_foldl_symmDiff]
    simp

/-- C14: the order of the keys does not matter for a query that succeeds with a set (the code passes keys in the order in which
Python iterates over a `set`). -/
theorem c14_order_irrelevant (m : Tracker κ) (keys keys' : List (TKey κ)) (hp : keys.Perm keys') (s : Finset Nat)
    (h : m.timeSet keys = .ok (some s)) : m.timeSet keys' = .ok (some s) := by
  rw [c14_query_is_xor] at h ⊢
  obtain ⟨vs, h1, h2⟩ := h
  obtain ⟨vs', h3, h4⟩ := List.perm_comp_forall₂ hp.symm h1
  exact ⟨vs', h3, fun t => by rw [h2 t, h4.countP_eq]⟩

/-- C14: `add_measurements` appends to each key, in order, the fresh times of its measurements, and advances the
clock by the number of measurements. -/
theorem c14_add_measurements (m : Tracker κ) (keys : List κ) :
    (m.addMeasurements keys).t = m.t + keys.length ∧
    ∀ k, (m.addMeasurements keys).entries k =
      m.entries k ++ ((keys.zipIdx m.t).filter fun p => p.1 = k).map fun p => some {p.2} :=
  ⟨addMeasurements_t m keys, addMeasurements_entries m keys⟩

/-- C14: `add_dummies` appends an empty entry (or an obstacle) once per occurrence and does not advance the clock. -/
theorem c14_add_dummies (m : Tracker κ) (keys : List κ) (obstacle : Bool) :
    (m.addDummies keys obstacle).t = m.t ∧
    ∀ k, (m.addDummies keys obstacle).entries k =
      m.entries k ++ List.replicate (keys.count k) (if obstacle then none else some ∅) :=
  ⟨addDummies_t m keys obstacle, addDummies_entries m keys obstacle⟩

/-- C14: `add_group` appends exactly the result of the query to the group key and changes nothing else. -/
theorem c14_add_group (m m' : Tracker κ) (keys : List (TKey κ)) (g : κ) (h : m.addGroup keys g = .ok m') :
    ∃ v, m.timeSet keys = .ok v ∧ m'.t = m.t ∧
      ∀ k, m'.entries k = m.entries k ++ if k = g then [v] else [] := by
  unfold addGroup at h
  rcases hts : m.timeSet keys with e | v
  · rw [hts] at h; exact absurd h (by simp)
  · rw [hts] at h
    simp only [Except.ok.injEq] at h
    subst h
    exact ⟨v, rfl, rfl, push_entries m g v⟩

/-- C14: the clock counts the measurements made since the tracker was created. -/
theorem c14_clock (ops : List (TOp κ)) (m : Tracker κ) (h : TOp.run Tracker.empty ops = .ok m) :
    m.t = (ops.map TOp.measured).sum := by
  have gen : ∀ (ops : List (TOp κ)) (m0 m : Tracker κ), TOp.run m0 ops = .ok m →
      m.t = m0.t + (ops.map TOp.measured).sum := by
    intro ops
    induction ops with
    | nil =>
      intro m0 m h
      simp only [TOp.run, Except.ok.injEq] at h
      subst h; simp
    | cons op ops ih =>
      intro m0 m h
      simp only [TOp.run] at h
      rcases ha : op.apply m0 with e | m1
      · rw [ha] at h; exact absurd h (by simp)
      · rw [ha] at h
        have h1 : m1.t = m0.t + op.measured := by
          cases op with
          | measure ks =>
            simp only [TOp.apply, Except.ok.injEq] at ha
            subst ha
            exact addMeasurements_t m0 ks
          | dummies ks o =>
            simp only [TOp.apply, Except.ok.injEq] at ha
            subst ha
            exact addDummies_t m0 ks o
          | group ks g =>
            obtain ⟨v, _, ht, _⟩ := c14_add_group m0 m1 ks g ha
            exact ht
        rw [ih m1 m h, h1, List.map_cons, List.sum_cons]
        omega
  have := gen ops _ m h
  simpa [Tracker.empty] using this

/-- The example history runs. -/
example : ∃ m, TOp.run Tracker.empty exampleOps = .ok m ∧ m.t = 3 ∧
    m.timeSet [.plain 7] = .ok (some {0, 2}) := by
  exact ⟨_, rfl, rfl, congrArg (fun s => Except.ok (some s)) (by decide)⟩

/-! ## C15 -/

/-- C15: record targets of a query on a reachable tracker are strictly increasing, negative, at least minus the
number of measurements so far, and counting them back from the clock gives exactly the measurements of
the time set. The query never fails at this step. -/
theorem c15_record_targets (m : Tracker κ) (hr : Reachable m) (keys : List (TKey κ)) (s : Finset Nat)
    (h : m.timeSet keys = .ok (some s)) :
    ∃ offs, m.recordTargets keys = .ok (some offs) ∧
      offs.Pairwise (· < ·) ∧ (∀ o ∈ offs, -(m.t : Int) ≤ o ∧ o < 0) ∧
      (∀ t : Nat, t ∈ s ↔ (t : Int) - m.t ∈ offs) := by
  have hb := timeSet_bounded (bounded_of_reachable hr) h
  have hlt : ∀ o ∈ (s.sort (· ≤ ·)).map (fun t : Nat => (t : Int) - m.t), -(m.t : Int) ≤ o ∧ o < 0 := by
    intro o ho
    obtain ⟨t, ht, rfl⟩ := List.mem_map.1 ho
    have := hb t ((Finset.mem_sort _).1 ht)
    omega
  refine ⟨(s.sort (· ≤ ·)).map fun t : Nat => (t : Int) - m.t, ?_, ?_, hlt, ?_⟩
  · simp only [recordTargets, refTime, h]
    rw [if_pos]
    rw [List.all_eq_true]
    intro o ho
    simpa using (hlt o ho).2
  · rw [List.pairwise_map]
    refine (Finset.sortedLT_sort s).pairwise.imp ?_
    intro a b hab
    omega
  · intro t
    constructor
    · intro ht
      exact List.mem_map.2 ⟨t, (Finset.mem_sort _).2 ht, rfl⟩
    · intro ht
      obtain ⟨t', ht', he⟩ := List.mem_map.1 ht
      have : t' = t := by omega
      subst this
      exact (Finset.mem_sort _).1 ht'

/-- C15, with `for_time_after_measurement`: if the call returns targets, then counting them back from the time
just after the given key's latest (single) measurement gives exactly the time set, and they are
strictly increasing and negative. -/
theorem c15_record_targets_after (m : Tracker κ) (keys : List (TKey κ)) (k : κ) (offs : List Int)
    (h : m.recordTargets keys (some k) = .ok (some offs)) :
    ∃ (t0 : Nat) (s : Finset Nat), Selects m (.plain k) (some {t0}) ∧ m.timeSet keys = .ok (some s) ∧
      offs.Pairwise (· < ·) ∧ (∀ o ∈ offs, o < 0) ∧ (∀ t : Nat, t ∈ s ↔ (t : Int) - (t0 + 1) ∈ offs) := by
  simp only [recordTargets] at h
  rcases hrt : m.refTime (some k) with e | t1
  · rw [hrt] at h; exact absurd h (by simp)
  rw [hrt] at h
  simp only at h
  rcases hts : m.timeSet keys with e | v
  · rw [hts] at h; exact absurd h (by simp)
  rw [hts] at h
  cases v with
  | none => exact absurd h (by simp)
  | some s =>
    simp only at h
    split_ifs at h with hall
    simp only [Except.ok.injEq, Option.some.injEq] at h
    subst h
    obtain ⟨t0, rfl, hsel⟩ : ∃ t0, t1 = t0 + 1 ∧ Selects m (.plain k) (some {t0}) := by
      simp only [refTime] at hrt
      split at hrt
      · exact absurd hrt (by simp)
      · exact absurd hrt (by simp)
      · rename_i s' rest hh
        split at hrt
        · rename_i x hx
          simp only [Except.ok.injEq] at hrt
          refine ⟨x, hrt.symm, ?_⟩
          rw [selects_iff]
          have : s' = {x} := by
            ext y
            rw [← Finset.mem_sort (· ≤ ·), hx]
            simp
          simp [TKey.base, TKey.back, hh, this]
        · exact absurd hrt (by simp)
    refine ⟨t0, s, hsel, rfl, ?_, ?_, ?_⟩
    · rw [List.pairwise_map]
      refine (Finset.sortedLT_sort s).pairwise.imp ?_
      intro a b hab
      omega
    · intro o ho
      simpa using List.all_eq_true.1 hall o ho
    · intro t
      constructor
      · intro ht
        exact List.mem_map.2 ⟨t, (Finset.mem_sort _).2 ht, by push_cast; rfl⟩
      · intro ht
        obtain ⟨t', ht', he⟩ := List.mem_map.1 ht
        have : t' = t := by push_cast at he; omega
        subst this
        exact (Finset.mem_sort _).1 ht'

/-- C15's hypotheses hold for the example history. -/
example : ∃ m : Tracker Nat, Reachable m ∧ m.timeSet [.plain 7, .plain 1] = .ok (some {0, 1, 2}) ∧
    m.recordTargets [.prev 0 1] (some 1) = .ok (some [-2]) := by
  refine ⟨_, .step (.group [.plain 0, .prev 0 1, .plain 1, .plain 1] 7)
    (.step (.measure [0, 1, 0]) .init rfl) rfl, congrArg (fun s => Except.ok (some s)) (by decide), ?_⟩
  simp [recordTargets, refTime, timeSet, timeSetFrom, lookup, push, addMeasurements, addMeasurement, empty,
    show symmDiff (∅ : Finset Nat) {0} = {0} by decide]

/-! ## C16 -/

/-- C16: what a query returns is decided by the first key that does not select a set: an obstacle gives `None`,
a missing entry raises AssertionError; if there is no such key the query returns a set. -/
theorem c16_obstacle_or_missing (m : Tracker κ) (keys : List (TKey κ)) :
    (m.timeSet keys = .ok none ↔ ∃ pre k post, keys = pre ++ k :: post ∧
      (∀ k' ∈ pre, ∃ v, Selects m k' (some v)) ∧ Selects m k none) ∧
    (∀ e, m.timeSet keys = .error e ↔ e = .assertion ∧ ∃ pre k post, keys = pre ++ k :: post ∧
      (∀ k' ∈ pre, ∃ v, Selects m k' (some v)) ∧ Missing m k) ∧
    ((∃ s, m.timeSet keys = .ok (some s)) ↔ ∀ k ∈ keys, ∃ v, Selects m k (some v)) := by
  refine ⟨timeSetFrom_none, fun e => timeSetFrom_error, ?_⟩
  constructor
  · rintro ⟨s, hs⟩
    obtain ⟨vs, hvs, hc⟩ := (c14_query_is_xor m keys s).1 hs
    clear hs hc
    induction hvs with
    | nil => simp
    | cons h1 _ ih =>
      intro k hk
      rcases List.mem_cons.1 hk with rfl | hk
      · exact ⟨_, h1⟩
      · exact ih k hk
  · intro h
    have : ∃ vs : List (Finset Nat), List.Forall₂ (fun k v => Selects m k (some v)) keys vs := by
      induction keys with
      | nil => exact ⟨[], .nil⟩
      | cons k ks ih =>
        obtain ⟨v, hv⟩ := h k (by simp)
        obtain ⟨vs, hvs⟩ := ih fun k' hk' => h k' (by simp [hk'])
        exact ⟨v :: vs, .cons hv hvs⟩
    obtain ⟨vs, hvs⟩ := this
    exact ⟨_, timeSetFrom_some.2 ⟨vs, hvs, rfl⟩⟩

/-- C16: `append_detector` on a reachable tracker emits nothing for an obstacle, one DETECTOR with the record targets
and the given coordinates for a set, and raises AssertionError for a missing entry. -/
theorem c16_append_detector (m : MT) (hr : Reachable m) (keys : List (TKey Key)) (coords : List Rat) :
    (m.timeSet keys = .ok none → appendDetector m keys coords = .ok []) ∧
    (∀ s, m.timeSet keys = .ok (some s) → ∃ offs, m.recordTargets keys = .ok (some offs) ∧
      appendDetector m keys coords = .ok [.detector offs coords]) ∧
    (∀ e, m.timeSet keys = .error e → appendDetector m keys coords = .error e) := by
  refine ⟨fun h => ?_, fun s h => ?_, fun e h => ?_⟩
  · simp [appendDetector, recordTargets, refTime, h]
  · obtain ⟨offs, ho, _⟩ := c15_record_targets m hr keys s h
    exact ⟨offs, ho, by simp [appendDetector, ho]⟩
  · simp [appendDetector, recordTargets, refTime, h]

/-- All three outcomes occur: key 6 has an obstacle, key 9 has no entry. -/
example : ∃ m : Tracker Nat, TOp.run Tracker.empty exampleOps = .ok m ∧
    m.timeSet [.plain 0, .plain 6, .plain 9] = .ok none ∧
    m.timeSet [.plain 0, .plain 9, .plain 6] = .error .assertion ∧
    m.timeSet [.plain 0, .plain 5] = .ok (some {2}) := by
  exact ⟨_, rfl, rfl, rfl, congrArg (fun s => Except.ok (some s)) (by decide)⟩

/-! ## C17 -/

/-- C17: any nesting of `Prev` is one `Prev` with the summed offset, so it selects that many entries back. -/
theorem c17_nested_prev (k : κ) (o : Nat) (os : List Nat) :
    (o :: os).foldl (fun v off => TKey.mkPrev v off) (.plain k) = .prev k ((o :: os).sum) := by
  have gen : ∀ (os : List Nat) (o : Nat), os.foldl (fun v off => TKey.mkPrev v off) (.prev k o) = .prev k (o + os.sum) := by
    intro os
    induction os with
    | nil => simp
    | cons a os ih =>
      intro o
      rw [List.foldl_cons]
      refine (ih (a + o)).trans ?_
      rw [List.sum_cons]
      congr 1
      omega
  rw [List.foldl_cons]
  exact (gen os o).trans (by rw [List.sum_cons])

/-- C17: and the entry it refers to is the one with exactly that many later entries. -/
theorem c17_nested_prev_selects (m : Tracker κ) (k : κ) (o : Nat) (os : List Nat) (v : Option (Finset Nat)) :
    m.lookup ((o :: os).foldl (fun v off => TKey.mkPrev v off) (.plain k)) = .ok v ↔
      ∃ before after, m.entries k = before ++ v :: after ∧ after.length = (o :: os).sum := by
  rw [c17_nested_prev, lookup_ok]
  rfl

example : TKey.mkPrev (TKey.mkPrev (.plain 4) 2) 3 = (.prev 4 5 : TKey Nat) := rfl

end Honeycomb
