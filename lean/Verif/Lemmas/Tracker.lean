import Verif.Spec.Tracker
import Mathlib.Algebra.Ring.Parity

/-! Helper lemmas about the measurement tracker. -/

namespace Honeycomb

set_option linter.unusedSectionVars false

variable {κ : Type} [DecidableEq κ]

namespace Tracker

theorem lookup_eq (m : Tracker κ) (k : TKey κ) :
    m.lookup k = match (m.history k.base)[k.back]? with
      | none => .error .assertion
      | some v => .ok v := by
  cases k with
  | plain k =>
    simp only [lookup, TKey.base, TKey.back]
    cases (m.history k)[0]? <;> rfl
  | prev k o =>
    simp only [lookup, TKey.base, TKey.back, Nat.add_sub_cancel_left]
    cases (m.history k)[o]? <;> rfl

theorem selects_iff (m : Tracker κ) (k : TKey κ) (v : Option (Finset Nat)) :
    Selects m k v ↔ (m.history k.base)[k.back]? = some v := by
  simp only [Selects, entries]
  constructor
  · rintro ⟨b, a, h, hl⟩
    have : m.history k.base = a.reverse ++ v :: b.reverse := by
      rw [← List.reverse_reverse (m.history k.base), h]
      simp
    rw [this, List.getElem?_append_right (by simp [hl])]
    simp [hl]
  · intro h
    obtain ⟨hl, hv⟩ := List.getElem?_eq_some_iff.1 h
    refine ⟨((m.history k.base).drop (k.back + 1)).reverse, ((m.history k.base).take k.back).reverse, ?_, ?_⟩
    · have : m.history k.base = (m.history k.base).take k.back ++ v :: (m.history k.base).drop (k.back + 1) := by
        conv_lhs => rw [← List.take_append_drop k.back (m.history k.base), List.drop_eq_getElem_cons hl, hv]
      conv_lhs => rw [this]
      simp
    · simp; omega

theorem lookup_ok {m : Tracker κ} {k : TKey κ} {v : Option (Finset Nat)} :
    m.lookup k = .ok v ↔ Selects m k v := by
  rw [lookup_eq, selects_iff]
  cases (m.history k.base)[k.back]? <;> simp

theorem lookup_error {m : Tracker κ} {k : TKey κ} {e : PyErr} :
    m.lookup k = .error e ↔ Missing m k ∧ e = .assertion := by
  rw [lookup_eq, Missing, entries, List.length_reverse, ← List.getElem?_eq_none_iff]
  cases (m.history k.base)[k.back]? <;> simp [eq_comm]

theorem selects_unique {m : Tracker κ} {k : TKey κ} {v w : Option (Finset Nat)} (h : Selects m k v)
    (h' : Selects m k w) : v = w := by
  rw [selects_iff] at h h'
  exact Option.some.inj (h.symm.trans h')

theorem not_missing_of_selects {m : Tracker κ} {k : TKey κ} {v : Option (Finset Nat)} (h : Selects m k v) :
    ¬ Missing m k := by
  intro hm
  have := lookup_ok.2 h
  rw [lookup_error.2 ⟨hm, rfl⟩] at this
  exact absurd this (by simp)

theorem push_entries (m : Tracker κ) (k : κ) (v : Option (Finset Nat)) (k' : κ) :
    (m.push k v).entries k' = m.entries k' ++ if k' = k then [v] else [] := by
  simp only [entries, push, Function.update_apply]
  split_ifs with h
  · subst h; simp
  · simp

theorem timeSetFrom_some {m : Tracker κ} {keys : List (TKey κ)} {r s : Finset Nat} :
    m.timeSetFrom r keys = .ok (some s) ↔
      ∃ vs : List (Finset Nat), List.Forall₂ (fun k v => Selects m k (some v)) keys vs ∧
        s = vs.foldl symmDiff r := by
  induction keys generalizing r with
  | nil =>
    simp only [timeSetFrom, List.forall₂_nil_left_iff, exists_eq_left, List.foldl_nil]
    constructor
    · intro h; injection h with h; injection h with h; exact h.symm
    · intro h; rw [h]
  | cons k ks ih =>
    simp only [timeSetFrom]
    rcases hl : m.lookup k with e | v
    · simp only [reduceCtorEq, false_iff]
      rintro ⟨vs, hvs, _⟩
      cases hvs with
      | cons h _ => rw [lookup_ok.2 h] at hl; exact absurd hl (by simp)
    · cases v with
      | none =>
        constructor
        · simp
        · rintro ⟨vs, hvs, _⟩
          cases hvs with
          | cons h _ => rw [lookup_ok.2 h] at hl; exact absurd hl (by simp)
      | some v =>
        simp only
        rw [ih]
        constructor
        · rintro ⟨vs, h1, h2⟩
          exact ⟨v :: vs, List.Forall₂.cons (lookup_ok.1 hl) h1, h2⟩
        · rintro ⟨vs, h1, h2⟩
          cases h1 with
          | cons h h1 =>
            have := selects_unique h (lookup_ok.1 hl)
            simp only [Option.some.injEq] at this
            subst this
            exact ⟨_, h1, h2⟩

theorem mem_foldl_symmDiff (vs : List (Finset Nat)) (r : Finset Nat) (t : Nat) :
    t ∈ vs.foldl symmDiff r ↔ (t ∈ r ↔ ¬ Odd (vs.countP fun v => decide (t ∈ v))) := by
  induction vs generalizing r with
  | nil => simp
  | cons v vs ih =>
    rw [List.foldl_cons, ih, List.countP_cons]
    by_cases h : t ∈ v
    · simp only [h, decide_true, if_true, Nat.odd_add_one, Finset.mem_symmDiff]
      tauto
    · simp only [h, decide_false, Bool.false_eq_true, if_false, add_zero, Finset.mem_symmDiff]
      tauto

theorem timeSetFrom_none {m : Tracker κ} {keys : List (TKey κ)} {r : Finset Nat} :
    m.timeSetFrom r keys = .ok none ↔
      ∃ pre k post, keys = pre ++ k :: post ∧ (∀ k' ∈ pre, ∃ v, Selects m k' (some v)) ∧ Selects m k none := by
  induction keys generalizing r with
  | nil => simp [timeSetFrom]
  | cons k ks ih =>
    simp only [timeSetFrom]
    rcases hl : m.lookup k with e | v
    · simp only [reduceCtorEq, false_iff]
      rintro ⟨pre, k', post, he, hp, hs⟩
      cases pre with
      | nil =>
        simp only [List.nil_append, List.cons.injEq] at he
        rw [← he.1, ← lookup_ok, hl] at hs
        exact absurd hs (by simp)
      | cons a pre =>
        simp only [List.cons_append, List.cons.injEq] at he
        obtain ⟨v, hv⟩ := hp a (by simp)
        rw [← he.1, ← lookup_ok, hl] at hv
        exact absurd hv (by simp)
    · cases v with
      | none =>
        simp only [true_iff]
        exact ⟨[], k, ks, rfl, by simp, lookup_ok.1 hl⟩
      | some v =>
        simp only
        rw [ih]
        constructor
        · rintro ⟨pre, k', post, rfl, hp, hs⟩
          refine ⟨k :: pre, k', post, rfl, ?_, hs⟩
          intro a ha
          rcases List.mem_cons.1 ha with rfl | ha
          · exact ⟨v, lookup_ok.1 hl⟩
          · exact hp a ha
        · rintro ⟨pre, k', post, he, hp, hs⟩
          cases pre with
          | nil =>
            simp only [List.nil_append, List.cons.injEq] at he
            rw [← he.1] at hs
            exact absurd (selects_unique hs (lookup_ok.1 hl)) (by simp)
          | cons a pre =>
            simp only [List.cons_append, List.cons.injEq] at he
            exact ⟨pre, k', post, he.2, fun b hb => hp b (by simp [hb]), hs⟩

theorem timeSetFrom_error {m : Tracker κ} {keys : List (TKey κ)} {r : Finset Nat} {e : PyErr} :
    m.timeSetFrom r keys = .error e ↔ e = .assertion ∧
      ∃ pre k post, keys = pre ++ k :: post ∧ (∀ k' ∈ pre, ∃ v, Selects m k' (some v)) ∧ Missing m k := by
  induction keys generalizing r with
  | nil => simp [timeSetFrom]
  | cons k ks ih =>
    simp only [timeSetFrom]
    rcases hl : m.lookup k with e' | v
    · have := lookup_error.1 hl
      constructor
      · intro h
        injection h with h
        exact ⟨h ▸ this.2, [], k, ks, rfl, by simp, this.1⟩
      · intro h
        rw [h.1, this.2]
    · have hs := lookup_ok.1 hl
      cases v with
      | none =>
        simp only [reduceCtorEq, false_iff]
        rintro ⟨_, pre, k', post, he, hp, hm⟩
        cases pre with
        | nil =>
          simp only [List.nil_append, List.cons.injEq] at he
          exact not_missing_of_selects hs (he.1 ▸ hm)
        | cons a pre =>
          simp only [List.cons_append, List.cons.injEq] at he
          obtain ⟨v, hv⟩ := hp a (by simp)
          rw [← he.1] at hv
          exact absurd (selects_unique hv hs) (by simp)
      | some v =>
        simp only
        rw [ih]
        refine and_congr_right fun _ => ?_
        constructor
        · rintro ⟨pre, k', post, rfl, hp, hm⟩
          refine ⟨k :: pre, k', post, rfl, ?_, hm⟩
          intro a ha
          rcases List.mem_cons.1 ha with rfl | ha
          · exact ⟨v, hs⟩
          · exact hp a ha
        · rintro ⟨pre, k', post, he, hp, hm⟩
          cases pre with
          | nil =>
            simp only [List.nil_append, List.cons.injEq] at he
            exact absurd (he.1 ▸ hm) (not_missing_of_selects hs)
          | cons a pre =>
            simp only [List.cons_append, List.cons.injEq] at he
            exact ⟨pre, k', post, he.2, fun b hb => hp b (by simp [hb]), hm⟩

theorem addMeasurements_t (m : Tracker κ) (ks : List κ) : (m.addMeasurements ks).t = m.t + ks.length := by
  induction ks generalizing m with
  | nil => rfl
  | cons k ks ih =>
    change ((m.addMeasurement k).addMeasurements ks).t = _
    rw [ih]
    simp [addMeasurement]
    omega

theorem addMeasurements_entries (m : Tracker κ) (ks : List κ) (k : κ) :
    (m.addMeasurements ks).entries k = m.entries k ++
      ((ks.zipIdx m.t).filter fun p => p.1 = k).map fun p => some {p.2} := by
  induction ks generalizing m with
  | nil => simp [addMeasurements]
  | cons a ks ih =>
    change ((m.addMeasurement a).addMeasurements ks).entries k = _
    rw [ih]
    have : (m.addMeasurement a).entries k = m.entries k ++ if k = a then [some {m.t}] else [] :=
      push_entries m a (some {m.t}) k
    rw [this, List.zipIdx_cons, List.filter_cons]
    by_cases h : a = k
    · subst h; simp [addMeasurement]
    · simp [h, Ne.symm h, addMeasurement]

theorem addDummies_t (m : Tracker κ) (ks : List κ) (o : Bool) : (m.addDummies ks o).t = m.t := by
  induction ks generalizing m with
  | nil => rfl
  | cons k ks ih =>
    change ((m.push k _).addDummies ks o).t = _
    rw [ih]
    rfl

theorem addDummies_entries (m : Tracker κ) (ks : List κ) (o : Bool) (k : κ) :
    (m.addDummies ks o).entries k = m.entries k ++
      List.replicate (ks.count k) (if o then none else some ∅) := by
  induction ks generalizing m with
  | nil => simp [addDummies]
  | cons a ks ih =>
    change ((m.push a _).addDummies ks o).entries k = _
    rw [ih, push_entries, List.count_cons]
    by_cases h : a = k
    · subst h; simp [List.replicate_succ]
    · simp [h, Ne.symm h]

theorem mem_foldl_symmDiff_sub {vs : List (Finset Nat)} {r : Finset Nat} {t : Nat}
    (h : t ∈ vs.foldl symmDiff r) : t ∈ r ∨ ∃ v ∈ vs, t ∈ v := by
  induction vs generalizing r with
  | nil => exact Or.inl h
  | cons v vs ih =>
    rcases ih h with h' | ⟨w, hw, ht⟩
    · rw [Finset.mem_symmDiff] at h'
      rcases h' with ⟨h', _⟩ | ⟨h', _⟩
      · exact Or.inl h'
      · exact Or.inr ⟨v, by simp, h'⟩
    · exact Or.inr ⟨w, by simp [hw], ht⟩

/-- All recorded times are before the clock. -/
def Bounded (m : Tracker κ) : Prop := ∀ k s, some s ∈ m.entries k → ∀ t ∈ s, t < m.t

theorem timeSet_bounded {m : Tracker κ} (hb : m.Bounded) {keys : List (TKey κ)} {s : Finset Nat}
    (h : m.timeSet keys = .ok (some s)) : ∀ t ∈ s, t < m.t := by
  obtain ⟨vs, hvs, rfl⟩ := timeSetFrom_some.1 h
  intro t ht
  rcases mem_foldl_symmDiff_sub ht with ht' | ⟨v, hv, ht'⟩
  · simp at ht'
  · obtain ⟨k, hk, hs⟩ : ∃ k ∈ keys, Selects m k (some v) := by
      clear h ht ht'
      induction hvs with
      | nil => simp at hv
      | cons h1 _ ih =>
        rcases List.mem_cons.1 hv with rfl | hv
        · exact ⟨_, by simp, h1⟩
        · obtain ⟨k, hk, hs⟩ := ih hv
          exact ⟨k, by simp [hk], hs⟩
    obtain ⟨b, a, he, _⟩ := hs
    exact hb k.base v (by rw [he]; simp) t ht'

theorem bounded_of_reachable {m : Tracker κ} (h : Reachable m) : m.Bounded := by
  induction h with
  | init => intro k s hs; simp [entries, empty] at hs
  | step op _ hop ih =>
    rename_i m _ _
    cases op with
    | measure ks =>
      simp only [TOp.apply, Except.ok.injEq] at hop
      subst hop
      intro k s hs t ht
      rw [addMeasurements_t]
      rw [addMeasurements_entries, List.mem_append] at hs
      rcases hs with hs | hs
      · have := ih k s hs t ht; omega
      · simp only [List.mem_map, List.mem_filter, Option.some.injEq] at hs
        obtain ⟨p, ⟨hp, _⟩, rfl⟩ := hs
        simp only [Finset.mem_singleton] at ht
        subst ht
        obtain ⟨a, i⟩ := p
        have := (List.mem_zipIdx hp).2.1
        simp only
        omega
    | dummies ks o =>
      simp only [TOp.apply, Except.ok.injEq] at hop
      subst hop
      intro k s hs t ht
      rw [addDummies_t]
      rw [addDummies_entries, List.mem_append] at hs
      rcases hs with hs | hs
      · exact ih k s hs t ht
      · have := List.eq_of_mem_replicate hs
        cases o <;> simp at this
        subst this
        simp at ht
    | group ks g =>
      simp only [TOp.apply, addGroup] at hop
      rcases hts : m.timeSet ks with e | v
      · rw [hts] at hop; exact absurd hop (by simp)
      · rw [hts] at hop
        simp only [Except.ok.injEq] at hop
        subst hop
        intro k s hs t ht
        rw [push_entries, List.mem_append] at hs
        rcases hs with hs | hs
        · exact ih k s hs t ht
        · split_ifs at hs with hk
          · simp only [List.mem_singleton] at hs
            subst hs
            exact timeSet_bounded ih hts t ht
          · simp at hs

end Tracker
end Honeycomb
