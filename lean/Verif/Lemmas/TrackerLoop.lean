import Verif.Model.Circuit
import Verif.Lemmas.Tracker
import Mathlib.Data.ZMod.Basic
import Mathlib.Algebra.BigOperators.Group.Finset.Basic
import Mathlib.Algebra.BigOperators.Group.List.Basic

/-! Helper lemmas: closed forms of the tracker loops of the circuit generator. -/

namespace Honeycomb

set_option linter.unusedSectionVars false

/-- Exclusive or of two entries; an obstacle absorbs. -/
def xorO : Option (Finset Nat) → Option (Finset Nat) → Option (Finset Nat)
  | some a, some b => some (symmDiff a b)
  | _, _ => none

@[simp] theorem xorO_none_left (a) : xorO none a = none := rfl
@[simp] theorem xorO_none_right (a) : xorO a none = none := by cases a <;> rfl
@[simp] theorem xorO_some (a b) : xorO (some a) (some b) = some (symmDiff a b) := rfl

/-- Exclusive or of a list of entries. -/
def xorL (l : List (Option (Finset Nat))) : Option (Finset Nat) := l.foldl xorO (some ∅)

theorem foldl_xorO_none (l : List (Option (Finset Nat))) : l.foldl xorO none = none := by
  induction l with
  | nil => rfl
  | cons a l ih => exact ih

theorem empty_symmDiff (a : Finset Nat) : symmDiff ∅ a = a := bot_symmDiff a
theorem symmDiff_empty (a : Finset Nat) : symmDiff a ∅ = a := symmDiff_bot a

theorem foldl_xorO_some (l : List (Option (Finset Nat))) (r : Finset Nat) :
    l.foldl xorO (some r) = xorO (some r) (xorL l) := by
  induction l generalizing r with
  | nil => simp only [xorL, List.foldl_nil, xorO_some, symmDiff_empty]
  | cons a l ih =>
    rcases a with _ | a
    · simp [xorL, foldl_xorO_none]
    · show l.foldl xorO (some (symmDiff r a)) = xorO (some r) (l.foldl xorO (some (symmDiff ∅ a)))
      rw [empty_symmDiff, ih, ih]
      rcases xorL l with _ | s
      · rfl
      · simp only [xorO_some, symmDiff_assoc]

theorem xorL_nil : xorL [] = some ∅ := rfl

theorem xorL_cons (a : Option (Finset Nat)) (l : List (Option (Finset Nat))) :
    xorL (a :: l) = xorO a (xorL l) := by
  rcases a with _ | a
  · exact foldl_xorO_none l
  · show l.foldl xorO (some (symmDiff ∅ a)) = _
    rw [show symmDiff (∅ : Finset Nat) a = a from bot_symmDiff a, foldl_xorO_some]

theorem xorO_empty (a : Option (Finset Nat)) : xorO a (some ∅) = a := by
  rcases a with _ | a
  · rfl
  · simp only [xorO_some]; rw [show symmDiff a (∅ : Finset Nat) = a from symmDiff_bot a]

theorem xorO_assoc (a b c) : xorO (xorO a b) c = xorO a (xorO b c) := by
  rcases a with _ | a <;> rcases b with _ | b <;> rcases c with _ | c <;> simp [symmDiff_assoc]

theorem xorL_append (l l' : List (Option (Finset Nat))) : xorL (l ++ l') = xorO (xorL l) (xorL l') := by
  induction l with
  | nil =>
    rcases h : xorL l' with _ | s
    · simp [h]
    · simp only [List.nil_append, h, xorL_nil, xorO_some]
      rw [show symmDiff (∅ : Finset Nat) s = s from bot_symmDiff s]
  | cons a l ih => rw [List.cons_append, xorL_cons, xorL_cons, ih, xorO_assoc]

/-- The entry `s` consists of times before `t`. -/
def BeforeO (t : Nat) (o : Option (Finset Nat)) : Prop := ∀ s ∈ o, ∀ x ∈ s, x < t

theorem BeforeO.mono {t t' : Nat} {o} (h : BeforeO t o) (ht : t ≤ t') : BeforeO t' o :=
  fun s hs x hx => lt_of_lt_of_le (h s hs x hx) ht

theorem beforeO_none (t) : BeforeO t none := by intro s hs; simp at hs

theorem beforeO_empty (t) : BeforeO t (some ∅) := by
  intro s hs; simp only [Option.mem_def, Option.some.injEq] at hs; subst hs; simp

theorem beforeO_xorO {t : Nat} {a b} (ha : BeforeO t a) (hb : BeforeO t b) : BeforeO t (xorO a b) := by
  rcases a with _ | a <;> rcases b with _ | b <;> try exact beforeO_none t
  intro s hs x hx
  simp only [xorO_some, Option.mem_def, Option.some.injEq] at hs
  subst hs
  rcases Finset.mem_symmDiff.1 hx with h | h
  · exact ha _ rfl _ h.1
  · exact hb _ rfl _ h.1

theorem beforeO_xorL {t : Nat} {l : List (Option (Finset Nat))} (h : ∀ o ∈ l, BeforeO t o) : BeforeO t (xorL l) := by
  induction l with
  | nil => exact beforeO_empty t
  | cons a l ih =>
    rw [xorL_cons]
    exact beforeO_xorO (h a (by simp)) (ih fun o ho => h o (by simp [ho]))

/-- Record offsets of a set of times, relative to time `t`. -/
def relTo (t : Nat) (s : Finset Nat) : List Int := (s.sort (· ≤ ·)).map fun x : Nat => (x : Int) - t

namespace Tracker
variable {κ : Type} [DecidableEq κ]

theorem lookup_plain {m : Tracker κ} {k : κ} {v} (h : (m.history k).head? = some v) :
    m.lookup (.plain k) = .ok v := by
  rw [lookup_eq, TKey.base, TKey.back, ← List.head?_eq_getElem?, h]

theorem lookup_prev0 {m : Tracker κ} {k : κ} {v} (h : (m.history k).head? = some v) :
    m.lookup (.prev k 0) = .ok v := by
  rw [lookup_eq, TKey.base, TKey.back, ← List.head?_eq_getElem?, h]

theorem lookup_prev1 {m : Tracker κ} {k : κ} {v w l} (h : m.history k = v :: w :: l) :
    m.lookup (.prev k 1) = .ok w := by
  rw [lookup_eq, TKey.base, TKey.back, h]; rfl

theorem timeSetFrom_of {m : Tracker κ} {ks : List (TKey κ)} {f : TKey κ → Option (Finset Nat)}
    (h : ∀ k ∈ ks, m.lookup k = .ok (f k)) (r : Finset Nat) :
    m.timeSetFrom r ks = .ok (xorO (some r) (xorL (ks.map f))) := by
  induction ks generalizing r with
  | nil => simp only [timeSetFrom, List.map_nil, xorL_nil, xorO_empty]
  | cons k ks ih =>
    simp only [timeSetFrom, h k (by simp), List.map_cons, xorL_cons]
    rcases f k with _ | s
    · simp
    · simp only
      rw [ih (fun k hk => h k (by simp [hk])), ← xorO_assoc, xorO_some]

theorem timeSet_of {m : Tracker κ} {ks : List (TKey κ)} {f : TKey κ → Option (Finset Nat)}
    (h : ∀ k ∈ ks, m.lookup k = .ok (f k)) : m.timeSet ks = .ok (xorL (ks.map f)) := by
  rw [timeSet, timeSetFrom_of h]
  rcases xorL (ks.map f) with _ | s
  · rfl
  · rw [xorO_some, show symmDiff (∅ : Finset Nat) s = s from bot_symmDiff s]

theorem timeSetFrom_shift {m : Tracker κ} {ks : List (TKey κ)} {r r' : Finset Nat} {w}
    (h : m.timeSetFrom r ks = .ok w) : m.timeSetFrom (symmDiff r' r) ks = .ok (xorO (some r') w) := by
  induction ks generalizing r w with
  | nil => simp only [timeSetFrom, Except.ok.injEq] at h ⊢; subst h; rfl
  | cons k ks ih =>
    simp only [timeSetFrom] at h ⊢
    rcases hk : m.lookup k with e | v
    · rw [hk] at h; simp at h
    · rcases v with _ | v
      · rw [hk] at h; simp only [Except.ok.injEq] at h ⊢; subst h; rfl
      · rw [hk] at h
        simp only at h ⊢
        rw [symmDiff_assoc]
        exact ih h

theorem timeSet_append {m : Tracker κ} {ks ks' : List (TKey κ)} {v w} (hv : m.timeSet ks = .ok v)
    (hw : m.timeSet ks' = .ok w) : m.timeSet (ks ++ ks') = .ok (xorO v w) := by
  have : ∀ (ks : List (TKey κ)) (r v), m.timeSetFrom r ks = .ok v →
      m.timeSetFrom r (ks ++ ks') = .ok (xorO v w) := by
    intro ks
    induction ks with
    | nil =>
      intro r v h
      simp only [timeSetFrom, Except.ok.injEq] at h
      subst h
      have := timeSetFrom_shift (r' := r) hw
      rwa [symmDiff_empty] at this
    | cons k ks ih =>
      intro r v h
      simp only [timeSetFrom, List.cons_append] at h ⊢
      rcases hk : m.lookup k with e | u
      · rw [hk] at h; simp at h
      · rcases u with _ | u
        · rw [hk] at h; simp only [Except.ok.injEq] at h ⊢; subst h; rfl
        · rw [hk] at h
          exact ih _ _ h
  exact this ks ∅ v hv

theorem timeSet_cons {m : Tracker κ} {k : TKey κ} {ks : List (TKey κ)} {v w} (h : m.lookup k = .ok v)
    (hw : m.timeSet ks = .ok w) : ∃ e, m.timeSet (k :: ks) = e ∧ (e = .ok (xorO v w)) := by
  refine ⟨_, rfl, ?_⟩
  have h1 : m.timeSet [k] = .ok v := by
    rcases v with _ | v
    · simp [timeSet, timeSetFrom, h]
    · simp only [timeSet, timeSetFrom, h, empty_symmDiff]
  exact timeSet_append h1 hw

theorem timeSet_plain {α : Type} {m : Tracker κ} {xs : List α} {g : α → κ} {f : α → Option (Finset Nat)}
    (h : ∀ x ∈ xs, (m.history (g x)).head? = some (f x)) :
    m.timeSet (xs.map fun x => .plain (g x)) = .ok (xorL (xs.map f)) := by
  induction xs with
  | nil => rfl
  | cons x xs ih =>
    obtain ⟨e, he, he'⟩ := timeSet_cons (k := .plain (g x)) (lookup_plain (h x (by simp)))
      (ih fun x hx => h x (by simp [hx]))
    rw [List.map_cons, he, he', List.map_cons, xorL_cons]

theorem timeSet_congr {m m' : Tracker κ} {ks : List (TKey κ)}
    (h : ∀ k ∈ ks, m.history k.base = m'.history k.base) : m.timeSet ks = m'.timeSet ks := by
  have : ∀ (ks : List (TKey κ)) (r), (∀ k ∈ ks, m.history k.base = m'.history k.base) →
      m.timeSetFrom r ks = m'.timeSetFrom r ks := by
    intro ks
    induction ks with
    | nil => intros; rfl
    | cons k ks ih =>
      intro r h
      simp only [timeSetFrom, lookup_eq, h k (by simp)]
      cases (m'.history k.base)[k.back]? with
      | none => rfl
      | some v =>
        cases v with
        | none => rfl
        | some v => exact ih _ fun k hk => h k (by simp [hk])
  exact this ks ∅ h

theorem recordTargets_some {m : Tracker κ} {ks : List (TKey κ)} {s} (h : m.timeSet ks = .ok (some s))
    (hb : ∀ x ∈ s, x < m.t) : m.recordTargets ks = .ok (some (relTo m.t s)) := by
  simp only [recordTargets, refTime, h]
  rw [if_pos]
  · rfl
  · rw [List.all_eq_true]
    intro x hx
    obtain ⟨y, hy, rfl⟩ := List.mem_map.1 hx
    have := hb y ((Finset.mem_sort _).1 hy)
    simp only [decide_eq_true_eq]; omega

theorem recordTargets_none {m : Tracker κ} {ks : List (TKey κ)} (h : m.timeSet ks = .ok none) :
    m.recordTargets ks = .ok none := by simp only [recordTargets, refTime, h]

theorem history_push_self (m : Tracker κ) (k : κ) (v) : (m.push k v).history k = v :: m.history k := by
  simp [push]

theorem history_push_ne (m : Tracker κ) {k k' : κ} (h : k' ≠ k) (v) : (m.push k v).history k' = m.history k' := by
  simp [push, h]

theorem addMeasurements_cons (m : Tracker κ) (k : κ) (ks : List κ) :
    m.addMeasurements (k :: ks) = (m.addMeasurement k).addMeasurements ks := rfl

theorem addMeasurements_not_mem (m : Tracker κ) {ks : List κ} {k : κ} (h : k ∉ ks) :
    (m.addMeasurements ks).history k = m.history k := by
  induction ks generalizing m with
  | nil => rfl
  | cons k' ks ih =>
    simp only [List.mem_cons, not_or] at h
    rw [addMeasurements_cons, ih _ h.2]
    exact history_push_ne m h.1 _

theorem addMeasurements_mem (m : Tracker κ) {ks : List κ} (hn : ks.Nodup) {k : κ} (h : k ∈ ks) :
    (m.addMeasurements ks).history k = some {m.t + ks.idxOf k} :: m.history k := by
  induction ks generalizing m with
  | nil => simp at h
  | cons k' ks ih =>
    rw [List.nodup_cons] at hn
    rw [addMeasurements_cons]
    by_cases hk : k = k'
    · subst hk
      rw [addMeasurements_not_mem _ hn.1]
      simp [addMeasurement, push]
    · have hm : k ∈ ks := by simpa [hk] using h
      rw [ih _ hn.2 hm, List.idxOf_cons_ne _ (Ne.symm hk)]
      have h1 : (m.addMeasurement k').history k = m.history k := history_push_ne m hk _
      have h2 : (m.addMeasurement k').t = m.t + 1 := rfl
      rw [h1, h2]
      congr 3; omega

theorem addDummies_history (m : Tracker κ) {ks : List κ} (hn : ks.Nodup) (b : Bool) (k : κ) :
    (m.addDummies ks b).history k =
      if k ∈ ks then (if b then none else some ∅) :: m.history k else m.history k := by
  induction ks generalizing m with
  | nil => simp [addDummies]
  | cons k' ks ih =>
    rw [List.nodup_cons] at hn
    have : m.addDummies (k' :: ks) b = (m.push k' (if b then none else some ∅)).addDummies ks b := rfl
    rw [this, ih _ hn.2]
    by_cases hk : k = k'
    · subst hk; simp [hn.1, history_push_self]
    · simp only [List.mem_cons, hk, false_or, history_push_ne m hk]

end Tracker

/-- The `DETECTOR` instruction (if any) produced for the entry `o` at time `t`. -/
def detI (t : Nat) (o : Option (Finset Nat)) (coords : List Rat) : List Instr :=
  match o with
  | none => []
  | some s => [.detector (relTo t s) coords]

theorem appendDetector_eq {m : MT} {ks : List (TKey Key)} {o} (h : m.timeSet ks = .ok o) (hb : BeforeO m.t o)
    (coords : List Rat) : appendDetector m ks coords = .ok (detI m.t o coords) := by
  rcases o with _ | s
  · simp only [appendDetector, Tracker.recordTargets_none h, detI]
  · simp only [appendDetector, Tracker.recordTargets_some h (hb s rfl), detI]

theorem includeObservable_eq {m : MT} {ks : List (TKey Key)} {s} (h : m.timeSet ks = .ok (some s))
    (hb : BeforeO m.t (some s)) (i : Nat) : includeObservable m ks i = .ok [.observable (relTo m.t s) i] := by
  simp only [includeObservable, Tracker.recordTargets_some h (hb s rfl)]

theorem detectAll_eq {α : Type} {m : MT} {keys : α → List (TKey Key)} {crds : α → List Rat} {v : α → Option (Finset Nat)}
    {xs : List α} (h : ∀ x ∈ xs, m.timeSet (keys x) = .ok (v x)) (hb : ∀ x ∈ xs, BeforeO m.t (v x)) :
    detectAll m keys crds xs = .ok (xs.flatMap fun x => detI m.t (v x) (crds x)) := by
  induction xs with
  | nil => rfl
  | cons x xs ih =>
    simp only [detectAll, appendDetector_eq (h x (by simp)) (hb x (by simp)),
      ih (fun x hx => h x (by simp [hx])) (fun x hx => hb x (by simp [hx])), List.flatMap_cons]

/-- `m'` is `m` with one new entry `v x` for each group key `gk x`. -/
structure Pushed {α : Type} (m m' : MT) (gk : α → Key) (v : α → Option (Finset Nat)) (xs : List α) : Prop where
  t : m'.t = m.t
  mem : ∀ x ∈ xs, m'.history (gk x) = v x :: m.history (gk x)
  other : ∀ k, (∀ x ∈ xs, gk x ≠ k) → m'.history k = m.history k

theorem addGroups_eq {α : Type} {m : MT} {keys : α → List (TKey Key)} {gk : α → Key} {v : α → Option (Finset Nat)}
    {xs : List α} (hn : (xs.map gk).Nodup) (h : ∀ x ∈ xs, m.timeSet (keys x) = .ok (v x))
    (hd : ∀ x ∈ xs, ∀ k ∈ keys x, ∀ y ∈ xs, gk y ≠ k.base) :
    ∃ m', addGroups m keys gk xs = .ok m' ∧ Pushed m m' gk v xs := by
  induction xs generalizing m with
  | nil => exact ⟨m, rfl, rfl, by simp, fun k _ => rfl⟩
  | cons x xs ih =>
    rw [List.map_cons, List.nodup_cons] at hn
    obtain ⟨m', h1, h2⟩ := ih (m := m.push (gk x) (v x)) hn.2
      (by
        intro y hy
        rw [← h y (by simp [hy])]
        apply Tracker.timeSet_congr
        intro k hk
        exact Tracker.history_push_ne m (Ne.symm (hd y (by simp [hy]) k hk x (by simp))) _)
      (fun y hy k hk z hz => hd y (by simp [hy]) k hk z (by simp [hz]))
    refine ⟨m', ?_, h2.t, ?_, ?_⟩
    · simp only [addGroups, Tracker.addGroup, h x (by simp)]; exact h1
    · intro y hy
      rcases List.mem_cons.1 hy with rfl | hy
      · rw [h2.other _ (by
          intro z hz he
          exact hn.1 (List.mem_map.2 ⟨z, hz, he⟩)), Tracker.history_push_self]
      · rw [h2.mem y hy, Tracker.history_push_ne]
        intro he
        exact hn.1 (List.mem_map.2 ⟨y, hy, he⟩)
    · intro k hk
      rw [h2.other k (fun y hy => hk y (by simp [hy])), Tracker.history_push_ne]
      exact Ne.symm (hk x (by simp))

theorem addGroupsDetect_eq {α : Type} {m : MT} {keys : α → List (TKey Key)} {gk : α → Key}
    {crds : α → List Rat} {v p : α → Option (Finset Nat)}
    {xs : List α} (hn : (xs.map gk).Nodup) (h : ∀ x ∈ xs, m.timeSet (keys x) = .ok (v x))
    (hp : ∀ x ∈ xs, (m.history (gk x)).head? = some (p x))
    (hv : ∀ x ∈ xs, BeforeO m.t (v x)) (hpb : ∀ x ∈ xs, BeforeO m.t (p x))
    (hd : ∀ x ∈ xs, ∀ k ∈ keys x, ∀ y ∈ xs, gk y ≠ k.base) :
    ∃ m', addGroupsDetect m keys gk crds xs =
        .ok (xs.flatMap fun x => detI m.t (xorO (v x) (p x)) (crds x), m') ∧ Pushed m m' gk v xs := by
  induction xs generalizing m with
  | nil => exact ⟨m, rfl, rfl, by simp, fun k _ => rfl⟩
  | cons x xs ih =>
    rw [List.map_cons, List.nodup_cons] at hn
    have hne : ∀ y ∈ xs, gk y ≠ gk x := fun y hy he => hn.1 (List.mem_map.2 ⟨y, hy, he⟩)
    obtain ⟨m', h1, h2⟩ := ih (m := m.push (gk x) (v x)) hn.2
      (by
        intro y hy
        rw [← h y (by simp [hy])]
        apply Tracker.timeSet_congr
        intro k hk
        exact Tracker.history_push_ne m (Ne.symm (hd y (by simp [hy]) k hk x (by simp))) _)
      (by
        intro y hy
        rw [Tracker.history_push_ne m (hne y hy), hp y (by simp [hy])])
      (fun y hy => hv y (by simp [hy])) (fun y hy => hpb y (by simp [hy]))
      (fun y hy k hk z hz => hd y (by simp [hy]) k hk z (by simp [hz]))
    refine ⟨m', ?_, h2.t, ?_, ?_⟩
    · have hx : ((m.push (gk x) (v x)).timeSet [.plain (gk x), .prev (gk x) 1]) = .ok (xorO (v x) (p x)) := by
        have hh := hp x (by simp)
        obtain ⟨l, hl⟩ : ∃ l, m.history (gk x) = p x :: l := by
          cases hc : m.history (gk x) with
          | nil => rw [hc] at hh; simp at hh
          | cons a l => rw [hc] at hh; simp only [List.head?_cons, Option.some.injEq] at hh; exact ⟨l, by rw [hh]⟩
        have e1 : (m.push (gk x) (v x)).history (gk x) = v x :: p x :: l := by
          rw [Tracker.history_push_self, hl]
        obtain ⟨e, he, he'⟩ := Tracker.timeSet_cons (ks := []) (Tracker.lookup_prev1 e1) rfl
        obtain ⟨e2, he2, he2'⟩ := Tracker.timeSet_cons (k := .plain (gk x)) (Tracker.lookup_plain (v := v x) (by rw [e1]; rfl)) (he.trans he')
        rw [he2, he2', xorO_empty]
      have hd := appendDetector_eq hx (beforeO_xorO (hv x (by simp)) (hpb x (by simp))) (crds x)
      simp only [addGroupsDetect, Tracker.addGroup, h x (by simp), hd, h1, List.flatMap_cons]
      rfl
    · intro y hy
      rcases List.mem_cons.1 hy with rfl | hy
      · rw [h2.other _ hne, Tracker.history_push_self]
      · rw [h2.mem y hy, Tracker.history_push_ne _ (hne y hy)]
    · intro k hk
      rw [h2.other k (fun y hy => hk y (by simp [hy])), Tracker.history_push_ne]
      exact Ne.symm (hk x (by simp))

end Honeycomb
