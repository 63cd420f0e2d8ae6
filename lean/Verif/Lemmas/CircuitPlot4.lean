import Verif.Lemmas.CircuitPlot3

/-!
# From the levels to the diagram
-/

namespace Honeycomb
open PyDict

theorem exists_least (f : Nat × Nat → Nat) : ∀ (l : List (Nat × Nat)), l ≠ [] → ∃ p ∈ l, ∀ q ∈ l, f p ≤ f q
  | [], h => absurd rfl h
  | [p], _ => ⟨p, by simp⟩
  | p :: p' :: l, _ => by
    obtain ⟨r, hr, h⟩ := exists_least f (p' :: l) (by simp)
    rcases Nat.le_total (f p) (f r) with hle | hle
    · refine ⟨p, by simp, fun q hq => ?_⟩
      rcases List.mem_cons.1 hq with rfl | hq
      · exact le_refl _
      · exact hle.trans (h q hq)
    · refine ⟨r, List.mem_cons_of_mem _ hr, fun q hq => ?_⟩
      rcases List.mem_cons.1 hq with rfl | hq
      · exact hle
      · exact h q hq

theorem exists_most (f : Nat × Nat → Nat) : ∀ (l : List (Nat × Nat)), l ≠ [] → ∃ p ∈ l, ∀ q ∈ l, f q ≤ f p
  | [], h => absurd rfl h
  | [p], _ => ⟨p, by simp⟩
  | p :: p' :: l, _ => by
    obtain ⟨r, hr, h⟩ := exists_most f (p' :: l) (by simp)
    rcases Nat.le_total (f r) (f p) with hle | hle
    · refine ⟨p, by simp, fun q hq => ?_⟩
      rcases List.mem_cons.1 hq with rfl | hq
      · exact le_refl _
      · exact (h q hq).trans hle
    · refine ⟨r, List.mem_cons_of_mem _ hr, fun q hq => ?_⟩
      rcases List.mem_cons.1 hq with rfl | hq
      · exact hle
      · exact h q hq

theorem exists_borders {C : List (Nat × Nat)} (h : C ≠ []) : ∃ x0 x1 y0 y1, Borders C x0 x1 y0 y1 := by
  obtain ⟨a, ha, h1⟩ := exists_least Prod.fst C h
  obtain ⟨b, hb, h2⟩ := exists_most Prod.fst C h
  obtain ⟨c, hc, h3⟩ := exists_least Prod.snd C h
  obtain ⟨d, hd, h4⟩ := exists_most Prod.snd C h
  exact ⟨a.1, b.1, c.2, d.2, fun p hp => ⟨h1 p hp, h2 p hp, h3 p hp, h4 p hp⟩, ⟨a, ha, rfl⟩, ⟨b, hb, rfl⟩, ⟨c, hc, rfl⟩, ⟨d, hd, rfl⟩⟩

theorem fillLevel_spec (qs : List Cx) (level : PyDict Cx Char) :
    (∀ k, (fillLevel qs level).get? k = (level.get? k).or (if k ∈ qs then some '\\' else none)) ∧
    ((level.map Prod.fst).Nodup → ((fillLevel qs level).map Prod.fst).Nodup) := by
  induction qs generalizing level with
  | nil => exact ⟨fun k => by simp [fillLevel], fun h => h⟩
  | cons q qs ih =>
    have e : fillLevel (q :: qs) level = fillLevel qs (if q ∈ level.keys then level else level.set q '\\') := rfl
    rw [e]
    obtain ⟨h1, h2⟩ := ih (if q ∈ level.keys then level else level.set q '\\')
    constructor
    · intro k
      rw [h1]
      by_cases hm : q ∈ level.keys
      · rw [if_pos hm]
        obtain ⟨c, hc⟩ := Option.isSome_iff_exists.1 ((get?_isSome_iff level q).2 hm)
        by_cases hk : k = q
        · subst hk; simp [hc]
        · simp [hk]
      · rw [if_neg hm]
        by_cases hk : k = q
        · subst hk
          rw [get?_set_self, (get?_eq_none_iff level k).2 hm]
          simp
        · rw [get?_set_ne _ _ (Ne.symm hk)]
          simp [hk]
    · intro hn
      refine h2 ?_
      split_ifs
      · exact hn
      · exact nodup_set hn _ _

variable {coords : List (Nat × Nat × Nat)}

theorem lookup_eq_get? {L : List (Nat × Char)} (q : Nat) : L.lookup q = PyDict.get? L q := by
  induction L with
  | nil => rfl
  | cons e L ih =>
    obtain ⟨k, v⟩ := e
    rw [List.lookup_cons, PyDict.get?, ih]
    by_cases h : q = k
    · subst h; simp
    · have : (q == k) = false := by simp [h]
      rw [this, if_neg (Ne.symm h)]

theorem placed_nodup (h : GoodCoords coords) {L : List (Nat × Char)} (hf : Fits coords L) : ((placed coords L).map Prod.fst).Nodup := by
  rw [placed, List.map_map]
  have : (Prod.fst ∘ fun e : Nat × Char => (cx (posOf coords e.1), e.2)) = (fun q => cx (posOf coords q)) ∘ Prod.fst := rfl
  rw [this, ← List.map_map]
  refine List.Nodup.map_on (fun a ha b hb hab => ?_) hf.nodup
  obtain ⟨e, he, rfl⟩ := List.mem_map.1 ha
  obtain ⟨e', he', rfl⟩ := List.mem_map.1 hb
  exact posOf_inj h (hf.declared e he) (hf.declared e' he') (cx_inj.1 hab)

theorem placed_get (h : GoodCoords coords) {L : List (Nat × Char)} (hf : Fits coords L) {q : Nat} {p : Nat × Nat} (hm : (q, p) ∈ coords) :
    (placed coords L).get? (cx p) = L.lookup q := by
  rw [lookup_eq_get?]
  cases hg : PyDict.get? L q with
  | some c =>
    refine get?_of_mem (placed_nodup h hf) (List.mem_map.2 ⟨(q, c), mem_of_get? hg, ?_⟩)
    simp only [posOf_eq h hm]
  | none =>
    rw [get?_eq_none_iff] at hg ⊢
    intro hc
    obtain ⟨e, he, h1⟩ := List.mem_map.1 hc
    obtain ⟨e', he', rfl⟩ := List.mem_map.1 he
    simp only at h1
    have h2 : posOf coords e'.1 = p := cx_inj.1 h1
    have h3 : posOf coords e'.1 = posOf coords q := by rw [h2, posOf_eq h hm]
    have := posOf_inj h (hf.declared e' he') (List.mem_map_of_mem (f := Prod.fst) hm) h3
    simp only at this
    exact hg (this ▸ List.mem_map_of_mem (f := Prod.fst) he')

theorem links_letters {d : Drawing} {e : Nat × Nat} (h : e ∈ d.links) : e.1 ∈ d.letters.map Prod.fst ∧ e.2 ∈ d.letters.map Prod.fst := by
  cases d with
  | pairs c1 c2 qs =>
    simp only [Drawing.links] at h
    simp only [Drawing.letters, List.mem_map, List.mem_flatMap]
    exact ⟨⟨(e.1, c1), ⟨e, h, by simp⟩, rfl⟩, ⟨(e.2, c2), ⟨e, h, by simp⟩, rfl⟩⟩
  | products ps =>
    simp only [Drawing.links, List.mem_map] at h
    obtain ⟨p, hp, rfl⟩ := h
    simp only [Drawing.letters, List.mem_map, List.mem_flatMap]
    exact ⟨⟨(p.1.2, letterOf p.1.1), ⟨p, hp, by simp⟩, rfl⟩, ⟨(p.2.2, letterOf p.2.1), ⟨p, hp, by simp⟩, rfl⟩⟩
  | single c qs => simp [Drawing.links] at h
  | tick => simp [Drawing.links] at h
  | nothing => simp [Drawing.links] at h

theorem linksOf_letters {l : List Drawing} {e : Nat × Nat} (h : e ∈ linksOf l) :
    e.1 ∈ (lettersOf l).map Prod.fst ∧ e.2 ∈ (lettersOf l).map Prod.fst := by
  obtain ⟨d, hd, h⟩ := List.mem_flatMap.1 h
  obtain ⟨h1, h2⟩ := links_letters h
  rw [lettersOf, List.map_flatMap]
  exact ⟨List.mem_flatMap.2 ⟨d, hd, h1⟩, List.mem_flatMap.2 ⟨d, hd, h2⟩⟩

theorem shown_mem {ds : List Drawing} {l : List Drawing} (h : l ∈ shownLevels ds) : l ∈ splitLevels ds := by
  rw [shownLevels] at h
  split_ifs at h
  · exact List.dropLast_subset _ h
  · exact h

theorem blank_ascii {c : Char} (h : 32 < c.toNat) (h' : c.toNat < 127) : ¬ Blank c := by
  have e1 : '\t'.toNat = 9 := rfl
  have e2 : '\r'.toNat = 13 := rfl
  rintro (rfl | ⟨_, h2⟩ | ⟨_, h2⟩ | h2 | h2 | h2 | ⟨h2, _⟩ | h2 | h2 | h2 | h2 | h2)
  · exact absurd h (by decide)
  all_goals omega

theorem letter1_solid {g : Gate} {c : Char} (h : letter1 g = some c) : ¬ Blank c := by
  cases g <;> simp only [letter1, Option.some.injEq, reduceCtorEq] at h <;> subst h <;> exact blank_ascii (by decide) (by decide)

theorem letter2_solid {g : Gate} {c1 c2 : Char} (h : letter2 g = some (c1, c2)) : ¬ Blank c1 ∧ ¬ Blank c2 := by
  cases g <;> simp only [letter2, Option.some.injEq, reduceCtorEq, Prod.mk.injEq] at h <;> obtain ⟨rfl, rfl⟩ := h <;>
    exact ⟨blank_ascii (by decide) (by decide), blank_ascii (by decide) (by decide)⟩

theorem letterOf_solid (b : Basis) : ¬ Blank (letterOf b) := by
  cases b <;> exact blank_ascii (by decide) (by decide)

theorem letters_solid {op : Instr} {d : Drawing} (hd : Draws op d) {e : Nat × Char} (he : e ∈ d.letters) : ¬ Blank e.2 := by
  cases hd with
  | @single g c hl qs args =>
    simp only [Drawing.letters, List.mem_map] at he
    obtain ⟨q, _, rfl⟩ := he
    exact letter1_solid hl
  | @pairs g c1 c2 hl qs args =>
    simp only [Drawing.letters, List.mem_flatMap, List.mem_cons, List.not_mem_nil, or_false] at he
    obtain ⟨q, _, rfl | rfl⟩ := he
    · exact (letter2_solid hl).1
    · exact (letter2_solid hl).2
  | products ps args =>
    simp only [Drawing.letters, List.mem_flatMap, List.mem_cons, List.not_mem_nil, or_false] at he
    obtain ⟨⟨⟨b1, _⟩, ⟨b2, _⟩⟩, _, rfl | rfl⟩ := he
    · exact letterOf_solid b1
    · exact letterOf_solid b2
  | tick ts args => simp [Drawing.letters] at he
  | nothing hg ts args => simp [Drawing.letters] at he

theorem mem_splitLevels {ds : List Drawing} {l : List Drawing} (h : l ∈ splitLevels ds) {d : Drawing} (hd : d ∈ l) : d ∈ ds := by
  induction ds generalizing l with
  | nil => simp [splitLevels] at h; subst h; simp at hd
  | cons a ds ih =>
    by_cases ha : a = .tick
    · subst ha
      simp only [splitLevels, List.mem_cons] at h
      rcases h with rfl | h
      · simp at hd
      · exact List.mem_cons_of_mem _ (ih h hd)
    · obtain ⟨l', ls', hs'⟩ := List.exists_cons_of_ne_nil (splitLevels_ne ds)
      rw [splitLevels_cons ha hs', List.mem_cons] at h
      rcases h with rfl | h
      · rcases List.mem_cons.1 hd with rfl | hd
        · exact List.mem_cons_self
        · exact List.mem_cons_of_mem _ (ih (by rw [hs']; exact List.mem_cons_self) hd)
      · exact List.mem_cons_of_mem _ (ih (by rw [hs']; exact List.mem_cons_of_mem _ h) hd)

theorem letterAt_solid {rest : List Instr} {ds : List Drawing} (hd : List.Forall₂ Draws rest ds) {l : List Drawing}
    (hl : l ∈ splitLevels ds) (q : Nat) : ¬ Blank (letterAt l q) := by
  rw [letterAt, lookup_eq_get?]
  cases hg : PyDict.get? (lettersOf l) q with
  | none => exact blank_ascii (by decide) (by decide)
  | some c =>
    obtain ⟨d, hdl, he⟩ := List.mem_flatMap.1 (mem_of_get? hg)
    have hds := mem_splitLevels hl hdl
    have : ∀ {rest : List Instr} {ds : List Drawing}, List.Forall₂ Draws rest ds → ∀ d ∈ ds, ∃ op, Draws op d := by
      intro rest ds h
      induction h with
      | nil => simp
      | cons h1 _ ih =>
        intro d hd
        rcases List.mem_cons.1 hd with rfl | hd
        · exact ⟨_, h1⟩
        · exact ih d hd
    obtain ⟨op, hop⟩ := this hd d hds
    exact letters_solid hop he

/-- The levels of `plot_circuit`, complete. -/
def fullLevels (coords : List (Nat × Nat × Nat)) (ds : List Drawing) : List (PyDict Cx Char) :=
  (shownLevels ds).map fun l => fillLevel (coords.map fun c => cx c.2) (placed coords (lettersOf l))

def fullLinks (coords : List (Nat × Nat × Nat)) (ds : List Drawing) : List (List (Cx × Cx)) :=
  (shownLevels ds).map fun l => linked coords (linksOf l)

theorem full_get (h : GoodCoords coords) {l : List Drawing} (hf : Fits coords (lettersOf l)) {q : Nat} {p : Nat × Nat} (hm : (q, p) ∈ coords) :
    (fillLevel (coords.map fun c => cx c.2) (placed coords (lettersOf l))).get? (cx p) = some (letterAt l q) := by
  rw [(fillLevel_spec _ _).1, placed_get h hf hm, letterAt, if_pos (List.mem_map.2 ⟨_, hm, rfl⟩)]
  cases (lettersOf l).lookup q <;> rfl

theorem levelsOver (h : GoodCoords coords) {ds : List Drawing} (hf : ∀ l ∈ splitLevels ds, Fits coords (lettersOf l)) :
    LevelsOver (coords.map Prod.snd) (fullLevels coords ds) (fullLinks coords ds) := by
  refine ⟨by simp [fullLevels, fullLinks], ?_, ?_, ?_⟩
  · intro vs hvs
    obtain ⟨l, hl, rfl⟩ := List.mem_map.1 hvs
    exact (fillLevel_spec _ _).2 (placed_nodup h (hf l (shown_mem hl)))
  · intro vs hvs k
    obtain ⟨l, hl, rfl⟩ := List.mem_map.1 hvs
    have hf' := hf l (shown_mem hl)
    constructor
    · intro hk
      rw [← get?_isSome_iff, (fillLevel_spec _ _).1] at hk
      cases hg : (placed coords (lettersOf l)).get? k with
      | some c =>
        obtain ⟨e, he, h1⟩ := List.mem_map.1 (mem_of_get? hg)
        simp only [Prod.mk.injEq] at h1
        exact ⟨posOf coords e.1, List.mem_map.2 ⟨_, posOf_mem (hf'.declared e he), rfl⟩, h1.1.symm⟩
      | none =>
        rw [hg] at hk
        split_ifs at hk with hm
        · obtain ⟨c, hc, rfl⟩ := List.mem_map.1 hm
          exact ⟨c.2, List.mem_map_of_mem hc, rfl⟩
        · simp at hk
    · rintro ⟨p, hp, rfl⟩
      obtain ⟨⟨q, p⟩, hc, rfl⟩ := List.mem_map.1 hp
      rw [← get?_isSome_iff, full_get h hf' hc]
      rfl
  · intro lvl hlvl e he
    obtain ⟨l, hl, rfl⟩ := List.mem_map.1 hlvl
    have hf' := hf l (shown_mem hl)
    obtain ⟨k, hk, rfl⟩ := List.mem_map.1 he
    obtain ⟨h1, h2⟩ := linksOf_letters hk
    have hd : ∀ q ∈ (lettersOf l).map Prod.fst, posOf coords q ∈ coords.map Prod.snd := by
      intro q hq
      obtain ⟨e, he, rfl⟩ := List.mem_map.1 hq
      exact List.mem_map.2 ⟨_, posOf_mem (hf'.declared e he), rfl⟩
    exact ⟨_, hd _ h1, _, hd _ h2, rfl⟩

end Honeycomb
