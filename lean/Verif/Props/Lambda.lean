import Verif.Lemmas.Dict
import Verif.Model.Lambda
import Verif.Spec.Lambda
import Verif.Props.Probability
import Verif.Props.Qubits

/-!
# Grouped error rates of `src/paper`: C59

`FirstTable`, `SameEntry` and `RateAt` are defined in `Verif/Spec/Lambda.lean`.
-/

namespace Honeycomb
open LambdaGroup

/-! ## C59: groups -/

theorem firstTable_iff (o : String) : pyIn o "HX" = true ↔ FirstTable o := by
  have e : ∀ l : String, o = l ↔ o.toList = l.toList := fun l => String.toList_inj.symm
  simp only [pyIn, decide_eq_true_eq, FirstTable, e]
  generalize o.toList = t
  constructor
  · intro h
    rw [show "HX".toList = ['H', 'X'] from rfl, List.infix_cons_iff, List.infix_cons_iff, List.infix_nil] at h
    rcases h with h | h | h
    · rcases List.prefix_cons_iff.1 h with rfl | ⟨t1, rfl, h1⟩
      · simp
      · rcases List.prefix_cons_iff.1 h1 with rfl | ⟨t2, rfl, h2⟩
        · simp
        · rw [List.prefix_nil] at h2
          subst h2
          simp
    · rcases List.prefix_cons_iff.1 h with rfl | ⟨t1, rfl, h1⟩
      · simp
      · rw [List.prefix_nil] at h1
        subst h1
        simp
    · subst h
      simp
  · rintro (rfl | rfl | rfl | rfl) <;> decide

/-- The groups describe the data. -/
structure GroupsOf (data : ProblemShotData) (groups : PyDict Rat LambdaGroup) : Prop where
  nodup : (groups.map Prod.fst).Nodup
  keys : ∀ n, n ∈ groups.map Prod.fst ↔ ∃ e ∈ data, e.1.noise = n
  noise : ∀ n g, (n, g) ∈ groups → g.noise = n
  rep : ∀ n g, (n, g) ∈ groups → (data.map Prod.fst).find? (fun k => k.noise = n) = some g.rep
  h : ∀ n g, (n, g) ∈ groups → (g.distance_error_pairs_h.map Prod.fst).Nodup ∧
    ∀ d v, (d, v) ∈ g.distance_error_pairs_h ↔ ∃ k, (k, v) ∈ data ∧ k.noise = n ∧ k.code_distance = d ∧ FirstTable k.preserved_observable
  v : ∀ n g, (n, g) ∈ groups → (g.distance_error_pairs_v.map Prod.fst).Nodup ∧
    ∀ d v, (d, v) ∈ g.distance_error_pairs_v ↔ ∃ k, (k, v) ∈ data ∧ k.noise = n ∧ k.code_distance = d ∧ ¬ FirstTable k.preserved_observable

theorem mem_set_iff {κ ν : Type} [DecidableEq κ] {d : PyDict κ ν} (hd : (d.map Prod.fst).Nodup) (k k' : κ) (v v' : ν) :
    (k', v') ∈ d.set k v ↔ (k' = k ∧ v' = v) ∨ (k' ≠ k ∧ (k', v') ∈ d) := by
  rw [← PyDict.get?_eq_some_of_nodup (PyDict.nodup_set hd k v), PyDict.get?_set]
  by_cases h : k = k'
  · subst h
    simp [eq_comm]
  · rw [if_neg h, PyDict.get?_eq_some_of_nodup hd]
    simp [Ne.symm h]

theorem groups_step {data : ProblemShotData} {groups : PyDict Rat LambdaGroup} (hG : GroupsOf data groups)
    (k : DecodingProblemDesc) (val : ShotData) :
    ((∀ e ∈ data, ¬ SameEntry e.1 k) → ∃ groups', addToGroups groups k val = .ok groups' ∧ GroupsOf (data ++ [(k, val)]) groups') ∧
    ((∃ e ∈ data, SameEntry e.1 k) → addToGroups groups k val = .error .assertion) := by
  -- the group found or created
  set g := (groups.get? k.noise).getD ⟨k.noise, k, [], []⟩ with hg
  have hnew : k.noise ∉ groups.map Prod.fst → ∀ e ∈ data, e.1.noise ≠ k.noise := fun h e he hn => h ((hG.keys _).2 ⟨e, he, hn⟩)
  have hgh : (g.distance_error_pairs_h.map Prod.fst).Nodup ∧ ∀ d v, (d, v) ∈ g.distance_error_pairs_h ↔
      ∃ k', (k', v) ∈ data ∧ k'.noise = k.noise ∧ k'.code_distance = d ∧ FirstTable k'.preserved_observable := by
    cases hk : groups.get? k.noise with
    | none =>
      rw [hg, hk]
      rw [PyDict.get?_eq_none_iff] at hk
      refine ⟨by simp, fun d v => ?_⟩
      simp only [Option.getD_none, List.not_mem_nil, false_iff]
      rintro ⟨k', h1, h2, _⟩
      exact hnew hk _ h1 h2
    | some g0 =>
      rw [hg, hk]
      exact hG.h _ _ (PyDict.mem_of_get? hk)
  have hgv : (g.distance_error_pairs_v.map Prod.fst).Nodup ∧ ∀ d v, (d, v) ∈ g.distance_error_pairs_v ↔
      ∃ k', (k', v) ∈ data ∧ k'.noise = k.noise ∧ k'.code_distance = d ∧ ¬ FirstTable k'.preserved_observable := by
    cases hk : groups.get? k.noise with
    | none =>
      rw [hg, hk]
      rw [PyDict.get?_eq_none_iff] at hk
      refine ⟨by simp, fun d v => ?_⟩
      simp only [Option.getD_none, List.not_mem_nil, false_iff]
      rintro ⟨k', h1, h2, _⟩
      exact hnew hk _ h1 h2
    | some g0 =>
      rw [hg, hk]
      exact hG.v _ _ (PyDict.mem_of_get? hk)
  have hgn : g.noise = k.noise := by
    cases hk : groups.get? k.noise with
    | none => rw [hg, hk]; rfl
    | some g0 => rw [hg, hk]; exact hG.noise _ _ (PyDict.mem_of_get? hk)
  have hgr : ((data ++ [(k, val)]).map Prod.fst).find? (fun k' => k'.noise = k.noise) = some g.rep := by
    rw [List.map_append, List.find?_append]
    cases hk : groups.get? k.noise with
    | none =>
      rw [hg, hk]
      rw [PyDict.get?_eq_none_iff] at hk
      have hnone : (data.map Prod.fst).find? (fun k' => decide (k'.noise = k.noise)) = none := by
        rw [List.find?_eq_none]
        intro x hx
        obtain ⟨e, he, rfl⟩ := List.mem_map.1 hx
        simpa using hnew hk e he
      rw [hnone]
      simp
    | some g0 =>
      rw [hg, hk, hG.rep _ _ (PyDict.mem_of_get? hk)]
      rfl
  -- membership of the distance in the table
  have hmem : (k.code_distance ∈ PyDict.keys (if pyIn k.preserved_observable "HX" = true then g.distance_error_pairs_h else
      g.distance_error_pairs_v)) ↔ ∃ e ∈ data, SameEntry e.1 k := by
    by_cases hF : FirstTable k.preserved_observable
    · rw [if_pos ((firstTable_iff _).2 hF), PyDict.keys, List.mem_map]
      constructor
      · rintro ⟨⟨d, v⟩, h1, h2⟩
        simp only at h2
        obtain ⟨k', hk', h3, h4, h5⟩ := (hgh.2 d v).1 h1
        exact ⟨_, hk', h3, ⟨fun _ => hF, fun _ => h5⟩, by rw [h4, h2]⟩
      · rintro ⟨⟨k', v⟩, he, h1, h2, h3⟩
        exact ⟨(k.code_distance, v), (hgh.2 _ _).2 ⟨k', he, h1, h3, h2.2 hF⟩, rfl⟩
    · rw [if_neg (fun h => hF ((firstTable_iff _).1 h)), PyDict.keys, List.mem_map]
      constructor
      · rintro ⟨⟨d, v⟩, h1, h2⟩
        simp only at h2
        obtain ⟨k', hk', h3, h4, h5⟩ := (hgv.2 d v).1 h1
        exact ⟨_, hk', h3, ⟨fun h => absurd h h5, fun h => absurd h hF⟩, by rw [h4, h2]⟩
      · rintro ⟨⟨k', v⟩, he, h1, h2, h3⟩
        exact ⟨(k.code_distance, v), (hgv.2 _ _).2 ⟨k', he, h1, h3, fun h => hF (h2.1 h)⟩, rfl⟩
  constructor
  · intro hno
    have hnot : ¬ ∃ e ∈ data, SameEntry e.1 k := fun ⟨e, he, h⟩ => hno e he h
    -- the new group
    obtain ⟨g', hadd, hn', hr', hh', hv'⟩ : ∃ g', addToGroups groups k val = .ok (groups.set k.noise g') ∧ g'.noise = g.noise ∧
        g'.rep = g.rep ∧
        ((g'.distance_error_pairs_h.map Prod.fst).Nodup ∧ ∀ d v, (d, v) ∈ g'.distance_error_pairs_h ↔
          ∃ k', (k', v) ∈ data ++ [(k, val)] ∧ k'.noise = k.noise ∧ k'.code_distance = d ∧ FirstTable k'.preserved_observable) ∧
        ((g'.distance_error_pairs_v.map Prod.fst).Nodup ∧ ∀ d v, (d, v) ∈ g'.distance_error_pairs_v ↔
          ∃ k', (k', v) ∈ data ++ [(k, val)] ∧ k'.noise = k.noise ∧ k'.code_distance = d ∧ ¬ FirstTable k'.preserved_observable) := by
      by_cases hF : FirstTable k.preserved_observable
      · have hp := (firstTable_iff _).2 hF
        have hnk := fun h => hnot (hmem.1 h)
        rw [if_pos hp] at hnk
        refine ⟨{ g with distance_error_pairs_h := g.distance_error_pairs_h.set k.code_distance val }, ?_, rfl, rfl, ⟨?_, ?_⟩,
          ⟨hgv.1, ?_⟩⟩
        · simp only [addToGroups, ← hg, hp, if_true]
          rw [if_neg hnk]
        · exact PyDict.nodup_set hgh.1 _ _
        · intro d v
          rw [mem_set_iff hgh.1, hgh.2]
          constructor
          · rintro (⟨rfl, rfl⟩ | ⟨_, k', h1, h2⟩)
            · exact ⟨k, by simp, rfl, rfl, hF⟩
            · exact ⟨k', by simp [h1], h2⟩
          · rintro ⟨k', h1, h2, h3, h4⟩
            rcases List.mem_append.1 h1 with h1 | h1
            · right
              refine ⟨?_, k', h1, h2, h3, h4⟩
              rintro rfl
              exact hnot ⟨_, h1, h2, ⟨fun _ => hF, fun _ => h4⟩, h3⟩
            · simp only [List.mem_singleton, Prod.mk.injEq] at h1
              left
              exact ⟨by rw [← h3, h1.1], h1.2⟩
        · intro d v
          rw [hgv.2]
          constructor
          · rintro ⟨k', h1, h2⟩
            exact ⟨k', by simp [h1], h2⟩
          · rintro ⟨k', h1, h2, h3, h4⟩
            rcases List.mem_append.1 h1 with h1 | h1
            · exact ⟨k', h1, h2, h3, h4⟩
            · simp only [List.mem_singleton, Prod.mk.injEq] at h1
              exact absurd (h1.1 ▸ hF) h4
      · have hp : ¬ pyIn k.preserved_observable "HX" = true := fun h => hF ((firstTable_iff _).1 h)
        have hnk := fun h => hnot (hmem.1 h)
        rw [if_neg hp] at hnk
        refine ⟨{ g with distance_error_pairs_v := g.distance_error_pairs_v.set k.code_distance val }, ?_, rfl, rfl, ⟨hgh.1, ?_⟩,
          ⟨?_, ?_⟩⟩
        · simp only [addToGroups, ← hg, if_neg hp]
          rw [if_neg hnk]
        · intro d v
          rw [hgh.2]
          constructor
          · rintro ⟨k', h1, h2⟩
            exact ⟨k', by simp [h1], h2⟩
          · rintro ⟨k', h1, h2, h3, h4⟩
            rcases List.mem_append.1 h1 with h1 | h1
            · exact ⟨k', h1, h2, h3, h4⟩
            · simp only [List.mem_singleton, Prod.mk.injEq] at h1
              exact absurd (h1.1 ▸ h4) hF
        · exact PyDict.nodup_set hgv.1 _ _
        · intro d v
          rw [mem_set_iff hgv.1, hgv.2]
          constructor
          · rintro (⟨rfl, rfl⟩ | ⟨_, k', h1, h2⟩)
            · exact ⟨k, by simp, rfl, rfl, hF⟩
            · exact ⟨k', by simp [h1], h2⟩
          · rintro ⟨k', h1, h2, h3, h4⟩
            rcases List.mem_append.1 h1 with h1 | h1
            · right
              refine ⟨?_, k', h1, h2, h3, h4⟩
              rintro rfl
              exact hnot ⟨_, h1, h2, ⟨fun h => absurd h h4, fun h => absurd h hF⟩, h3⟩
            · simp only [List.mem_singleton, Prod.mk.injEq] at h1
              left
              exact ⟨by rw [← h3, h1.1], h1.2⟩
    have other : ∀ {n v'} (P : DecodingProblemDesc → Prop), n ≠ k.noise →
        ((∃ k', (k', v') ∈ data ++ [(k, val)] ∧ k'.noise = n ∧ P k') ↔ ∃ k', (k', v') ∈ data ∧ k'.noise = n ∧ P k') := by
      intro n v' P hne
      constructor
      · rintro ⟨k', h1, h2, h3⟩
        rcases List.mem_append.1 h1 with h1 | h1
        · exact ⟨k', h1, h2, h3⟩
        · simp only [List.mem_singleton, Prod.mk.injEq] at h1
          exact absurd (by rw [← h2, h1.1]) hne
      · rintro ⟨k', h1, h2⟩
        exact ⟨k', by simp [h1], h2⟩
    refine ⟨_, hadd, PyDict.nodup_set hG.nodup _ _, ?_, ?_, ?_, ?_, ?_⟩
    · intro n
      rw [PyDict.map_fst_set]
      constructor
      · intro hn
        by_cases hne : n = k.noise
        · exact ⟨(k, val), by simp, hne.symm⟩
        · have : n ∈ groups.map Prod.fst := by
            split_ifs at hn with hin
            · exact hn
            · rcases List.mem_append.1 hn with hn | hn
              · exact hn
              · exact absurd (List.mem_singleton.1 hn) hne
          obtain ⟨e, he, h⟩ := (hG.keys n).1 this
          exact ⟨e, by simp [he], h⟩
      · rintro ⟨e, he, hn⟩
        rcases List.mem_append.1 he with he | he
        · have := (hG.keys n).2 ⟨e, he, hn⟩
          split_ifs
          · exact this
          · exact List.mem_append_left _ this
        · rw [List.mem_singleton.1 he] at hn
          simp only at hn
          subst hn
          split_ifs with hin
          · exact hin
          · simp
    · intro n g0 hm
      rcases (mem_set_iff hG.nodup _ _ _ _).1 hm with ⟨rfl, rfl⟩ | ⟨_, hm⟩
      · rw [hn', hgn]
      · exact hG.noise n g0 hm
    · intro n g0 hm
      rcases (mem_set_iff hG.nodup _ _ _ _).1 hm with ⟨rfl, rfl⟩ | ⟨_, hm⟩
      · rw [hgr, hr']
      · rw [List.map_append, List.find?_append, hG.rep n g0 hm]
        rfl
    · intro n g0 hm
      rcases (mem_set_iff hG.nodup _ _ _ _).1 hm with ⟨rfl, rfl⟩ | ⟨hne, hm⟩
      · exact hh'
      · refine ⟨(hG.h n g0 hm).1, fun d v => ?_⟩
        rw [(hG.h n g0 hm).2, other (fun k' => k'.code_distance = d ∧ FirstTable k'.preserved_observable) hne]
    · intro n g0 hm
      rcases (mem_set_iff hG.nodup _ _ _ _).1 hm with ⟨rfl, rfl⟩ | ⟨hne, hm⟩
      · exact hv'
      · refine ⟨(hG.v n g0 hm).1, fun d v => ?_⟩
        rw [(hG.v n g0 hm).2, other (fun k' => k'.code_distance = d ∧ ¬ FirstTable k'.preserved_observable) hne]
  · intro hex
    have := hmem.2 hex
    simp only [addToGroups, ← hg]
    rw [if_pos this]

theorem groups_snoc (data : ProblemShotData) (e : DecodingProblemDesc × ShotData) :
    groupsFromData (data ++ [e]) = (groupsFromData data).bind fun groups => addToGroups groups e.1 e.2 := by
  rw [groupsFromData, List.foldlM_append, groupsFromData]
  cases List.foldlM (fun groups kv => addToGroups groups kv.1 kv.2) [] data with
  | error => rfl
  | ok g => simp only [bind, Except.bind, List.foldlM_cons, List.foldlM_nil, pure, Except.pure]; cases addToGroups g e.1 e.2 <;> rfl

theorem groups_cases (data : ProblemShotData) :
    ((data.Pairwise fun a b => ¬ SameEntry a.1 b.1) → ∃ groups, groupsFromData data = .ok groups ∧ GroupsOf data groups) ∧
    ((¬ data.Pairwise fun a b => ¬ SameEntry a.1 b.1) → groupsFromData data = .error .assertion) := by
  induction data using List.reverseRecOn with
  | nil =>
    refine ⟨fun _ => ⟨[], rfl, ?_⟩, fun h => absurd List.Pairwise.nil h⟩
    exact ⟨by simp, by simp, by simp, by simp, by simp, by simp⟩
  | append_singleton data e ih =>
    rw [groups_snoc]
    have hpw : ((data ++ [e]).Pairwise fun a b => ¬ SameEntry a.1 b.1) ↔
        (data.Pairwise fun a b => ¬ SameEntry a.1 b.1) ∧ ∀ a ∈ data, ¬ SameEntry a.1 e.1 := by
      rw [List.pairwise_append]
      simp
    rw [hpw]
    by_cases hp : data.Pairwise fun a b => ¬ SameEntry a.1 b.1
    · obtain ⟨groups, h1, h2⟩ := ih.1 hp
      obtain ⟨s1, s2⟩ := groups_step h2 e.1 e.2
      rw [h1]
      refine ⟨fun h => s1 h.2, fun h => s2 ?_⟩
      by_contra hcon
      exact h ⟨hp, fun a ha hs => hcon ⟨a, ha, hs⟩⟩
    · refine ⟨fun h => absurd h.1 hp, fun _ => ?_⟩
      rw [ih.2 hp]
      rfl

/-- C59: if no two descriptions share noise, kind of observable and distance, there is one group for every noise that occurs. Its representative
is the first description with that noise, and its two tables together hold exactly the data with that noise: those of
horizontal (or X) observables in the first one, all others in the second one. -/
theorem c59_groups (data : ProblemShotData) (h : data.Pairwise fun a b => ¬ SameEntry a.1 b.1) :
    ∃ groups, groupsFromData data = .ok groups ∧ (groups.map Prod.fst).Nodup ∧
      (∀ n, n ∈ groups.map Prod.fst ↔ ∃ e ∈ data, e.1.noise = n) ∧
      ∀ n g, (n, g) ∈ groups → g.noise = n ∧ (data.map Prod.fst).find? (fun k => k.noise = n) = some g.rep ∧
        (g.distance_error_pairs_h.map Prod.fst).Nodup ∧ (g.distance_error_pairs_v.map Prod.fst).Nodup ∧
        (∀ d v, (d, v) ∈ g.distance_error_pairs_h ↔
          ∃ k, (k, v) ∈ data ∧ k.noise = n ∧ k.code_distance = d ∧ FirstTable k.preserved_observable) ∧
        (∀ d v, (d, v) ∈ g.distance_error_pairs_v ↔
          ∃ k, (k, v) ∈ data ∧ k.noise = n ∧ k.code_distance = d ∧ ¬ FirstTable k.preserved_observable) := by
  obtain ⟨groups, h1, h2⟩ := (groups_cases data).1 h
  exact ⟨groups, h1, h2.nodup, h2.keys, fun n g hm =>
    ⟨h2.noise n g hm, h2.rep n g hm, (h2.h n g hm).1, (h2.v n g hm).1, (h2.h n g hm).2, (h2.v n g hm).2⟩⟩

/-- C59: ambiguous data are rejected. -/
theorem c59_ambiguous (data : ProblemShotData) (h : ¬ data.Pairwise fun a b => ¬ SameEntry a.1 b.1) :
    groupsFromData data = .error .assertion := (groups_cases data).2 h

/-- Two noise levels, three descriptions. -/
def groupDemo : ProblemShotData :=
  [((HoneycombLayout.mk 4 6 36 "SD6" "H" (1 / 100)).asDecoderProblemDesc "internal", ⟨10, 9, 1⟩),
   ((HoneycombLayout.mk 4 6 36 "SD6" "V" (1 / 100)).asDecoderProblemDesc "internal", ⟨20, 15, 1⟩),
   ((HoneycombLayout.mk 8 12 72 "SD6" "V" (1 / 50)).asDecoderProblemDesc "internal", ⟨30, 30, 2⟩)]

example : groupDemo.Pairwise fun a b => ¬ SameEntry a.1 b.1 := by
  simp only [groupDemo, List.pairwise_cons, List.mem_cons, List.not_mem_nil, or_false, forall_eq_or_imp, forall_eq, IsEmpty.forall_iff,
    implies_true, List.Pairwise.nil, and_true]
  refine ⟨⟨?_, ?_⟩, ?_⟩ <;> simp [SameEntry, FirstTable, HoneycombLayout.asDecoderProblemDesc] <;> norm_num

/-! ## C59: combined rates -/

theorem rate_bounds {s : ShotData} (h0 : 0 ≤ s.num_correct) (h1 : s.num_correct ≤ s.num_shots) :
    0 ≤ s.logical_error_rate ∧ s.logical_error_rate ≤ 1 := by
  rw [ShotData.logical_error_rate]
  split_ifs with hz
  · norm_num
  · have hpos : (0 : Rat) < (s.num_shots : Rat) := by
      have : 0 < s.num_shots := by omega
      exact_mod_cast this
    constructor
    · apply div_nonneg _ hpos.le
      have : 0 ≤ s.num_shots - s.num_correct := by omega
      exact_mod_cast this
    · rw [div_le_one hpos]
      have : s.num_shots - s.num_correct ≤ s.num_shots := by omega
      exact_mod_cast this

theorem oddFlips_zero (k : Nat) : oddFlips 0 k = 0 := by
  induction k with
  | zero => rfl
  | succ k ih => rw [oddFlips, ih]; ring

/-- A non-zero rate has a non-zero rate per piece. -/
theorem perPiece_pos {p : ℝ} (h0 : 0 < p) (h1 : p ≤ 1) {n : Nat} (hn : 1 ≤ n) :
    ∃ a, totalErrorToPerPieceError p (n : Int) = .ok a ∧ 0 < a ∧ a ≤ 1 := by
  by_cases h : p ≤ 1 / 2
  · obtain ⟨q, hq, q0, q1, q2⟩ := c45_composes p n h0.le h hn
    refine ⟨q, hq, lt_of_le_of_ne q0 ?_, by linarith⟩
    rintro rfl
    rw [oddFlips_zero] at q2
    linarith
  · obtain ⟨q, _, hq, q0, q1⟩ := c45_reflection p n (by linarith) h1 hn
    exact ⟨1 - q, hq, by linarith, q1⟩

/-- The tables of a group, as `groups_from_data` builds them from recorded data. -/
structure GoodTables (g : LambdaGroup) : Prop where
  h : (g.distance_error_pairs_h.map Prod.fst).Nodup
  v : (g.distance_error_pairs_v.map Prod.fst).Nodup
  hs : ∀ e ∈ g.distance_error_pairs_h, 0 ≤ e.2.num_correct ∧ e.2.num_correct ≤ e.2.num_shots
  vs : ∀ e ∈ g.distance_error_pairs_v, 0 ≤ e.2.num_correct ∧ e.2.num_correct ≤ e.2.num_shots

theorem get?_rate {t : PyDict Int ShotData} (ht : (t.map Prod.fst).Nodup) (hs : ∀ e ∈ t, 0 ≤ e.2.num_correct ∧ e.2.num_correct ≤ e.2.num_shots)
    (d : Int) : (t.get? d = none ∧ ∀ s, (d, s) ∉ t) ∨
      ∃ s, t.get? d = some s ∧ (d, s) ∈ t ∧ 0 ≤ s.logical_error_rate ∧ s.logical_error_rate ≤ 1 := by
  cases h : t.get? d with
  | none =>
    left
    refine ⟨rfl, fun s hm => ?_⟩
    rw [PyDict.get?_of_mem ht hm] at h
    simp at h
  | some s =>
    right
    have hm := PyDict.mem_of_get? h
    exact ⟨s, rfl, hm, rate_bounds (hs _ hm).1 (hs _ hm).2⟩

/-- The loop body for one distance. -/
theorem comboPoint_spec {g : LambdaGroup} (hg : GoodTables g) {cells : Nat} (hc : 1 ≤ cells)
    (hcells : ⌈(g.rep.rounds : Rat) / (g.rep.code_distance : Rat)⌉ = (cells : Int)) (hcd : g.rep.code_distance ≠ 0) {d : Int}
    (hd : d ∈ g.distance_error_pairs_h.map Prod.fst ∨ d ∈ g.distance_error_pairs_v.map Prod.fst) :
    ∃ pH pV : Rat, RateAt g.distance_error_pairs_h g.distance_error_pairs_v d pH ∧
      RateAt g.distance_error_pairs_v g.distance_error_pairs_h d pV ∧
      ((pH = 0 ∨ pV = 0) → g.comboPoint d = .ok none) ∧
      (pH ≠ 0 → pV ≠ 0 → ∃ a b : ℝ, totalErrorToPerPieceError (pH : ℝ) (cells : Int) = .ok a ∧
        totalErrorToPerPieceError (pV : ℝ) (cells : Int) = .ok b ∧ g.comboPoint d = .ok (some (1 - (1 - a) * (1 - b))) ∧
        0 < 1 - (1 - a) * (1 - b) ∧ 1 - (1 - a) * (1 - b) ≤ 1) := by
  obtain ⟨pH, pV, r1, r2, b1, b2, b3, b4, hp⟩ : ∃ pH pV : Rat, RateAt g.distance_error_pairs_h g.distance_error_pairs_v d pH ∧
      RateAt g.distance_error_pairs_v g.distance_error_pairs_h d pV ∧ 0 ≤ pH ∧ pH ≤ 1 ∧ 0 ≤ pV ∧ pV ≤ 1 ∧
      g.comboPoint d = (if pH ≠ 0 ∧ pV ≠ 0 then
        if g.rep.code_distance = 0 then .error .zeroDivision
        else do
          let cells : Int := ⌈(g.rep.rounds : Rat) / (g.rep.code_distance : Rat)⌉
          let p1 ← totalErrorToPerPieceError (pH : ℝ) cells
          let p2 ← totalErrorToPerPieceError (pV : ℝ) cells
          return some (1 - (1 - p1) * (1 - p2))
      else .ok none) := by
    rcases get?_rate hg.h hg.hs d with ⟨h1, h1'⟩ | ⟨s1, h1, h1', h1l, h1u⟩
    · rcases get?_rate hg.v hg.vs d with ⟨h2, h2'⟩ | ⟨s2, h2, h2', h2l, h2u⟩
      · rcases hd with hd | hd
        · obtain ⟨e, he, rfl⟩ := List.mem_map.1 hd
          exact absurd he (h1' e.2)
        · obtain ⟨e, he, rfl⟩ := List.mem_map.1 hd
          exact absurd he (h2' e.2)
      · refine ⟨_, _, Or.inr ⟨h1', s2, h2', rfl⟩, Or.inl ⟨s2, h2', rfl⟩, h2l, h2u, h2l, h2u, ?_⟩
        simp only [comboPoint, h1, h2, Option.map_none, Option.map_some]
    · rcases get?_rate hg.v hg.vs d with ⟨h2, h2'⟩ | ⟨s2, h2, h2', h2l, h2u⟩
      · refine ⟨_, _, Or.inl ⟨s1, h1', rfl⟩, Or.inr ⟨h2', s1, h1', rfl⟩, h1l, h1u, h1l, h1u, ?_⟩
        simp only [comboPoint, h1, h2, Option.map_none, Option.map_some]
      · refine ⟨_, _, Or.inl ⟨s1, h1', rfl⟩, Or.inl ⟨s2, h2', rfl⟩, h1l, h1u, h2l, h2u, ?_⟩
        simp only [comboPoint, h1, h2, Option.map_some]
  refine ⟨pH, pV, r1, r2, ?_, ?_⟩
  · intro hz
    rw [hp, if_neg (by tauto)]
  · intro hz1 hz2
    have q1 : (0 : ℝ) < (pH : ℝ) := by exact_mod_cast lt_of_le_of_ne b1 (Ne.symm hz1)
    have q2 : (0 : ℝ) < (pV : ℝ) := by exact_mod_cast lt_of_le_of_ne b3 (Ne.symm hz2)
    obtain ⟨a, ha, a0, a1⟩ := perPiece_pos q1 (by exact_mod_cast b2) hc
    obtain ⟨b, hb, c0, c1⟩ := perPiece_pos q2 (by exact_mod_cast b4) hc
    refine ⟨a, b, ha, hb, ?_, by nlinarith, by nlinarith⟩
    rw [hp, if_pos ⟨hz1, hz2⟩, if_neg hcd]
    simp only [hcells, ha, hb, bind, Except.bind, pure, Except.pure]

theorem comboLoop_spec (g : LambdaGroup) (ds : List Int) (h : ∀ d ∈ ds, ∃ o, g.comboPoint d = .ok o) :
    ∃ xs ys, g.comboLoop ds = .ok (xs, ys) ∧ xs.length = ys.length ∧ xs.Sublist ds ∧
      (∀ d ∈ ds, d ∈ xs ↔ g.comboPoint d ≠ .ok none) ∧ ∀ e ∈ xs.zip ys, g.comboPoint e.1 = .ok (some e.2) := by
  induction ds with
  | nil => exact ⟨[], [], rfl, rfl, List.Sublist.refl _, by simp, by simp⟩
  | cons d ds ih =>
    obtain ⟨xs, ys, h1, h2, h3, h4, h5⟩ := ih fun d hd => h d (List.mem_cons_of_mem _ hd)
    obtain ⟨o, ho⟩ := h d (by simp)
    cases o with
    | none =>
      refine ⟨xs, ys, ?_, h2, h3.cons _, ?_, h5⟩
      · simp only [comboLoop, ho, bind, Except.bind, h1]
      · intro d' hd'
        rcases List.mem_cons.1 hd' with rfl | hd'
        · constructor
          · intro hx
            exact (h4 d' (h3.subset hx)).1 hx
          · intro hx; exact absurd ho hx
        · exact h4 d' hd'
    | some y =>
      refine ⟨d :: xs, y :: ys, ?_, by simp [h2], h3.cons_cons _, ?_, ?_⟩
      · simp only [comboLoop, ho, bind, Except.bind, h1, pure, Except.pure]
      · intro d' hd'
        rcases List.mem_cons.1 hd' with rfl | hd'
        · simp [ho]
        · constructor
          · intro hx
            rcases List.mem_cons.1 hx with rfl | hx
            · simp [ho]
            · exact (h4 d' hd').1 hx
          · intro hx
            exact List.mem_cons_of_mem _ ((h4 d' hd').2 hx)
      · intro e he
        rw [List.zip_cons_cons] at he
        rcases List.mem_cons.1 he with rfl | he
        · exact ho
        · exact h5 e he

theorem mem_distances (g : LambdaGroup) (d : Int) :
    d ∈ g.distances ↔ d ∈ g.distance_error_pairs_h.map Prod.fst ∨ d ∈ g.distance_error_pairs_v.map Prod.fst := by
  rw [distances, mem_sorted, mem_pySet, List.mem_append]
  rfl

theorem distances_sorted (g : LambdaGroup) : g.distances.Pairwise (· < ·) := by
  have h1 : g.distances.Pairwise fun a b => decide (a ≤ b) = true := by
    apply List.pairwise_mergeSort
    · intro a b c; simp only [decide_eq_true_eq]; omega
    · intro a b
      simp only [Bool.or_eq_true, decide_eq_true_eq]
      omega
  have h2 : g.distances.Nodup := by
    rw [distances, nodup_sorted]
    exact nodup_pySet _
  exact (h1.and h2).imp fun h => by
    have := h.1
    simp only [decide_eq_true_eq] at this
    have := h.2
    omega

theorem rateAt_unique {own other : List (Int × ShotData)} (h1 : (own.map Prod.fst).Nodup) (h2 : (other.map Prod.fst).Nodup) {d : Int} {p q : Rat}
    (hp : RateAt own other d p) (hq : RateAt own other d q) : p = q := by
  have uni : ∀ {t : List (Int × ShotData)} {s s' : ShotData}, (t.map Prod.fst).Nodup → (d, s) ∈ t → (d, s') ∈ t → s = s' := by
    intro t s s' ht hs hs'
    have a := PyDict.get?_of_mem ht hs
    rw [PyDict.get?_of_mem ht hs'] at a
    exact (Option.some.inj a).symm
  rcases hp with ⟨s, hs, rfl⟩ | ⟨hn, s, hs, rfl⟩ <;> rcases hq with ⟨s', hs', rfl⟩ | ⟨hn', s', hs', rfl⟩
  · rw [uni h1 hs hs']
  · exact absurd hs (hn' s)
  · exact absurd hs' (hn s')
  · rw [uni h2 hs hs']

/-- C59: `combo_data` lists, in increasing order and once each, the distances at which both rates are not zero (a missing rate is
replaced by the other one), with the probability that at least one of the two observables flips in one code cell. The number of cells is the
number of rounds of the representative divided by its distance, rounded up. All listed values are positive probabilities. -/
theorem c59_combined (g : LambdaGroup) (hg : GoodTables g) (hr : 1 ≤ g.rep.rounds) (hd : 1 ≤ g.rep.code_distance) :
    ∃ (cells : Nat) (xs : List Int) (ys : List ℝ), (g.rep.rounds ≤ cells * g.rep.code_distance ∧
        (cells - 1 : Int) * g.rep.code_distance < g.rep.rounds) ∧
      g.comboData = .ok (xs, ys) ∧ xs.length = ys.length ∧ xs.Pairwise (· < ·) ∧
      (∀ d, d ∈ xs ↔ ∃ pH pV, RateAt g.distance_error_pairs_h g.distance_error_pairs_v d pH ∧
        RateAt g.distance_error_pairs_v g.distance_error_pairs_h d pV ∧ pH ≠ 0 ∧ pV ≠ 0) ∧
      ∀ d y, (d, y) ∈ xs.zip ys → 0 < y ∧ y ≤ 1 ∧ ∀ pH pV : Rat, RateAt g.distance_error_pairs_h g.distance_error_pairs_v d pH →
        RateAt g.distance_error_pairs_v g.distance_error_pairs_h d pV → ∃ a b, totalErrorToPerPieceError (pH : ℝ) cells = .ok a ∧
          totalErrorToPerPieceError (pV : ℝ) cells = .ok b ∧ y = 1 - (1 - a) * (1 - b) := by
  have hdq : (0 : Rat) < (g.rep.code_distance : Rat) := by exact_mod_cast hd
  have hrq : (0 : Rat) < (g.rep.rounds : Rat) := by exact_mod_cast hr
  have hpos : 0 < ⌈(g.rep.rounds : Rat) / (g.rep.code_distance : Rat)⌉ := Int.ceil_pos.2 (div_pos hrq hdq)
  obtain ⟨cells, hcells⟩ := Int.eq_ofNat_of_zero_le hpos.le
  have hc1 : 1 ≤ cells := by omega
  have hpt : ∀ d ∈ g.distances, _ := fun d hd' =>
    comboPoint_spec hg hc1 hcells (by omega) ((mem_distances g d).1 hd')
  obtain ⟨xs, ys, h1, h2, h3, h4, h5⟩ := comboLoop_spec g g.distances (by
    intro d hd'
    obtain ⟨pH, pV, _, _, hz, hnz⟩ := hpt d hd'
    by_cases h : pH = 0 ∨ pV = 0
    · exact ⟨_, hz h⟩
    · rw [not_or] at h
      obtain ⟨a, b, _, _, hp, _⟩ := hnz h.1 h.2
      exact ⟨_, hp⟩)
  refine ⟨cells, xs, ys, ⟨?_, ?_⟩, h1, h2, (distances_sorted g).sublist h3, ?_, ?_⟩
  · have := Int.le_ceil ((g.rep.rounds : Rat) / (g.rep.code_distance : Rat))
    rw [hcells, div_le_iff₀ hdq] at this
    exact_mod_cast this
  · have := Int.ceil_lt_add_one ((g.rep.rounds : Rat) / (g.rep.code_distance : Rat))
    rw [hcells, ← sub_lt_iff_lt_add, lt_div_iff₀ hdq] at this
    exact_mod_cast this
  · intro d
    constructor
    · intro hx
      have hd' := h3.subset hx
      obtain ⟨pH, pV, r1, r2, hz, _⟩ := hpt d hd'
      have := (h4 d hd').1 hx
      refine ⟨pH, pV, r1, r2, fun h => this (hz (Or.inl h)), fun h => this (hz (Or.inr h))⟩
    · rintro ⟨pH, pV, r1, r2, z1, z2⟩
      have hd' : d ∈ g.distances := by
        rw [mem_distances]
        rcases r1 with ⟨s, hs, _⟩ | ⟨_, s, hs, _⟩
        · exact Or.inl (List.mem_map.2 ⟨_, hs, rfl⟩)
        · exact Or.inr (List.mem_map.2 ⟨_, hs, rfl⟩)
      obtain ⟨pH', pV', r1', r2', _, hnz⟩ := hpt d hd'
      rw [rateAt_unique hg.h hg.v r1' r1, rateAt_unique hg.v hg.h r2' r2] at hnz
      obtain ⟨a, b, _, _, hp, _⟩ := hnz z1 z2
      rw [h4 d hd', hp]
      simp
  · intro d y hxy
    have hx : d ∈ xs := (List.of_mem_zip hxy).1
    have hd' := h3.subset hx
    have hval := h5 _ hxy
    simp only at hval
    obtain ⟨pH, pV, r1, r2, hz, hnz⟩ := hpt d hd'
    have hzz : pH ≠ 0 ∧ pV ≠ 0 := by
      constructor <;> intro h <;> rw [hz (by tauto)] at hval <;> simp at hval
    obtain ⟨a, b, ha, hb, hp, y0, y1⟩ := hnz hzz.1 hzz.2
    rw [hp] at hval
    simp only [Except.ok.injEq, Option.some.injEq] at hval
    subst hval
    refine ⟨y0, y1, fun pH' pV' r1' r2' => ?_⟩
    rw [rateAt_unique hg.h hg.v r1' r1, rateAt_unique hg.v hg.h r2' r2]
    exact ⟨a, b, ha, hb, rfl⟩

/-- A group with a missing rate and a zero rate. -/
def comboDemo : LambdaGroup :=
  ⟨1 / 100, (HoneycombLayout.mk 4 6 36 "SD6" "H" (1 / 100)).asDecoderProblemDesc "internal",
    [(8, ⟨100, 99, 1⟩), (4, ⟨100, 90, 1⟩)], [(4, ⟨100, 80, 1⟩), (12, ⟨100, 100, 1⟩)]⟩

example : GoodTables comboDemo := ⟨by decide, by decide, by decide, by decide⟩
example : comboDemo.rep.rounds = 12 ∧ comboDemo.rep.code_distance = 4 := by
  constructor
  · show ⌈((36 : Int) : Rat) / 3⌉ = 12
    norm_num
  · decide
/-- Distances 4 and 8 are listed, 12 is not. -/
example : RateAt comboDemo.distance_error_pairs_v comboDemo.distance_error_pairs_h 8 (1 / 100) :=
  Or.inr ⟨by simp [comboDemo], ⟨100, 99, 1⟩, by simp [comboDemo], by norm_num [ShotData.logical_error_rate]⟩

end Honeycomb
