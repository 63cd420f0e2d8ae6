import Verif.Spec.Script
import Verif.Props.Collect
import Verif.Props.Csv
import Verif.Props.Projection

/-!
# The collection script (C79-C81)
-/

namespace Honeycomb

/-! ## Lemmas -/

theorem filter_flatten {R : DecodingProblem → List Row → Prop} {probs : List DecodingProblem} {bss : List (List Row)} (h : List.Forall₂ R probs bss)
    (hR : ∀ p bs, R p bs → ∀ b ∈ bs, b.1 = p.desc) (hn : (probs.map (·.desc)).Nodup) :
    (∀ p ∈ probs, R p (bss.flatten.filter fun r => decide (r.1 = p.desc))) ∧
    ∀ d, d ∉ probs.map (·.desc) → bss.flatten.filter (fun r => decide (r.1 = d)) = [] := by
  induction h with
  | nil => simp
  | @cons p bs probs bss h1 h2 ih =>
    rw [List.map_cons, List.nodup_cons] at hn
    obtain ⟨i1, i2⟩ := ih hn.2
    have hb := hR p bs h1
    refine ⟨fun q hq => ?_, fun d hd => ?_⟩
    · rw [List.flatten_cons, List.filter_append]
      rcases List.mem_cons.1 hq with rfl | hq
      · rw [i2 _ hn.1, List.append_nil, List.filter_eq_self.2 (fun r hr => by simpa using hb r hr)]
        exact h1
      · rw [List.filter_eq_nil_iff.2 (fun r hr => by
          rw [decide_eq_true_eq, hb r hr]
          intro e
          exact hn.1 (e ▸ List.mem_map_of_mem hq)), List.nil_append]
        exact i1 q hq
    · rw [List.map_cons, List.mem_cons, not_or] at hd
      rw [List.flatten_cons, List.filter_append, i2 d hd.2, List.append_nil, List.filter_eq_nil_iff]
      intro r hr
      rw [decide_eq_true_eq, hb r hr]
      exact Ne.symm hd.1

theorem start_batches (o p : Bool) (file : Option Text) : batches (startEffs o p file) = [] := by
  unfold startEffs batches
  split_ifs <;> rfl

theorem rows_of_problem {F : FloatText} {a : CollectArgs} {fuel : Nat} {probs : List DecodingProblem} {file : Option Text} {effs : List Eff}
    {err : Option PyErr} (h : collect F a fuel probs file = some (effs, err)) (hn : (probs.map (·.desc)).Nodup) :
    (∀ p ∈ probs, (∃ err', Loop a p 0 a.firstShots 0 0 (rowsOf p.desc effs) err' ∧ (err = none → err' = none)) ∨
      (rowsOf p.desc effs = [] ∧ err ≠ none)) ∧ ∀ d, d ∉ probs.map (·.desc) → rowsOf d effs = [] := by
  simp only [collect, Option.map_eq_some_iff, Prod.mk.injEq] at h
  obtain ⟨⟨effs', err'⟩, h1, rfl, rfl⟩ := h
  obtain ⟨bss, b1, rfl, b3, b4⟩ := collectProblems_loops h1
  simp only [rowsOf, batches_append, start_batches, List.nil_append, batches_flatMap]
  have hsub : ((probs.take bss.length).map (·.desc)).Sublist (probs.map (·.desc)) := (List.take_sublist _ _).map _
  obtain ⟨k1, k2⟩ := filter_flatten b4 (fun p bs ⟨_, hl, _⟩ b hb => by
    obtain ⟨k, hk, rfl⟩ := List.getElem_of_mem hb
    exact (hl.sampled k _ (List.getElem?_eq_getElem hk)).1) (hn.sublist hsub)
  refine ⟨fun p hp => ?_, fun d hd => k2 d fun h => hd (hsub.subset h)⟩
  by_cases hm : p ∈ probs.take bss.length
  · exact .inl (k1 p hm)
  · refine .inr ⟨k2 _ fun hd => ?_, fun he => hm ?_⟩
    · obtain ⟨q, hq, e⟩ := List.mem_map.1 hd
      exact hm (List.inj_on_of_nodup_map hn (List.mem_of_mem_take hq) hp e ▸ hq)
    · rw [b3 he, List.take_length]
      exact hp

theorem descs_of (sample : DecodingProblemDesc → Nat → Int → Except PyErr (Int × Rat)) (l : List DecodingProblemDesc) :
    (l.map fun d => (⟨d, sample d⟩ : DecodingProblem)).map (·.desc) = l := by
  rw [List.map_map]
  exact List.map_id _

theorem pyIndex_nat {α : Type} (l : List α) (i : Nat) (h : i < l.length) : pyIndex l i = .ok l[i] := by
  rw [pyIndex, if_neg (by omega), Int.toNat_natCast, List.getElem?_eq_getElem h]

theorem pyIndex_mod {α : Type} (l : List α) (i : Int) (h1 : -(l.length : Int) ≤ i) (h2 : i < l.length) :
    ∃ x, l[(i % l.length).toNat]? = some x ∧ pyIndex l i = .ok x := by
  by_cases hi : i < 0
  · have e : i % (l.length : Int) = i + l.length := by
      rw [← Int.add_emod_right, Int.emod_eq_of_lt (by omega) (by omega)]
    have hlt : (i + l.length).toNat < l.length := by omega
    refine ⟨l[(i + l.length).toNat], ?_, ?_⟩
    · rw [e, List.getElem?_eq_getElem hlt]
    · rw [pyIndex, if_pos hi, if_neg (by omega), List.getElem?_eq_getElem hlt]
  · have hlt : i.toNat < l.length := by omega
    refine ⟨l[i.toNat], ?_, ?_⟩
    · rw [Int.emod_eq_of_lt (by omega) h2, List.getElem?_eq_getElem hlt]
    · rw [pyIndex, if_neg hi, List.getElem?_eq_getElem hlt]

theorem pyIndex_out {α : Type} (l : List α) (i : Int) (h : i < -(l.length : Int) ∨ (l.length : Int) ≤ i) : pyIndex l i = .error .indexError := by
  rw [pyIndex]
  split_ifs with h1 h2
  · rfl
  · omega
  · rw [List.getElem?_eq_none (by omega)]

/-! ## C79: selecting problems -/

/-- The script has 1500 problems, and 900 if the surface code problems are switched off by `--surface_code_problems_directory -`. -/
theorem c79_counts (dir : Option String) : (scriptDescs dir).length = if dir = some "-" ∨ dir = some "" then 900 else 1500 := by
  have h1 : honeycombDescs.length = 900 := by decide +kernel
  have h2 : surfaceCodeDescs.length = 600 := by decide +kernel
  rw [scriptDescs, List.length_append, h1]
  split_ifs <;> simp [h2]

/-- Different problem ids select problems with different descriptions. -/
theorem c79_distinct (dir : Option String) : (scriptDescs dir).Nodup := by
  have h := c66_distinct
  rw [allDescs] at h
  rw [scriptDescs]
  split_ifs
  · rw [List.append_nil]
    exact h.of_append_left
  · exact h

/-- With a problem id from `-n` to `n - 1`, `n` the number of problems, the script collects data for one problem only: number `id mod n`
of the list. -/
theorem c79_selects (F : FloatText) (s : ScriptArgs) (sample : DecodingProblemDesc → Nat → Int → Except PyErr (Int × Rat)) (fuel : Nat)
    (file : Option Text) (effs : List Eff) (err : Option PyErr) (i : Int) (hi : s.problem_id = some i)
    (h1 : -((scriptDescs s.surface_dir).length : Int) ≤ i) (h2 : i < (scriptDescs s.surface_dir).length)
    (h : collectData F s sample fuel file = some (effs, err)) :
    ∃ d, (scriptDescs s.surface_dir)[(i % (scriptDescs s.surface_dir).length).toNat]? = some d ∧ (∀ b ∈ batches effs, b.1 = d) ∧
      (err = none → batches effs ≠ []) := by
  obtain ⟨p, e1, e2⟩ := pyIndex_mod ((scriptDescs s.surface_dir).map fun d => (⟨d, sample d⟩ : DecodingProblem)) i (by simpa using h1) (by simpa using h2)
  rw [List.length_map, List.getElem?_map, Option.map_eq_some_iff] at e1
  obtain ⟨d, hd, rfl⟩ := e1
  refine ⟨d, hd, ?_⟩
  rw [collectData, hi, selectProblems, e2, Except.map] at h
  cases ha : s.collectArgs with
  | error e =>
    rw [ha] at h
    cases h
    exact ⟨by simp [batches], by simp⟩
  | ok a =>
    rw [ha] at h
    obtain ⟨bss, l1, l2, l3, l4⟩ := c48_order F a fuel _ file effs err h
    have hall : ∀ b ∈ batches effs, b.1 = d := by
      intro b hb
      rw [l2] at hb
      obtain ⟨bs, hbs, hb⟩ := List.mem_flatten.1 hb
      obtain ⟨k, hk, rfl⟩ := List.getElem_of_mem hbs
      obtain ⟨j, hj, rfl⟩ := List.getElem_of_mem hb
      rw [List.length_singleton] at l1
      have := (List.forall₂_iff_get.mp l4).2 k (by rw [List.length_take, List.length_singleton]; omega) hk
      have := (this j _ (List.getElem?_eq_getElem hj)).1
      rw [this]
      simp
    refine ⟨hall, fun he => ?_⟩
    obtain ⟨m1, m2⟩ := l3 he
    rw [l2]
    intro e
    rcases bss with _ | ⟨bs, bss⟩
    · simp at m1
    · rw [List.flatten_cons, List.append_eq_nil_iff] at e
      exact m2 bs (by simp) e.1

/-- Any other problem id raises an IndexError before anything is sampled, printed or written. -/
theorem c79_out_of_range (F : FloatText) (s : ScriptArgs) (sample : DecodingProblemDesc → Nat → Int → Except PyErr (Int × Rat)) (fuel : Nat)
    (file : Option Text) (i : Int) (hi : s.problem_id = some i)
    (h : i < -((scriptDescs s.surface_dir).length : Int) ∨ (scriptDescs s.surface_dir).length ≤ i) :
    collectData F s sample fuel file = some ([], some .indexError) := by
  rw [collectData, hi, selectProblems, pyIndex_out _ _ (by simpa using h)]
  rfl

/-- Without a problem id a run without exceptions collects data for every problem of the list, and for nothing else. -/
theorem c79_all (F : FloatText) (s : ScriptArgs) (sample : DecodingProblemDesc → Nat → Int → Except PyErr (Int × Rat)) (fuel : Nat)
    (file : Option Text) (effs : List Eff) (hi : s.problem_id = none) (h : collectData F s sample fuel file = some (effs, none)) (d : DecodingProblemDesc) :
    rowsOf d effs ≠ [] ↔ d ∈ scriptDescs s.surface_dir := by
  have e := descs_of sample (scriptDescs s.surface_dir)
  rw [collectData, hi, selectProblems] at h
  cases ha : s.collectArgs with
  | error e => rw [ha] at h; cases h
  | ok a =>
    rw [ha] at h
    obtain ⟨k1, k2⟩ := rows_of_problem h (by rw [e]; exact c79_distinct _)
    rw [e] at k2
    refine ⟨fun hr => by_contra fun hd => hr (k2 d hd), fun hd => ?_⟩
    rcases k1 ⟨d, sample d⟩ (List.mem_map_of_mem hd) with ⟨err', hl, he⟩ | ⟨-, hne⟩
    · cases he rfl
      exact hl.nonempty
    · exact absurd rfl hne

/-! ## C80: one problem at a time -/

/-- The batches of problem number `i` in a run. -/
private def shardRows (F : FloatText) (a : CollectArgs) (fuel : Nat) (probs : List DecodingProblem) (i : Nat) : List Row :=
  match probs[i]? with
  | none => []
  | some p => match collectOne F a p fuel with
    | none => []
    | some r => batches r.1

theorem shard_run {F : FloatText} {s : ScriptArgs} {sample : DecodingProblemDesc → Nat → Int → Except PyErr (Int × Rat)} {fuel : Nat} {a : CollectArgs}
    (ha : s.collectArgs = .ok a) {i : Nat} (hi : i < (scriptDescs s.surface_dir).length) {file : Option Text} {effs : List Eff} :
    collectData F { s with problem_id := some (i : Int) } sample fuel file = some (effs, none) ↔
      ∃ part, collectOne F a (((scriptDescs s.surface_dir).map fun d => (⟨d, sample d⟩ : DecodingProblem))[i]'(by simpa using hi)) fuel = some (part, none) ∧
        effs = startEffs a.has_out a.discard_previous_data file ++ part := by
  rw [collectData]
  simp only [selectProblems]
  rw [pyIndex_nat _ i (by simpa using hi), Except.map]
  have ha' : ({ s with problem_id := some (i : Int) } : ScriptArgs).collectArgs = .ok a := ha
  simp only [ha']
  rw [c48_composes]
  constructor
  · rintro ⟨parts, hp, rfl⟩
    cases hp with
    | cons h1 h2 =>
      cases h2
      exact ⟨_, h1, by simp⟩
  · rintro ⟨part, hp, rfl⟩
    exact ⟨[part], .cons hp .nil, by simp⟩

/-- The limit given, or the default divided by `case_reduction`. -/
def limit (given : Option Int) (default reduction : Int) : Except PyErr Int :=
  match given with
  | some m => .ok m
  | none => pyFloorDiv default reduction

/-- The arguments with the limits `m` and `e`. -/
def collectArgsOf (s : ScriptArgs) (m e : Int) : CollectArgs :=
  ⟨25, m, some (s.max_batch_size.getD (2 ^ 15)), 1, e, s.has_out, false⟩

theorem collectArgs_ok (s : ScriptArgs) {m e : Int} (hm : limit s.max_shots (10 ^ 8) s.case_reduction = .ok m)
    (he : limit s.max_errors (10 ^ 3) s.case_reduction = .ok e) :
    s.collectArgs = .ok (collectArgsOf s m e) := by
  rw [ScriptArgs.collectArgs]
  unfold limit at hm he
  cases h1 : s.max_shots <;> rw [h1] at hm <;> cases h2 : s.max_errors <;> rw [h2] at he <;> simp only at hm he <;>
    simp only [hm, he, bind, Except.bind, pure, Except.pure] <;> simp_all [collectArgsOf]

theorem collectArgs_error (s : ScriptArgs) {x : PyErr} (h : limit s.max_shots (10 ^ 8) s.case_reduction = .error x ∨
    (∃ m, limit s.max_shots (10 ^ 8) s.case_reduction = .ok m) ∧ limit s.max_errors (10 ^ 3) s.case_reduction = .error x) : s.collectArgs = .error x := by
  rw [ScriptArgs.collectArgs]
  unfold limit at h
  cases h1 : s.max_shots <;> rw [h1] at h <;> cases h2 : s.max_errors <;> rw [h2] at h <;> simp only at h
  · rcases h with h | ⟨⟨m, hm⟩, h⟩
    · simp only [h, bind, Except.bind]
    · simp only [hm, h, bind, Except.bind]
  · rcases h with h | ⟨⟨m, hm⟩, h⟩
    · simp only [h, bind, Except.bind]
    · cases h
  · rcases h with h | ⟨⟨m, hm⟩, h⟩
    · cases h
    · simp only [h, bind, Except.bind, pure, Except.pure]
  · rcases h with h | ⟨⟨m, hm⟩, h⟩ <;> cases h

theorem collectArgs_cases {s : ScriptArgs} {a : CollectArgs} (h : s.collectArgs = .ok a) :
    ∃ m e, limit s.max_shots (10 ^ 8) s.case_reduction = .ok m ∧ limit s.max_errors (10 ^ 3) s.case_reduction = .ok e ∧
      a = collectArgsOf s m e := by
  cases hm : limit s.max_shots (10 ^ 8) s.case_reduction with
  | error x => rw [collectArgs_error s (.inl hm)] at h; cases h
  | ok m =>
    cases he : limit s.max_errors (10 ^ 3) s.case_reduction with
    | error x => rw [collectArgs_error s (.inr ⟨⟨m, hm⟩, he⟩)] at h; cases h
    | ok e =>
      rw [collectArgs_ok s hm he] at h
      exact ⟨m, e, rfl, rfl, (Except.ok.inj h).symm⟩

theorem collectArgs_out {s : ScriptArgs} {a : CollectArgs} (h : s.collectArgs = .ok a) : a.has_out = s.has_out ∧ a.discard_previous_data = false := by
  obtain ⟨m, e, -, -, rfl⟩ := collectArgs_cases h
  exact ⟨rfl, rfl⟩

theorem collectData_none {F : FloatText} {s : ScriptArgs} {sample : DecodingProblemDesc → Nat → Int → Except PyErr (Int × Rat)} {fuel : Nat}
    {file : Option Text} {effs : List Eff} (h : collectData F { s with problem_id := none } sample fuel file = some (effs, none)) :
    ∃ a, s.collectArgs = .ok a ∧ collect F a fuel ((scriptDescs s.surface_dir).map fun d => (⟨d, sample d⟩ : DecodingProblem)) file = some (effs, none) := by
  rw [collectData, selectProblems] at h
  cases ha : s.collectArgs with
  | error e =>
    have ha' : ({ s with problem_id := none } : ScriptArgs).collectArgs = .error e := ha
    rw [ha'] at h
    cases h
  | ok a =>
    have ha' : ({ s with problem_id := none } : ScriptArgs).collectArgs = .ok a := ha
    rw [ha'] at h
    exact ⟨a, rfl, h⟩

theorem parts_rows {F : FloatText} {a : CollectArgs} {fuel : Nat} {probs : List DecodingProblem} {parts : List (List Eff)}
    (h : List.Forall₂ (fun prob part => collectOne F a prob fuel = some (part, none)) probs parts) :
    batches parts.flatten = (List.range probs.length).flatMap (shardRows F a fuel probs) := by
  have key : ∀ l : List (List Eff), batches l.flatten = l.flatMap batches := by
    intro l
    induction l with
    | nil => rfl
    | cons x l ih => rw [List.flatten_cons, batches_append, ih, List.flatMap_cons]
  rw [key]
  have e : parts.map batches = (List.range probs.length).map (shardRows F a fuel probs) := by
    refine List.ext_getElem (by simp [h.length_eq]) fun i h1 h2 => ?_
    rw [List.length_map] at h1
    have hp : i < probs.length := by rw [h.length_eq]; exact h1
    have := (List.forall₂_iff_get.mp h).2 i hp h1
    simp only [List.get_eq_getElem] at this
    rw [List.getElem_map, List.getElem_map, List.getElem_range, shardRows, List.getElem?_eq_getElem hp]
    simp only [this]
  rw [List.flatMap_def, e, ← List.flatMap_def]

/-- Running the script once for each problem id, in order and with the same output file, leaves exactly the same file as one run for all
problems. -/
theorem c80_sequence (F : FloatText) (s : ScriptArgs) (sample : DecodingProblemDesc → Nat → Int → Except PyErr (Int × Rat)) (fuel : Nat)
    (file file' : Option Text) (effs : List Eff) (ho : s.has_out = true)
    (h : collectData F { s with problem_id := none } sample fuel file = some (effs, none)) :
    ShardRuns F s sample fuel (List.range (scriptDescs s.surface_dir).length) file file' ↔ file' = fileAfter file effs := by
  obtain ⟨a, ha, hc⟩ := collectData_none h
  obtain ⟨o1, o2⟩ := collectArgs_out ha
  rw [ho] at o1
  have hfull := c48_file F a fuel _ file effs none o1 hc
  obtain ⟨parts, hp, rfl⟩ := (c48_composes F a fuel _ file effs).1 hc
  obtain ⟨probs, hprobs⟩ : ∃ probs, ((scriptDescs s.surface_dir).map fun d => (⟨d, sample d⟩ : DecodingProblem)) = probs := ⟨_, rfl⟩
  have hlen : (scriptDescs s.surface_dir).length = probs.length := by rw [← hprobs, List.length_map]
  rw [hprobs] at hp
  rw [batches_append, start_batches, List.nil_append, parts_rows hp] at hfull
  rw [if_neg (by rw [o2]; decide)] at hfull
  have key : ∀ (ids : List Nat) (i : Nat) (file file' : Option Text), (∀ j ∈ i :: ids, j < probs.length) →
      (ShardRuns F s sample fuel (i :: ids) file file' ↔
        file' = some (file.getD (line csvHeader) ++ rowsText F ((i :: ids).flatMap (shardRows F a fuel probs)))) := by
    intro ids
    have one : ∀ (i : Nat) (file : Option Text), i < probs.length → ∃ effs, collectData F { s with problem_id := some (i : Int) } sample fuel file = some (effs, none) ∧
        (∀ effs', collectData F { s with problem_id := some (i : Int) } sample fuel file = some (effs', none) → effs' = effs) ∧
        fileAfter file effs = some (file.getD (line csvHeader) ++ rowsText F (shardRows F a fuel probs i)) := by
      intro i file hi
      have hi' : i < parts.length := by rw [← hp.length_eq]; exact hi
      have hone := (List.forall₂_iff_get.mp hp).2 i hi hi'
      simp only [List.get_eq_getElem] at hone
      have hrun := (shard_run (F := F) (sample := sample) (fuel := fuel) (file := file) ha (i := i) (by omega)
        (effs := startEffs a.has_out a.discard_previous_data file ++ parts[i])).2 ⟨parts[i], by simp only [hprobs]; exact hone, rfl⟩
      refine ⟨_, hrun, fun effs' h' => by rw [hrun] at h'; cases h'; rfl, ?_⟩
      have hc1 : collect F a fuel [probs[i]] file = some (startEffs a.has_out a.discard_previous_data file ++ parts[i], none) :=
        (c48_composes F a fuel _ file _).2 ⟨[parts[i]], .cons hone .nil, by simp⟩
      rw [c48_file F a fuel _ file _ none o1 hc1, batches_append, start_batches, List.nil_append, shardRows, List.getElem?_eq_getElem hi]
      simp only [hone, o2, Bool.false_eq_true, if_false]
    induction ids with
    | nil =>
      intro i file file' hi
      obtain ⟨e, e1, e2, e3⟩ := one i file (hi i (by simp))
      rw [List.flatMap_cons, List.flatMap_nil, List.append_nil, ← e3]
      constructor
      · intro hr
        cases hr with
        | run r1 r2 =>
          cases r2
          rw [e2 _ r1]
      · rintro rfl
        exact .run e1 (.nil _)
    | cons j ids ih =>
      intro i file file' hi
      obtain ⟨e, e1, e2, e3⟩ := one i file (hi i (by simp))
      have hj := ih j (fileAfter file e) file' (fun k hk => hi k (by simp at hk ⊢; tauto))
      rw [e3, Option.getD_some, List.append_assoc, ← rowsText_append, ← List.flatMap_cons] at hj
      rw [← hj]
      constructor
      · intro hr
        cases hr with
        | run r1 r2 => rw [e2 _ r1, e3] at r2; exact r2
      · intro hr
        exact .run e1 (by rw [e3]; exact hr)
  have hpos : 0 < probs.length := by
    rw [← hlen, c79_counts]
    split_ifs <;> omega
  rw [hfull, hlen]
  obtain ⟨n, hn⟩ : ∃ n, probs.length = n + 1 := ⟨probs.length - 1, by omega⟩
  have hr : List.range probs.length = 0 :: (List.range n).map Nat.succ := by rw [hn, List.range_succ_eq_map]
  rw [hr]
  exact key _ 0 file file' (fun j hj => by rw [← hr] at hj; exact List.mem_range.1 hj)

/-- The texts of the script's descriptions need no quoting. -/
theorem script_clean {F : FloatText} (hF : ∀ x, F.Faithful x) {dir : Option String} {r : Row} (h : r.1 ∈ scriptDescs dir) : CleanRow F r := by
  have hm : r.1 ∈ allDescs := by
    rw [scriptDescs] at h
    rw [allDescs]
    split_ifs at h
    · exact List.mem_append_left _ (by simpa using h)
    · exact h
  have hc : CleanText r.1.circuit_style.toList ∧ CleanText r.1.preserved_observable.toList ∧ CleanText r.1.decoder.toList := by
    have key : ∀ t ∈ ["honeycomb_SI1000", "honeycomb_SD6", "honeycomb_EM3_v2", "surface_SD6", "surface_SI1000", "V", "H", "X", "Z", "internal",
        "internal_correlated"], CleanText t.toList := by
      unfold CleanText
      decide +kernel
    obtain ⟨d, hd⟩ : ∃ d, r.1 = d := ⟨_, rfl⟩
    rw [hd] at hm ⊢
    rw [mem_allDescs] at hm
    cases hm with
    | honeycomb p u style obs decoder hp hu hst ho hdec =>
      simp only [DECODERS, List.mem_cons, List.not_mem_nil, or_false] at hdec
      refine ⟨key ("honeycomb_" ++ style) ?_, key obs ?_, key decoder ?_⟩
      · rcases hst with rfl | rfl | rfl <;> decide
      · rcases ho with rfl | rfl <;> decide
      · rcases hdec with rfl | rfl <;> decide
    | surface p d noise_name obs decoder hp hd hst ho hdec =>
      simp only [DECODERS, List.mem_cons, List.not_mem_nil, or_false] at hdec
      refine ⟨key ("surface_" ++ noise_name) ?_, key obs ?_, key decoder ?_⟩
      · rcases hst with rfl | rfl <;> decide
      · rcases ho with rfl | rfl <;> decide
      · rcases hdec with rfl | rfl <;> decide
  exact ⟨hF _, hF _, hc.1, hc.2.1, hc.2.2⟩

/-- The rows of a run of the script carry descriptions of the script. -/
theorem script_rows {F : FloatText} {s : ScriptArgs} {sample : DecodingProblemDesc → Nat → Int → Except PyErr (Int × Rat)} {fuel : Nat}
    {a : CollectArgs} {parts : List (List Eff)}
    (h : List.Forall₂ (fun prob part => collectOne F a prob fuel = some (part, none))
      ((scriptDescs s.surface_dir).map fun d => (⟨d, sample d⟩ : DecodingProblem)) parts) :
    ∀ b ∈ batches parts.flatten, b.1 ∈ scriptDescs s.surface_dir := by
  have hc := (c48_composes F a fuel _ none _).2 ⟨parts, h, rfl⟩
  intro b hb
  obtain ⟨-, k2⟩ := rows_of_problem hc (by rw [descs_of]; exact c79_distinct _)
  by_contra hn
  have := k2 b.1 (by rw [descs_of]; exact hn)
  rw [rowsOf, batches_append, start_batches, List.nil_append, List.filter_eq_nil_iff] at this
  exact this b hb (by simp)

/-- Running the script once for each problem id, in any order and each time with a new output file, and reading all the files gives the same
totals as reading the file of one run for all problems; floats are assumed to be written so that they read back (as Python's are). -/
theorem c80_files (F : FloatText) (hF : ∀ x, F.Faithful x) (s : ScriptArgs) (sample : DecodingProblemDesc → Nat → Int → Except PyErr (Int × Rat))
    (fuel : Nat) (effs : List Eff) (ho : s.has_out = true) (h : collectData F { s with problem_id := none } sample fuel none = some (effs, none))
    (ids : List Nat) (hids : ids.Perm (List.range (scriptDescs s.surface_dir).length)) (texts : List Text)
    (ht : List.Forall₂ (fun i text => ∃ e, collectData F { s with problem_id := some ((i : Nat) : Int) } sample fuel none = some (e, none) ∧
      fileAfter none e = some text) ids texts) :
    ∃ text data data', fileAfter none effs = some text ∧ readRecordedData F [text] = .ok data ∧ readRecordedData F texts = .ok data' ∧
      (∀ d, data'.get? d = data.get? d) ∧ ∀ d, data.get? d = totalFor (batches effs) d := by
  obtain ⟨a, ha, hc⟩ := collectData_none h
  obtain ⟨o1, o2⟩ := collectArgs_out ha
  rw [ho] at o1
  have hfull := c48_file F a fuel _ none effs none o1 hc
  obtain ⟨parts, hp, rfl⟩ := (c48_composes F a fuel _ none effs).1 hc
  have hrows := script_rows hp
  have hbat : batches (startEffs a.has_out a.discard_previous_data none ++ parts.flatten) = batches parts.flatten := by
    rw [batches_append, start_batches, List.nil_append]
  rw [hbat] at hfull ⊢
  rw [if_neg (by rw [o2]; decide), Option.getD_none] at hfull
  obtain ⟨probs, hprobs⟩ : ∃ probs, ((scriptDescs s.surface_dir).map fun d => (⟨d, sample d⟩ : DecodingProblem)) = probs := ⟨_, rfl⟩
  have hlen : (scriptDescs s.surface_dir).length = probs.length := by rw [← hprobs, List.length_map]
  rw [hprobs] at hp
  have hall := parts_rows hp
  have hclean : ∀ i < probs.length, ∀ r ∈ shardRows F a fuel probs i, CleanRow F r := by
    intro i hi r hr
    exact script_clean hF (hrows r (by rw [hall]; exact List.mem_flatMap.2 ⟨i, List.mem_range.2 hi, hr⟩))
  have htexts : List.Forall₂ (fun t rows => (dictReader t).mapM (parseRow F) = .ok rows) texts (ids.map (shardRows F a fuel probs)) := by
    have hlt : ∀ i ∈ ids, i < probs.length := fun i hi => by
      have := hids.mem_iff.1 hi
      rw [hlen] at this
      exact List.mem_range.1 this
    clear hids
    induction ht with
    | nil => exact .nil
    | @cons i text ids texts h1 _ ih =>
      refine .cons ?_ (ih fun i hi => hlt i (by simp [hi]))
      have hi := hlt i (by simp)
      obtain ⟨e, h1, h2⟩ := h1
      obtain ⟨part, h3, rfl⟩ := (shard_run ha (by omega)).1 h1
      simp only [hprobs] at h3
      have hc1 : collect F a fuel [probs[i]] none = some (startEffs a.has_out a.discard_previous_data none ++ part, none) :=
        (c48_composes F a fuel _ none _).2 ⟨[part], .cons h3 .nil, by simp⟩
      have h4 := c48_file F a fuel _ none _ none o1 hc1
      rw [h2, batches_append, start_batches, List.nil_append, if_neg (by rw [o2]; decide), Option.getD_none] at h4
      have h5 : shardRows F a fuel probs i = batches part := by
        rw [shardRows, List.getElem?_eq_getElem hi]
        simp only [h3]
      rw [Option.some.inj h4, h5]
      exact c52_rows F _ (by rw [← h5]; exact hclean i hi)
  have hone : List.Forall₂ (fun t rows => (dictReader t).mapM (parseRow F) = .ok rows) [dataFile F (batches parts.flatten)] [batches parts.flatten] :=
    .cons (c52_rows F _ fun r hr => script_clean hF (hrows r hr)) .nil
  obtain ⟨data', data, r1, r2, r3⟩ := c50_order F _ _ _ _ htexts hone (by
    rw [List.flatten_cons, List.flatten_nil, List.append_nil, hall, ← List.flatMap_def, ← hlen]
    exact hids.flatMap_right _)
  obtain ⟨data2, q1, q2⟩ := c50_succeeds F _ _ hone
  rw [r2] at q1
  cases q1
  refine ⟨_, data, data', hfull, r2, r1, r3, fun d => ?_⟩
  rw [q2.2 d, List.flatten_cons, List.flatten_nil, List.append_nil]

/-! ## C81: the limits of the script -/

/-- From the command line no division by zero can happen: `--case_reduction 0` counts as 1. -/
theorem c81_main (dir : Option String) (id cr : Option Int) (o : Bool) (ms me mb : Option Int) : ∃ a, (mainArgs dir id cr o ms me mb).collectArgs = .ok a := by
  have h0 : (mainArgs dir id cr o ms me mb).case_reduction ≠ 0 := by
    unfold mainArgs
    simp only
    cases cr with
    | none => simp
    | some c => simp only; split_ifs <;> simp_all
  have hl : ∀ g d, ∃ m, limit g d (mainArgs dir id cr o ms me mb).case_reduction = .ok m := by
    intro g d
    cases g with
    | none => exact ⟨_, by rw [limit, pyFloorDiv, if_neg h0]⟩
    | some m => exact ⟨m, rfl⟩
  obtain ⟨m, hm⟩ := hl (mainArgs dir id cr o ms me mb).max_shots (10 ^ 8)
  obtain ⟨e, he⟩ := hl (mainArgs dir id cr o ms me mb).max_errors (10 ^ 3)
  exact ⟨_, collectArgs_ok _ hm he⟩

/-- `collect_data(case_reduction=0)` raises a ZeroDivisionError, before anything is sampled or written, unless both limits are given. -/
theorem c81_zero (F : FloatText) (s : ScriptArgs) (sample : DecodingProblemDesc → Nat → Int → Except PyErr (Int × Rat)) (fuel : Nat) (file : Option Text)
    (hi : s.problem_id = none) (h0 : s.case_reduction = 0) (h : s.max_shots = none ∨ s.max_errors = none) :
    collectData F s sample fuel file = some ([], some .zeroDivision) := by
  have ha : s.collectArgs = .error .zeroDivision := by
    apply collectArgs_error
    cases h1 : s.max_shots with
    | none => left; rw [limit, pyFloorDiv, if_pos h0]
    | some m =>
      right
      rw [h1] at h
      refine ⟨⟨m, rfl⟩, ?_⟩
      rw [h.resolve_left (by simp), limit, pyFloorDiv, if_pos h0]
  rw [collectData, hi, selectProblems, ha]

/-- What a run of the script did for one problem. -/
theorem script_loop {F : FloatText} {s : ScriptArgs} {sample : DecodingProblemDesc → Nat → Int → Except PyErr (Int × Rat)} {fuel : Nat}
    {file : Option Text} {effs : List Eff} {err : Option PyErr} (h : collectData F s sample fuel file = some (effs, err)) (d : DecodingProblemDesc)
    (hd : rowsOf d effs ≠ []) : ∃ m e err', limit s.max_shots (10 ^ 8) s.case_reduction = .ok m ∧ limit s.max_errors (10 ^ 3) s.case_reduction = .ok e ∧
      Loop (collectArgsOf s m e) ⟨d, sample d⟩ 0 (collectArgsOf s m e).firstShots 0 0 (rowsOf d effs) err' ∧ (err = none → err' = none) := by
  rw [collectData] at h
  cases hp : selectProblems ((scriptDescs s.surface_dir).map fun d => (⟨d, sample d⟩ : DecodingProblem)) s.problem_id with
  | error e => rw [hp] at h; cases h; exact absurd rfl hd
  | ok probs =>
    rw [hp] at h
    cases ha : s.collectArgs with
    | error e => rw [ha] at h; cases h; exact absurd rfl hd
    | ok a =>
      rw [ha] at h
      obtain ⟨m, e, hm, he, rfl⟩ := collectArgs_cases ha
      have hsub : (probs.map (·.desc)).Nodup ∧ ∀ p ∈ probs, p = ⟨p.desc, sample p.desc⟩ := by
        cases hid : s.problem_id with
        | none =>
          rw [hid, selectProblems] at hp
          cases hp
          refine ⟨by rw [descs_of]; exact c79_distinct _, fun p hp => ?_⟩
          obtain ⟨d, _, rfl⟩ := List.mem_map.1 hp
          rfl
        | some i =>
          rw [hid, selectProblems] at hp
          cases hx : pyIndex ((scriptDescs s.surface_dir).map fun d => (⟨d, sample d⟩ : DecodingProblem)) i with
          | error e => rw [hx] at hp; cases hp
          | ok p =>
            rw [hx] at hp
            cases hp
            refine ⟨by simp, fun q hq => ?_⟩
            rw [List.mem_singleton] at hq
            subst hq
            have : q ∈ (scriptDescs s.surface_dir).map fun d => (⟨d, sample d⟩ : DecodingProblem) := by
              rw [pyIndex] at hx
              split at hx
              · rename_i x hx'
                cases hx
                split_ifs at hx'
                · exact List.mem_of_getElem? hx'
                · exact List.mem_of_getElem? hx'
              · cases hx
            obtain ⟨d, _, rfl⟩ := List.mem_map.1 this
            rfl
      obtain ⟨k1, k2⟩ := rows_of_problem h hsub.1
      have hmem : d ∈ probs.map (·.desc) := by
        by_contra hn
        exact hd (k2 d hn)
      obtain ⟨p, hp1, rfl⟩ := List.mem_map.1 hmem
      rcases k1 p hp1 with ⟨err', hl, hn⟩ | ⟨hn, -⟩
      · rw [← hsub.2 p hp1]
        exact ⟨m, e, err', hm, he, hl, hn⟩
      · exact absurd hn hd

/-- The default limits for a positive `case_reduction`. -/
theorem limit_default {d c m : Int} (hc : 1 ≤ c) (h : limit none d c = .ok m) : m = d / c := by
  rw [limit, pyFloorDiv, if_neg (by omega)] at h
  rw [← Except.ok.inj h, Int.fdiv_eq_ediv_of_nonneg _ (by omega)]

/-- With the default limits and a `case_reduction` from 1 to 4 million the script never takes more than `10^8 / case_reduction` shots of a
problem, and never more than 32768 at once; this holds at any time of the run. -/
theorem c81_budget (F : FloatText) (s : ScriptArgs) (sample : DecodingProblemDesc → Nat → Int → Except PyErr (Int × Rat)) (fuel : Nat)
    (file : Option Text) (effs : List Eff) (err : Option PyErr) (h : collectData F s sample fuel file = some (effs, err)) (d : DecodingProblemDesc)
    (hs : s.max_shots = none) (hb : s.max_batch_size = none) (h1 : 1 ≤ s.case_reduction) (h2 : s.case_reduction ≤ 4000000) :
    totalShots (rowsOf d effs) ≤ 10 ^ 8 / s.case_reduction ∧ ∀ b ∈ rowsOf d effs, b.2.num_shots ≤ 32768 := by
  have h25 : 25 ≤ 100000000 / s.case_reduction := (Int.le_ediv_iff_mul_le (by omega)).2 (by omega)
  norm_num
  by_cases hd : rowsOf d effs = []
  · rw [hd]
    simp only [totalShots, List.map_nil, List.sum_nil, List.not_mem_nil, false_imp_iff, implies_true, and_true]
    omega
  obtain ⟨m, e, err', hm, -, hl, -⟩ := script_loop h d hd
  rw [hs] at hm
  have hm' := limit_default h1 hm
  norm_num at hm'
  have hf : (collectArgsOf s m e).firstShots = 25 := by
    simp [CollectArgs.firstShots, CollectArgs.batch, collectArgsOf, hb]
  have hbatch : (collectArgsOf s m e).batch = 32768 := by
    simp [CollectArgs.batch, collectArgsOf, hb]
  refine ⟨?_, ?_⟩
  · have := hl.budget (by rw [hf, zero_add]; show 25 ≤ m; omega) _ (List.prefix_refl _) hd
    rw [zero_add] at this
    exact this.trans (by show m ≤ _; omega)
  · have := hl.batch_le (by rw [hf, hbatch]; omega)
    rw [hbatch] at this
    simpa using this

/-- The stop rule of the loop for any limits `m` and `e`. -/
theorem loop_stops {s : ScriptArgs} {p : DecodingProblem} {m e : Int} {rows : List Row}
    (hl : Loop (collectArgsOf s m e) p 0 (collectArgsOf s m e).firstShots 0 0 rows none) (hb : 1 ≤ s.max_batch_size.getD (2 ^ 15))
    (done : List Row) (hdone : done <+: rows) (h0 : done ≠ []) :
    (m ≤ totalShots done ∨ e ≤ totalErrors done ∨ (48 * totalShots done ≤ 100 * totalErrors done ∧ 10 ≤ totalErrors done)) ↔ done = rows := by
  have hbatch : (collectArgsOf s m e).batch = s.max_batch_size.getD (2 ^ 15) := by simp [CollectArgs.batch, collectArgsOf]
  have hpos := hl.shots_pos (by rw [hbatch]; exact hb) (by
    unfold CollectArgs.firstShots
    split_ifs
    · rw [hbatch]; exact hb
    · show (1 : Int) ≤ 25; norm_num)
  have hn1 : 1 ≤ totalShots done := by
    rcases done with _ | ⟨b, done⟩
    · exact absurd rfl h0
    · have hb1 := hpos b (hdone.subset (by simp))
      have hrest : 0 ≤ (done.map fun b => b.2.num_shots).sum := List.sum_nonneg fun x hx => by
        obtain ⟨c, hc, rfl⟩ := List.mem_map.1 hx
        have := hpos c (hdone.subset (by simp [hc]))
        omega
      rw [totalShots, List.map_cons, List.sum_cons]
      omega
  have key := hl.stopped done hdone h0
  rw [zero_add, zero_add] at key
  have hreason : StopReason (collectArgsOf s m e) (totalShots done) (totalErrors done) ↔
      (m ≤ totalShots done ∨ e ≤ totalErrors done ∨
        (48 * totalShots done ≤ 100 * totalErrors done ∧ 10 ≤ totalErrors done)) := by
    rw [StopReason]
    refine or_congr Iff.rfl (or_congr ?_ (and_congr ?_ Iff.rfl))
    · refine and_iff_left ?_
      have hN : (1 : ℝ) ≤ (totalShots done : ℝ) := by exact_mod_cast hn1
      show _ ≤ ((1 : Rat) : ℝ)
      rw [Rat.cast_one, Real.sqrt_le_iff, one_pow, div_le_one (by linarith)]
      refine ⟨zero_le_one, ?_⟩
      nlinarith [sq_nonneg ((totalErrors done : ℝ) / (totalShots done : ℝ) - 1 / 2)]
    · constructor
      · intro h
        have : (48 : ℝ) * (totalShots done : ℝ) ≤ 100 * (totalErrors done : ℝ) := by linarith
        exact_mod_cast this
      · intro h
        have : (48 : ℝ) * (totalShots done : ℝ) ≤ 100 * (totalErrors done : ℝ) := by exact_mod_cast h
        linarith
  rw [← hreason]
  refine ⟨fun hr => ?_, fun he => key.2 he rfl⟩
  by_contra hne
  exact key.1 hne hr

/-- When the script stops sampling a problem, with default limits: at the first batch after which there are `10^8 / case_reduction` shots, or
`10^3 / case_reduction` errors, or (at least ten errors) nearly half of the shots are errors. The limit of 1 for the standard
deviation that the script gives never matters. -/
theorem c81_stops (F : FloatText) (s : ScriptArgs) (sample : DecodingProblemDesc → Nat → Int → Except PyErr (Int × Rat)) (fuel : Nat)
    (file : Option Text) (effs : List Eff) (h : collectData F s sample fuel file = some (effs, none)) (d : DecodingProblemDesc)
    (hs : s.max_shots = none) (he : s.max_errors = none) (hb : s.max_batch_size = none) (h1 : 1 ≤ s.case_reduction) :
    ∀ done, done <+: rowsOf d effs → done ≠ [] →
      ((10 ^ 8 / s.case_reduction ≤ totalShots done ∨ 10 ^ 3 / s.case_reduction ≤ totalErrors done ∨
        (48 * totalShots done ≤ 100 * totalErrors done ∧ 10 ≤ totalErrors done)) ↔ done = rowsOf d effs) := by
  intro done hdone h0
  have hd : rowsOf d effs ≠ [] := fun e => h0 (List.prefix_nil.1 (e ▸ hdone))
  obtain ⟨m, e, err', hm, hme, hl, hn⟩ := script_loop h d hd
  rw [hs] at hm
  rw [he] at hme
  obtain rfl := limit_default h1 hm
  obtain rfl := limit_default h1 hme
  cases hn rfl
  exact loop_stops hl (by rw [hb]; norm_num) done hdone h0

/-- The limits given on the command line are the ones that are used: `--max_shots` for the shots, `--max_errors` for the errors and
`--max_batch_size` for the size of a batch. Without them the limits are `10^8` and `10^3`, divided by `--case_reduction`, and 32768. -/
theorem c81_options (dir : Option String) (id : Option Int) (o : Bool) (ms me mb : Option Int) (c : Int) (hc : 1 ≤ c) :
    ∃ a, (mainArgs dir id (some c) o ms me mb).collectArgs = .ok a ∧ a.min_shots = 25 ∧ a.has_out = o ∧ a.discard_previous_data = false ∧
      (∀ m, ms = some m → a.max_shots = m) ∧ (ms = none → a.max_shots = 10 ^ 8 / c) ∧
      (∀ e, me = some e → a.min_seen_logical_errors = e) ∧ (me = none → a.min_seen_logical_errors = 10 ^ 3 / c) ∧
      (∀ b, mb = some b → a.max_batch = some b) ∧ (mb = none → a.max_batch = some 32768) := by
  obtain ⟨a, ha⟩ := c81_main dir id (some c) o ms me mb
  obtain ⟨m, e, hm, he, rfl⟩ := collectArgs_cases ha
  have hcr : (mainArgs dir id (some c) o ms me mb).case_reduction = c := by
    show (if c = 0 then 1 else c) = c
    rw [if_neg (by omega)]
  rw [hcr] at hm he
  refine ⟨_, ha, rfl, rfl, rfl, ?_, ?_, ?_, ?_, ?_, ?_⟩
  · rintro x rfl; exact (Except.ok.inj hm).symm
  · rintro rfl; exact limit_default hc hm
  · rintro x rfl; exact (Except.ok.inj he).symm
  · rintro rfl; exact limit_default hc he
  · rintro x rfl; rfl
  · rintro rfl; rfl

/-- What these options do: with `--max_shots m --max_errors e` (and a positive batch size) the sampling of a problem stops at the first
batch after which there are `m` shots, or `e` errors, or (at least ten errors) nearly half of the shots are errors. No batch is larger
than `--max_batch_size`, and there are never more than `m` shots if `m` is at least 25. -/
theorem c81_given (F : FloatText) (dir : Option String) (id cr : Option Int) (o : Bool) (m e b : Int) (hb : 1 ≤ b)
    (sample : DecodingProblemDesc → Nat → Int → Except PyErr (Int × Rat)) (fuel : Nat)
    (file : Option Text) (effs : List Eff) (h : collectData F (mainArgs dir id cr o (some m) (some e) (some b)) sample fuel file = some (effs, none))
    (d : DecodingProblemDesc) :
    (∀ done, done <+: rowsOf d effs → done ≠ [] →
      ((m ≤ totalShots done ∨ e ≤ totalErrors done ∨ (48 * totalShots done ≤ 100 * totalErrors done ∧ 10 ≤ totalErrors done)) ↔
        done = rowsOf d effs)) ∧
    (∀ r ∈ rowsOf d effs, r.2.num_shots ≤ b) ∧ (25 ≤ m → totalShots (rowsOf d effs) ≤ m) := by
  by_cases hd : rowsOf d effs = []
  · rw [hd]
    refine ⟨fun done h1 h0 => absurd (List.prefix_nil.1 h1) h0, by simp, fun hm => ?_⟩
    simp only [totalShots, List.map_nil, List.sum_nil]
    omega
  obtain ⟨m', e', err', hm, hme, hl, hn⟩ := script_loop h d hd
  obtain rfl : m = m' := Except.ok.inj hm
  obtain rfl : e = e' := Except.ok.inj hme
  cases hn rfl
  have hbatch : (collectArgsOf (mainArgs dir id cr o (some m) (some e) (some b)) m e).batch = b := by
    simp [CollectArgs.batch, collectArgsOf, mainArgs]
  have hfirst : (collectArgsOf (mainArgs dir id cr o (some m) (some e) (some b)) m e).firstShots ≤ b ∧
      (collectArgsOf (mainArgs dir id cr o (some m) (some e) (some b)) m e).firstShots ≤ 25 := by
    unfold CollectArgs.firstShots
    rw [hbatch]
    have h25 : (collectArgsOf (mainArgs dir id cr o (some m) (some e) (some b)) m e).min_shots = 25 := rfl
    rw [h25]
    split_ifs <;> omega
  refine ⟨fun done h1 h0 => loop_stops hl hb done h1 h0, ?_, fun h25 => ?_⟩
  · have := hl.batch_le (by rw [hbatch]; exact hfirst.1)
    rw [hbatch] at this
    exact this
  · have := hl.budget (by rw [zero_add]; exact hfirst.2.trans h25) _ (List.prefix_refl _) hd
    rw [zero_add] at this
    exact this

/-- With a `case_reduction` above 1000 (and default limits) the number of errors asked for is 0: every problem gets one batch of 25 shots only,
whatever the error rate; above 4 million that is more than the `10^8 / case_reduction` shots that are allowed. -/
theorem c81_one_batch (F : FloatText) (s : ScriptArgs) (sample : DecodingProblemDesc → Nat → Int → Except PyErr (Int × Rat)) (fuel : Nat)
    (file : Option Text) (effs : List Eff) (h : collectData F s sample fuel file = some (effs, none)) (d : DecodingProblemDesc)
    (hd : rowsOf d effs ≠ []) (hok : ∀ i n c t, sample d i n = .ok (c, t) → c ≤ n)
    (hs : s.max_shots = none) (he : s.max_errors = none) (hb : s.max_batch_size = none) (h1 : 1000 < s.case_reduction) :
    ∃ c t, rowsOf d effs = [(d, ⟨25, c, t⟩)] ∧ (4000000 < s.case_reduction → 10 ^ 8 / s.case_reduction < totalShots (rowsOf d effs)) := by
  obtain ⟨b, rest, hr⟩ := List.exists_cons_of_ne_nil hd
  obtain ⟨m, e, err', -, -, hl, -⟩ := script_loop h d hd
  have hb0 := hl.sampled 0 b (by rw [hr]; rfl)
  have hb1 := hl.first b (by rw [hr]; rfl)
  have hf : (collectArgsOf s m e).firstShots = 25 := by
    simp [CollectArgs.firstShots, CollectArgs.batch, collectArgsOf, hb]
  rw [hf] at hb1
  have hc := hok _ _ _ _ hb0.2
  have hstop := (c81_stops F s sample fuel file effs h d hs he hb (by omega) [b] (by rw [hr]; simp) (by simp)).1 (.inr (.inl (by
    rw [Int.ediv_eq_zero_of_lt (by norm_num) (by omega)]
    simp only [totalErrors, List.map_cons, List.map_nil, List.sum_cons, List.sum_nil]
    omega)))
  refine ⟨b.2.num_correct, b.2.total_processing_seconds, ?_, fun h4 => ?_⟩
  · rw [← hstop]
    obtain ⟨x, ⟨n, c, t⟩⟩ := b
    simp only at hb0 hb1
    rw [hb0.1, hb1]
  · rw [← hstop]
    have : (10 : Int) ^ 8 / s.case_reduction < 25 := Int.ediv_lt_of_lt_mul (by omega) (by omega)
    simp only [totalShots, List.map_cons, List.map_nil, List.sum_cons, List.sum_nil]
    omega

/-- The script always ends, and without an exception if the sampler works: any problem id that exists, any other arguments from the command
line with a positive batch size. -/
theorem c81_terminates (F : FloatText) (dir : Option String) (cr : Option Int) (o : Bool) (ms me mb : Option Int) (hmb : ∀ m, mb = some m → 1 ≤ m)
    (sample : DecodingProblemDesc → Nat → Int → Except PyErr (Int × Rat))
    (hok : ∀ d i n, 1 ≤ n → ∃ c t, sample d i n = .ok (c, t) ∧ 0 ≤ c ∧ c ≤ n) (file : Option Text) :
    ∃ fuel0, ∀ fuel, fuel0 ≤ fuel → ∃ effs, collectData F (mainArgs dir none cr o ms me mb) sample fuel file = some (effs, none) := by
  obtain ⟨a, ha⟩ := c81_main dir none cr o ms me mb
  obtain ⟨m, e, -, -, hae⟩ := collectArgs_cases ha
  have hbatch : 1 ≤ a.batch := by
    rw [hae]
    show 1 ≤ ((some (mb.getD (2 ^ 15)) : Option Int).getD m)
    rw [Option.getD_some]
    cases hm : mb with
    | none => simp
    | some x => exact hmb x hm
  have hfirst : 1 ≤ a.firstShots := by
    unfold CollectArgs.firstShots
    split_ifs
    · exact hbatch
    · rw [hae]; show (1 : Int) ≤ 25; norm_num
  refine ⟨a.max_shots.toNat + 1, fun fuel hf => ?_⟩
  have hone : ∀ p ∈ (scriptDescs dir).map fun d => (⟨d, sample d⟩ : DecodingProblem), ∃ part, collectOne F a p fuel = some (part, none) := by
    intro p hp
    obtain ⟨d, _, rfl⟩ := List.mem_map.1 hp
    obtain ⟨⟨effs, err⟩, hr⟩ := collectLoop_terminates F a ⟨d, sample d⟩ hbatch fuel 0 a.firstShots 0 0 hfirst (by omega) (by omega)
    obtain ⟨bs, hl, rfl⟩ := loop_of_collectLoop hr
    have := hl.no_exception hbatch (hok d) hfirst (le_refl 0) (le_refl 0) (le_refl 0)
    subst this
    exact ⟨_, hr⟩
  obtain ⟨parts, hparts⟩ : ∃ parts, List.Forall₂ (fun prob part => collectOne F a prob fuel = some (part, none))
      ((scriptDescs dir).map fun d => (⟨d, sample d⟩ : DecodingProblem)) parts := by
    generalize (scriptDescs dir).map (fun d => (⟨d, sample d⟩ : DecodingProblem)) = l at hone
    induction l with
    | nil => exact ⟨[], .nil⟩
    | cons p l ih =>
      obtain ⟨part, hp⟩ := hone p (by simp)
      obtain ⟨parts, hps⟩ := ih fun q hq => hone q (by simp [hq])
      exact ⟨part :: parts, .cons hp hps⟩
  refine ⟨startEffs a.has_out a.discard_previous_data file ++ parts.flatten, ?_⟩
  rw [collectData]
  simp only [ha]
  exact (c48_composes F a fuel _ file _).2 ⟨parts, hparts, rfl⟩

/-! ## Examples -/

/-- A sampler that always succeeds, with one error in every batch. -/
def oneError : DecodingProblemDesc → Nat → Int → Except PyErr (Int × Rat) := fun _ _ n => .ok (n - 1, 1)

/-- The hypotheses of C79-C81 are met: a run of the script for all problems. -/
example : ∃ fuel effs, collectData fractionText (mainArgs none none none true none none none) oneError fuel none = some (effs, none) ∧
    ∀ d, rowsOf d effs ≠ [] ↔ d ∈ scriptDescs none := by
  obtain ⟨fuel, h⟩ := c81_terminates fractionText none none true none none none (by simp) oneError
    (fun d i n hn => ⟨n - 1, 1, rfl, by omega, by omega⟩) none
  obtain ⟨effs, h⟩ := h fuel (le_refl _)
  exact ⟨fuel, effs, h, fun d => c79_all fractionText (mainArgs none none none true none none none) oneError fuel none effs rfl h d⟩

/-- Problem `-1` is the last one. -/
example : (scriptDescs none)[((-1 : Int) % (scriptDescs none).length).toNat]? = (scriptDescs none).getLast? := by
  have h : (scriptDescs none).length = 1500 := by rw [c79_counts, if_neg (by simp)]
  rw [List.getLast?_eq_getElem?, h, show ((-1 : Int) % ((1500 : Nat) : Int)).toNat = 1500 - 1 by decide]

example : ∃ a, (mainArgs none none (some 7) true (some 5000) none (some 100)).collectArgs = .ok a ∧ a.max_shots = 5000 ∧
    a.min_seen_logical_errors = 142 ∧ a.max_batch = some 100 := by
  obtain ⟨a, h, -, -, -, h1, -, -, h2, h3, -⟩ := c81_options none none true (some 5000) none (some 100) 7 (by decide)
  exact ⟨a, h, h1 _ rfl, h2 rfl, h3 _ rfl⟩

/-- A run as in `c81_given`, with a sampler that never fails: it ends after at most 5000 shots of every problem. -/
example (F : FloatText) : ∃ fuel effs, collectData F (mainArgs none none none true (some 5000) (some 10) (some 100))
    (fun _ _ n => .ok (n, 1)) fuel none = some (effs, none) ∧ ∀ d, totalShots (rowsOf d effs) ≤ 5000 := by
  obtain ⟨fuel, h⟩ := c81_terminates F none none true (some 5000) (some 10) (some 100) (by simp) (fun _ _ n => .ok (n, 1))
    (fun d i n hn => ⟨n, 1, rfl, by omega, le_refl n⟩) none
  obtain ⟨effs, h⟩ := h fuel (le_refl _)
  exact ⟨fuel, effs, h, fun d => (c81_given F none none none true 5000 10 100 (by norm_num) _ _ none effs h d).2.2 (by norm_num)⟩

end Honeycomb
