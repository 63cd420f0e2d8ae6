import Verif.Lemmas.LambdaFigures

/-!
# The figures of line fits, lambda factors and qubit counts: C86, C87, C88

`LineFitShows`, `CellPoints`, `IsTrend` and `Falls` are defined in `Verif/Spec/LambdaFigures.lean`.
-/

namespace Honeycomb

open LambdaGroup

/-! ## C86 -/

/-- Marker and colour of a noise value. -/
def noiseLook (data : ProblemShotData) (p : Rat) : Char × Nat :=
  let order := (sortedRat (pySet (data.map fun e => e.1.noise))).idxOf p
  (fractionMarkers[order]?.getD ' ', order % 10)

theorem few_noises {data : ProblemShotData} (hk : ∀ e ∈ data, e.1 ∈ allDescs) : (noiseValues data).card ≤ 16 := by
  have : USED_NOISE_VALUES.toFinset.card ≤ 16 := le_trans (List.toFinset_card_le _) (by decide)
  refine le_trans (Finset.card_le_card ?_) this
  intro p hp
  rw [noiseValues, List.mem_toFinset, List.mem_map] at hp
  obtain ⟨e, he, rfl⟩ := hp
  exact List.mem_toFinset.2 (collected_used ((mem_allDescs _).1 (hk e he)))

theorem noiseLook_inj {data : ProblemShotData} (hk : ∀ e ∈ data, e.1 ∈ allDescs) {p q : Rat} (hp : ∃ e ∈ data, e.1.noise = p)
    (hq : ∃ e ∈ data, e.1.noise = q) (h : (noiseLook data p).1 = (noiseLook data q).1) : p = q := by
  have m := mem_sortedNoises.2 hp
  have m' := mem_sortedNoises.2 hq
  have i := List.idxOf_lt_length_of_mem m
  have i' := List.idxOf_lt_length_of_mem m'
  rw [length_sortedNoises] at i i'
  have hinj : ∀ a b : Fin 16, fractionMarkers[a.1]?.getD ' ' = fractionMarkers[b.1]?.getD ' ' → a = b := by decide
  have := hinj ⟨_, lt_of_lt_of_le i (few_noises hk)⟩ ⟨_, lt_of_lt_of_le i' (few_noises hk)⟩ h
  exact (List.idxOf_inj m).1 (Fin.mk.injEq _ _ _ _ ▸ this)

theorem groups_get {D : ProblemShotData} {groups : PyDict Rat LambdaGroup} (hG : GroupsOf D groups) {n : Rat}
    (hn : n ∈ sortedRat groups.keys) : ∃ g, (n, g) ∈ groups ∧ groupAt groups n = .ok g := by
  rw [(sortedRat_perm _).mem_iff] at hn
  obtain ⟨⟨n', g⟩, hg, rfl⟩ := List.mem_map.1 hn
  refine ⟨g, hg, ?_⟩
  rw [groupAt, PyDict.get?_of_mem hG.nodup hg]

theorem lineFitGroup_ok {data D : ProblemShotData} {linregress : List ℝ → List ℝ → LineFit} (hl : LinregressMinimises linregress)
    (hk : ∀ e ∈ data, e.1 ∈ allDescs) (hsub : ∀ e ∈ D, e ∈ data) (hp : Plottable D) {groups : PyDict Rat LambdaGroup}
    (hG : GroupsOf D groups) {n : Rat} {g : LambdaGroup} (hm : (n, g) ∈ groups) :
    ∃ q, lineFitGroup linregress data n g = .ok q ∧ q.noise = n ∧ CellPoints D n q.points ∧ (q.marker, q.color) = noiseLook data n ∧
      ∃ slope intercept, IsTrend q.points slope intercept ∧
        (Falls slope intercept → ∃ x1 x2, q.dashed = some [(some x1, 1), (some x2, 1 / 10 ^ 13)] ∧ Real.exp (slope * x1 + intercept) = 1 ∧
          Real.exp (slope * x2 + intercept) = 1 / 10 ^ 13) ∧
        (¬ Falls slope intercept → q.dashed = none) := by
  obtain ⟨xs, ys, h1, h2, h3, hpos, hpts⟩ := group_points hp (fun e he => hk e (hsub e he)) hG hm
  obtain ⟨r, hr, htr, -⟩ := group_trend hl h1 h2 h3 hpos
  have hin : ∃ e ∈ data, e.1.noise = n := by
    obtain ⟨e, he, h⟩ := (hG.keys n).1 (List.mem_map.2 ⟨_, hm, rfl⟩)
    exact ⟨e, hsub e he, h⟩
  have hm' := mem_sortedNoises.2 hin
  have hidx := List.idxOf_lt_length_of_mem hm'
  rw [length_sortedNoises] at hidx
  have h16 := few_noises hk
  have e1 : noiseIndex data n = .ok ((sortedRat (pySet (data.map fun e => e.1.noise))).idxOf n) := by
    rw [noiseIndex]
    rw [show (sortedRat (pySet (data.map fun e => e.1.noise))).idxOf? n = some _ from
      List.findIdx?_eq_some_iff_findIdx_eq.2 ⟨List.idxOf_lt_length_of_mem hm', rfl⟩]
  have e2 : ∀ i, i < 16 → fractionMarkers[i]? = some (fractionMarkers[i]?.getD ' ') := by decide
  have e3 := e2 _ (lt_of_lt_of_le hidx h16)
  have e4 := colorAt_ok (i := (sortedRat (pySet (data.map fun e => e.1.noise))).idxOf n) (by omega)
  by_cases hf : Falls r.slope r.intercept
  · obtain ⟨p1, q1⟩ := projected_ok hr (falls_slope hf) one_pos
    obtain ⟨p2, q2⟩ := projected_ok hr (falls_slope hf) (t := 1 / 10 ^ 13) (by positivity)
    refine ⟨{ noise := n, points := xs.zip ys, dashed := some [(some _, 1), (some _, 1 / 10 ^ 13)], marker := (noiseLook data n).1, color := (noiseLook data n).2 },
      ?_, rfl, hpts, rfl, r.slope, r.intercept, htr, fun _ => ⟨_, _, rfl, q1, q2⟩, fun h => absurd hf h⟩
    rw [lineFitGroup]
    simp only [bind, Except.bind, hr, h1, e1, group_suppressing hr, if_pos hf, p1, p2, e4, pure, Except.pure]
    rw [e3]
    rfl
  · refine ⟨{ noise := n, points := xs.zip ys, dashed := none, marker := (noiseLook data n).1, color := (noiseLook data n).2 },
      ?_, rfl, hpts, rfl, r.slope, r.intercept, htr, fun h => absurd h hf, fun _ => rfl⟩
    rw [lineFitGroup]
    simp only [bind, Except.bind, hr, h1, e1, group_suppressing hr, if_neg hf, e4, pure, Except.pure]
    rw [e3]
    rfl

theorem lineFitPanel_ok {data : ProblemShotData} {linregress : List ℝ → List ℝ → LineFit} (hl : LinregressMinimises linregress)
    (hp : Plottable data) (hk : ∀ e ∈ data, e.1 ∈ allDescs) (c : StyleDecoder) :
    ∃ drawn, (∀ row col name, lineFitPanel linregress data row col name c = .ok ⟨row, col, name, drawn⟩) ∧
      LineFitShows (resultsOf data c.1 c.2) (noiseLook data) drawn := by
  obtain ⟨groups, hgr, hG⟩ := results_groups hp hk c.1 c.2
  have hstep : ∀ n, ∃ q, n ∈ sortedRat groups.keys → (groupAt groups n >>= fun g => lineFitGroup linregress data n g) = .ok q ∧
      q.noise = n ∧ CellPoints (resultsOf data c.1 c.2) n q.points ∧ (q.marker, q.color) = noiseLook data n ∧
      ∃ slope intercept, IsTrend q.points slope intercept ∧
        (Falls slope intercept → ∃ x1 x2, q.dashed = some [(some x1, 1), (some x2, 1 / 10 ^ 13)] ∧ Real.exp (slope * x1 + intercept) = 1 ∧
          Real.exp (slope * x2 + intercept) = 1 / 10 ^ 13) ∧
        (¬ Falls slope intercept → q.dashed = none) := by
    intro n
    by_cases hn : n ∈ sortedRat groups.keys
    · obtain ⟨g, hm, hg⟩ := groups_get hG hn
      obtain ⟨q, hq⟩ := lineFitGroup_ok hl hk (fun e he => (mem_resultsOf.1 he).1) (plottable_results hp _ _) hG hm
      refine ⟨q, fun _ => ⟨?_, hq.2⟩⟩
      rw [hg]
      exact hq.1
    · exact ⟨⟨0, [], none, ' ', 0⟩, fun h => absurd h hn⟩
  choose q hq using hstep
  have hmap := mapM_ok (f := fun n => groupAt groups n >>= fun g => lineFitGroup linregress data n g) (g := q) (sortedRat groups.keys)
    fun n hn => (hq n hn).1
  refine ⟨(sortedRat groups.keys).map q, fun row col name => ?_, ?_, ?_, ?_, ?_, ?_⟩
  · rw [lineFitPanel, case_results hp.nodup]
    simp only [hgr, bind, Except.bind] at hmap ⊢
    rw [hmap]
    rfl
  · rw [List.pairwise_map]
    refine (sortedRat_strict hG.nodup).imp_of_mem fun {a b} ha hb h => ?_
    rw [(hq a ha).2.1, (hq b hb).2.1]
    exact h
  · intro p
    rw [← hG.keys p, List.map_map]
    constructor
    · intro h
      obtain ⟨n, hn, rfl⟩ := List.mem_map.1 h
      rw [Function.comp, (hq n hn).2.1]
      exact (sortedRat_perm _).mem_iff.1 hn
    · intro h
      have hn : p ∈ sortedRat groups.keys := (sortedRat_perm _).mem_iff.2 h
      exact List.mem_map.2 ⟨p, hn, (hq p hn).2.1⟩
  · intro x hx
    obtain ⟨n, hn, rfl⟩ := List.mem_map.1 hx
    rw [(hq n hn).2.1]
    exact (hq n hn).2.2.1
  · intro x hx
    obtain ⟨n, hn, rfl⟩ := List.mem_map.1 hx
    exact (hq n hn).2.2.2.2
  · intro x hx
    obtain ⟨n, hn, rfl⟩ := List.mem_map.1 hx
    rw [(hq n hn).2.1]
    exact (hq n hn).2.2.2.1

theorem lineFitRows_eq {data : ProblemShotData} {linregress : List ℝ → List ℝ → LineFit} {f : StyleDecoder → List LineFitPoints}
    (hf : ∀ c row col name, lineFitPanel linregress data row col name c = .ok ⟨row, col, name, f c⟩) (col : Nat) (name : String) :
    ∀ (cases : List (Option StyleDecoder)) (row : Nat), lineFitRows linregress data col name row cases =
      .ok ((cases.zipIdx row).filterMap fun x => x.1.map fun c => ⟨x.2, col, name, f c⟩) := by
  intro cases
  induction cases with
  | nil => intro row; rfl
  | cons c cases ih =>
    intro row
    cases c with
    | none => rw [lineFitRows, ih, List.zipIdx_cons, List.filterMap_cons]; rfl
    | some c =>
      simp only [lineFitRows, hf, ih, bind, Except.bind, pure, Except.pure, List.zipIdx_cons, List.filterMap_cons, Option.map_some]

theorem lineFitCols_eq {data : ProblemShotData} {linregress : List ℝ → List ℝ → LineFit} {f : StyleDecoder → List LineFitPoints}
    (hf : ∀ c row col name, lineFitPanel linregress data row col name c = .ok ⟨row, col, name, f c⟩) :
    ∀ (table : List (String × List (Option StyleDecoder))) (col : Nat), lineFitCols linregress data col table =
      .ok ((table.zipIdx col).flatMap fun y => (y.1.2.zipIdx 0).filterMap fun x => x.1.map fun c => ⟨x.2, y.2, y.1.1, f c⟩) := by
  intro table
  induction table with
  | nil => intro col; rfl
  | cons c table ih =>
    intro col
    obtain ⟨name, cases⟩ := c
    simp only [lineFitCols, lineFitRows_eq hf, ih, bind, Except.bind, pure, Except.pure, List.zipIdx_cons, List.flatMap_cons]

/-- The table of the code is that of the specification. -/
theorem shownAt_iff (focus : Bool) (row col : Nat) (title style decoder : String) : ShownAt focus row col title style decoder ↔
    ∃ cases, (lineFitCases focus)[col]? = some (title, cases) ∧ cases[row]? = some (some (style, decoder)) := by
  have hlen : (lineFitCases focus).length = 3 := by cases focus <;> rfl
  constructor
  · rintro ⟨code, h1, h2⟩
    have hrow : row < 4 := by
      have := (List.getElem?_eq_some_iff.1 h1).1
      cases focus <;> simp [lineFitRowsSpec] at this <;> omega
    rcases h2 with ⟨rfl, rfl, rfl⟩ | ⟨rfl, rfl, rfl⟩ | ⟨rfl, rfl, rfl, rfl⟩ <;> cases focus <;> interval_cases row <;>
      simp_all [lineFitRowsSpec, lineFitCases, allLineFitCases, focusedLineFitCases] <;>
      (try (obtain ⟨rfl, rfl⟩ := h1; decide))
  · rintro ⟨cases, h1, h2⟩
    have hcol : col < 3 := by
      have := (List.getElem?_eq_some_iff.1 h1).1
      omega
    have hrow : row < 4 := by
      have h4 : ∀ e ∈ lineFitCases focus, e.2.length ≤ 4 := by cases focus <;> decide
      have := (List.getElem?_eq_some_iff.1 h2).1
      have := h4 _ (List.mem_of_getElem? h1)
      simp only at this
      omega
    interval_cases col <;> cases focus <;> simp only [lineFitCases, allLineFitCases, focusedLineFitCases] at h1 <;> cases h1 <;>
      interval_cases row <;> cases h2 <;> exact ⟨_, rfl, by decide⟩

/-- C86: with data of the collection script both figures of line fits can be drawn. The panels are those of the table; each shows
exactly the results of its circuit style and decoder: for every noise value the error rates per code cell, and the least squares fit of their
logarithms wherever it falls clearly. The same noise value looks the same in all panels, different noise values look different. -/
theorem c86_panels (linregress : List ℝ → List ℝ → LineFit) (hl : LinregressMinimises linregress) (data : ProblemShotData) (focus : Bool)
    (hp : Plottable data) (hk : ∀ e ∈ data, e.1 ∈ allDescs) :
    ∃ panels, plotLineFits linregress data focus = .ok panels ∧ (panels.map fun p => (p.row, p.col)).Nodup ∧
      (∀ row col title style decoder, ShownAt focus row col title style decoder → ∃ p ∈ panels, (p.row, p.col) = (row, col)) ∧
      ∃ look : Rat → Char × Nat, (∀ e ∈ data, ∀ e' ∈ data, look e.1.noise = look e'.1.noise → e.1.noise = e'.1.noise) ∧
        ∀ p ∈ panels, ∃ style decoder, ShownAt focus p.row p.col p.title style decoder ∧
          LineFitShows (resultsOf data style decoder) look p.groups := by
  choose f hf hshow using fun c => lineFitPanel_ok hl hp hk c
  have heq : plotLineFits linregress data focus = _ := lineFitCols_eq (f := f) hf (lineFitCases focus) 0
  refine ⟨_, heq, ?_, ?_, noiseLook data, fun e he e' he' h => noiseLook_inj hk ⟨e, he, rfl⟩ ⟨e', he', rfl⟩ (congrArg Prod.fst h), ?_⟩
  · rw [List.map_flatMap]
    have : (fun y : (String × List (Option StyleDecoder)) × Nat => ((y.1.2.zipIdx 0).filterMap fun x => x.1.map fun c =>
          (⟨x.2, y.2, y.1.1, f c⟩ : LineFitPanel)).map fun p => (p.row, p.col)) =
        fun y => (y.1.2.zipIdx 0).filterMap fun x => x.1.map fun _ => (x.2, y.2) := by
      funext y
      rw [List.map_filterMap]
      congr 1
      funext x
      cases x.1 <;> rfl
    simp only [this]
    cases focus <;> decide
  · intro row col title style decoder h
    obtain ⟨name, h1, h2⟩ := (shownAt_iff focus row col title style decoder).1 h
    exact ⟨_, List.mem_flatMap.2 ⟨((title, name), col), List.mem_zipIdx_iff_getElem?.2 h1, List.mem_filterMap.2
      ⟨(some (style, decoder), row), List.mem_zipIdx_iff_getElem?.2 h2, rfl⟩⟩, rfl⟩
  · intro p hp'
    simp only [List.mem_flatMap, List.mem_filterMap, Option.map_eq_some_iff] at hp'
    obtain ⟨⟨⟨name, cases⟩, col'⟩, h1, ⟨c', row'⟩, h2, c, h3, rfl⟩ := hp'
    simp only at h2 h3
    subst h3
    rw [List.mem_zipIdx_iff_getElem?] at h1 h2
    exact ⟨c.1, c.2, (shownAt_iff _ _ _ _ _ _).2 ⟨cases, h1, h2⟩, hshow c⟩

/-- C86: the texts beside the rows name the code and the decoder of the row. -/
theorem c86_labels (focus : Bool) : lineFitRowLabels focus = .ok ((lineFitRowsSpec focus).map lineFitRowText) := by
  cases focus <;> decide +kernel

/-- C86: every problem of the collection script has exactly one place in the full figure. -/
theorem c86_complete {k : DecodingProblemDesc} (hk : k ∈ allDescs) :
    ∃! rc : Nat × Nat, ∃ title, ShownAt false rc.1 rc.2 title k.circuit_style k.decoder := by
  have hcase : (k.circuit_style, k.decoder) ∈ (allLineFitCases.flatMap Prod.snd).filterMap id := by
    rcases (mem_allDescs k).1 hk with ⟨p, u, style, obs, decoder, hp, hu, hs, ho, hd⟩ | ⟨p, d, name, obs, decoder, hp, hd', hs, ho, hd⟩
    · simp only [DECODERS, List.mem_cons, List.not_mem_nil, or_false] at hd
      rcases hs with rfl | rfl | rfl <;> rcases hd with rfl | rfl <;> simp only [HoneycombLayout.asDecoderProblemDesc] <;> decide +kernel
    · simp only [DECODERS, List.mem_cons, List.not_mem_nil, or_false] at hd
      rcases hs with rfl | rfl <;> rcases hd with rfl | rfl <;> simp only [surfaceCodeDesc] <;> decide +kernel
  obtain ⟨c, hc, hid⟩ := List.mem_filterMap.1 hcase
  obtain ⟨⟨title, cases⟩, hcol, hrow⟩ := List.mem_flatMap.1 hc
  cases hid
  obtain ⟨col, hcol⟩ := List.mem_iff_getElem?.1 hcol
  obtain ⟨row, hrow⟩ := List.mem_iff_getElem?.1 hrow
  refine ⟨(row, col), ⟨title, (shownAt_iff ..).2 ⟨cases, hcol, hrow⟩⟩, ?_⟩
  rintro ⟨row', col'⟩ ⟨title', h⟩
  obtain ⟨cases', hcol', hrow'⟩ := (shownAt_iff ..).1 h
  have key : (allLineFitCases.zipIdx.all fun a => a.1.2.zipIdx.all fun b => allLineFitCases.zipIdx.all fun a' => a'.1.2.zipIdx.all fun b' =>
      decide (b.1 = b'.1 → b.1 ≠ none → (b.2, a.2) = (b'.2, a'.2))) = true := by decide +kernel
  have := of_decide_eq_true <| List.all_eq_true.1 (List.all_eq_true.1 (List.all_eq_true.1 (List.all_eq_true.1 key _
    (List.mem_zipIdx_iff_getElem?.2 hcol' : ((title', cases'), col') ∈ _)) _ (List.mem_zipIdx_iff_getElem?.2 hrow' : (_, row') ∈ _)) _
    (List.mem_zipIdx_iff_getElem?.2 hcol : ((title, cases), col) ∈ _)) _ (List.mem_zipIdx_iff_getElem?.2 hrow : (_, row) ∈ _)
  exact this rfl (by simp)

/-- C86: the legend has the noise values of the first panel, which shows surface codes with SD6 gates, from the largest to the
smallest. -/
theorem c86_legend (linregress : List ℝ → List ℝ → LineFit) (hl : LinregressMinimises linregress) (data : ProblemShotData) (focus : Bool)
    (hp : Plottable data) (hk : ∀ e ∈ data, e.1 ∈ allDescs) :
    ∃ panels, plotLineFits linregress data focus = .ok panels ∧ (lineFitLegend panels).Pairwise (fun a b => b < a) ∧
      ∀ p, p ∈ lineFitLegend panels ↔ ∃ e ∈ data, e.1.noise = p ∧ e.1.circuit_style = "surface_SD6" ∧
        e.1.decoder = if focus then "internal_correlated" else "internal" := by
  obtain ⟨panels, h1, h2, h3, look, -, h4⟩ := c86_panels linregress hl data focus hp hk
  refine ⟨panels, h1, ?_⟩
  have hdec : ∀ title style decoder, ShownAt focus 0 0 title style decoder ↔
      title = "SD6" ∧ style = "surface_SD6" ∧ decoder = if focus then "internal_correlated" else "internal" := by
    intro title style decoder
    rw [shownAt_iff]
    cases focus <;> simp [lineFitCases, allLineFitCases, focusedLineFitCases] <;> tauto
  obtain ⟨p, hpm, hp0⟩ := h3 0 0 _ _ _ ((hdec _ _ _).2 ⟨rfl, rfl, rfl⟩)
  have hfil : panels.filter (fun p => decide (p.row = 0 ∧ p.col = 0)) = [p] := by
    have hone : ∀ q ∈ panels, (q.row = 0 ∧ q.col = 0) → q = p := by
      intro q hq hq0
      exact List.inj_on_of_nodup_map h2 hq hpm (by rw [hp0, hq0.1, hq0.2])
    have hnd : (panels.filter fun p => decide (p.row = 0 ∧ p.col = 0)).Nodup := (List.Nodup.of_map _ h2).filter _
    have hmem : ∀ q, q ∈ panels.filter (fun p => decide (p.row = 0 ∧ p.col = 0)) ↔ q ∈ [p] := by
      intro q
      rw [List.mem_filter, decide_eq_true_eq, List.mem_singleton]
      constructor
      · rintro ⟨a, b⟩
        exact hone q a b
      · rintro rfl
        exact ⟨hpm, congrArg Prod.fst hp0, congrArg Prod.snd hp0⟩
    exact List.perm_singleton.1 ((List.perm_ext_iff_of_nodup hnd (List.nodup_singleton p)).2 hmem)
  obtain ⟨style, decoder, hs, hshow⟩ := h4 p hpm
  have e1 : p.row = 0 := congrArg Prod.fst hp0
  have e2 : p.col = 0 := congrArg Prod.snd hp0
  rw [e1, e2, hdec] at hs
  obtain ⟨-, rfl, rfl⟩ := hs
  rw [lineFitLegend, hfil]
  simp only [List.flatMap_cons, List.flatMap_nil, List.append_nil, List.mem_reverse, List.pairwise_reverse, List.pairwise_map]
  refine ⟨hshow.sorted, fun n => ?_⟩
  rw [hshow.noises]
  simp only [resultsOf, List.mem_filter, decide_eq_true_eq]
  constructor
  · rintro ⟨e, ⟨a, b, c⟩, d⟩
    exact ⟨e, a, d, b, c⟩
  · rintro ⟨e, a, d, b, c⟩
    exact ⟨e, ⟨a, b, c⟩, d⟩

/-! ## C87 and C88 -/

open Classical in
theorem comboLoopOver_ok {linregress : List ℝ → List ℝ → LineFit} {value : LambdaGroup → Search Triple} {groups : PyDict Rat LambdaGroup}
    {G : Rat → LambdaGroup} {F : Rat → Prop} {T : Rat → Triple} : ∀ ns : List Rat,
    (∀ n ∈ ns, groupAt groups n = .ok (G n) ∧ (G n).appearsToBeSuppressing linregress = .ok (F n) ∧ (F n → value (G n) = some (.ok (T n)))) →
    comboLoopOver linregress value groups ns = some (.ok ((ns.filter fun n => decide (F n)).map fun n => (n, T n),
      ((ns.filter fun n => decide (F n)).filter fun n => (G n).hasLowConfidence).map fun n => (n, (T n).mid))) := by
  intro ns
  induction ns with
  | nil => intro _; rfl
  | cons n ns ih =>
    intro h
    obtain ⟨h1, h2, h3⟩ := h n List.mem_cons_self
    have ih := ih fun m hm => h m (List.mem_cons_of_mem _ hm)
    rw [comboLoopOver, h1]
    show ((liftM ((G n).appearsToBeSuppressing linregress) : Search Prop) >>= _) = _
    rw [h2]
    show (if F n then _ else _ : Search (List (Rat × Triple) × List (Rat × ℝ))) = _
    by_cases hF : F n
    · rw [if_pos hF, h3 hF, ih, List.filter_cons_of_pos (by simpa using hF)]
      by_cases hL : (G n).hasLowConfidence = true
      · rw [List.filter_cons_of_pos (p := fun n => (G n).hasLowConfidence) hL]
        simp only [if_pos hL]
        rfl
      · rw [List.filter_cons_of_neg (p := fun n => (G n).hasLowConfidence) hL]
        simp only [if_neg hL]
        rfl
    · rw [if_neg hF, ih, List.filter_cons_of_neg (by simpa using hF)]
      rfl

theorem low_confidence {D : ProblemShotData} {groups : PyDict Rat LambdaGroup} (hk : ∀ e ∈ D, e.1 ∈ allDescs) (hG : GroupsOf D groups)
    {n : Rat} {g : LambdaGroup} (hm : (n, g) ∈ groups) : g.hasLowConfidence = true ↔ FewDistances D n := by
  have obs : ∀ e ∈ D, (FirstTable e.1.preserved_observable ↔ e.1.preserved_observable = "H" ∨ e.1.preserved_observable = "X") ∧
      (¬ FirstTable e.1.preserved_observable ↔ e.1.preserved_observable = "V" ∨ e.1.preserved_observable = "Z") := by
    intro e he
    have := (mem_allDescs _).1 (hk e he)
    have ho : e.1.preserved_observable = "V" ∨ e.1.preserved_observable = "H" ∨ e.1.preserved_observable = "X" ∨
        e.1.preserved_observable = "Z" := by
      generalize e.1 = k at this
      cases this with
      | honeycomb p u style obs decoder hp hu hs ho hd => rcases ho with rfl | rfl <;> simp [HoneycombLayout.asDecoderProblemDesc]
      | surface p d noise_name obs decoder hp hd hs ho hdec => rcases ho with rfl | rfl <;> simp [surfaceCodeDesc]
    rcases ho with h | h | h | h <;> simp [h, FirstTable]
  have card : ∀ {t : PyDict Int ShotData} {s : Finset Int}, (t.map Prod.fst).Nodup → (∀ d, d ∈ t.map Prod.fst ↔ d ∈ s) → t.length = s.card := by
    intro t s ht h
    rw [← List.length_map (f := Prod.fst) (as := t), ← List.toFinset_card_of_nodup ht]
    congr 1
    ext d
    rw [List.mem_toFinset, h]
  have hH := card (s := distancesOf D n "H" "X") (hG.h n g hm).1 (by
    intro d
    simp only [distancesOf, List.mem_toFinset, List.mem_map, List.mem_filter, decide_eq_true_eq]
    constructor
    · rintro ⟨⟨d', v⟩, hv, rfl⟩
      obtain ⟨k, a1, a2, a3, a4⟩ := ((hG.h n g hm).2 d' v).1 hv
      exact ⟨(k, v), ⟨a1, a2, (obs _ a1).1.1 a4⟩, a3⟩
    · rintro ⟨e, ⟨a1, a2, a3⟩, rfl⟩
      exact ⟨(_, e.2), ((hG.h n g hm).2 _ e.2).2 ⟨e.1, a1, a2, rfl, (obs _ a1).1.2 a3⟩, rfl⟩)
  have hV := card (s := distancesOf D n "V" "Z") (hG.v n g hm).1 (by
    intro d
    simp only [distancesOf, List.mem_toFinset, List.mem_map, List.mem_filter, decide_eq_true_eq]
    constructor
    · rintro ⟨⟨d', v⟩, hv, rfl⟩
      obtain ⟨k, a1, a2, a3, a4⟩ := ((hG.v n g hm).2 d' v).1 hv
      exact ⟨(k, v), ⟨a1, a2, (obs _ a1).2.1 a4⟩, a3⟩
    · rintro ⟨e, ⟨a1, a2, a3⟩, rfl⟩
      exact ⟨(_, e.2), ((hG.v n g hm).2 _ e.2).2 ⟨e.1, a1, a2, rfl, (obs _ a1).2.2 a3⟩, rfl⟩)
  rw [hasLowConfidence, decide_eq_true_eq, FewDistances, hH, hV]
  omega

/-- The label of a case. -/
def caseLabel (c : StyleDecoder) (name : String) : String := comboLabel ⟨0, 0, 0, 0, 0, 0, c.1, "", c.2⟩ name

open Classical in
theorem comboCase_ok {data : ProblemShotData} {linregress : List ℝ → List ℝ → LineFit} (hl : LinregressMinimises linregress)
    (hp : Plottable data) (hk : ∀ e ∈ data, e.1 ∈ allDescs) {value : Nat → String → LambdaGroup → Search Triple}
    {good : String → ProblemShotData → Rat → Triple → Prop} (c : StyleDecoder)
    (hval : ∀ (groups : PyDict Rat LambdaGroup) n g r, GroupsOf (resultsOf data c.1 c.2) groups → (n, g) ∈ groups →
      g.linearFit linregress = .ok r → Falls r.slope r.intercept →
      ∃ fuel t, (∀ fuel', fuel ≤ fuel' → value fuel' c.1 g = some (.ok t)) ∧ good c.1 (resultsOf data c.1 c.2) n t) :
    ∃ (fuel : Nat) (pts : List (Rat × Triple)) (poor : List (Rat × ℝ)),
      (∀ fuel', fuel ≤ fuel' → ∀ name i m, "ov*s".toList[i]? = some m → comboCase linregress (value fuel') data name i c =
        some (.ok (if (resultsOf data c.1 c.2).isEmpty then none else some ⟨pts, caseLabel c name, m⟩, poor))) ∧
      ComboShows (resultsOf data c.1 c.2) (good c.1 (resultsOf data c.1 c.2)) pts ∧
      ∀ p y, (p, y) ∈ poor ↔ FewDistances (resultsOf data c.1 c.2) p ∧ ∃ t, (p, t) ∈ pts ∧ t.mid = y := by
  obtain ⟨groups, hgr, hG⟩ := results_groups hp hk c.1 c.2
  set D := resultsOf data c.1 c.2 with hD
  have hpD : Plottable D := plottable_results hp _ _
  have hkD : ∀ e ∈ D, e.1 ∈ allDescs := fun e he => hk e (mem_resultsOf.1 he).1
  set ns := sortedRat groups.keys with hns
  have hmem : ∀ n, n ∈ ns ↔ ∃ e ∈ D, e.1.noise = n := by
    intro n
    rw [hns, (sortedRat_perm _).mem_iff]
    exact hG.keys n
  have hstep : ∀ n, ∃ (g : LambdaGroup) (F : Prop) (fuel : Nat) (t : Triple), n ∈ ns → (n, g) ∈ groups ∧ groupAt groups n = .ok g ∧
      g.appearsToBeSuppressing linregress = .ok F ∧ (F ↔ SuppressedAt D n) ∧
      (F → (∀ fuel', fuel ≤ fuel' → value fuel' c.1 g = some (.ok t)) ∧ good c.1 D n t) := by
    intro n
    by_cases hn : n ∈ ns
    · obtain ⟨g, hm, hg⟩ := groups_get hG hn
      obtain ⟨xs, ys, h1, h2, h3, hpos, hpts⟩ := group_points hpD hkD hG hm
      obtain ⟨r, hr, htr, -⟩ := group_trend hl h1 h2 h3 hpos
      have hiff : Falls r.slope r.intercept ↔ SuppressedAt D n := by
        constructor
        · intro hf
          exact ⟨(hmem n).1 hn, _, _, _, hpts, htr, hf⟩
        · rintro ⟨-, pts, s, i, a1, a2, a3⟩
          obtain ⟨e1, e2⟩ := trend_unique hpts a1 htr a2
          rw [e1, e2]
          exact a3
      by_cases hf : Falls r.slope r.intercept
      · obtain ⟨fuel, t, ht⟩ := hval groups n g r hG hm hr hf
        exact ⟨g, _, fuel, t, fun _ => ⟨hm, hg, group_suppressing hr, hiff, fun _ => ht⟩⟩
      · exact ⟨g, _, 0, ⟨0, 0, 0⟩, fun _ => ⟨hm, hg, group_suppressing hr, hiff, fun h => absurd h hf⟩⟩
    · exact ⟨⟨0, ⟨0, 0, 0, 0, 0, 0, "", "", ""⟩, [], []⟩, False, 0, ⟨0, 0, 0⟩, fun h => absurd h hn⟩
  choose G F fuel T hT using hstep
  have hfuel : ∀ n ∈ ns, fuel n ≤ (ns.map fuel).sum := fun n hn => List.single_le_sum (by simp) _ (List.mem_map.2 ⟨n, hn, rfl⟩)
  refine ⟨(ns.map fuel).sum, (ns.filter fun n => decide (F n)).map fun n => (n, T n),
    ((ns.filter fun n => decide (F n)).filter fun n => (G n).hasLowConfidence).map fun n => (n, (T n).mid), ?_, ⟨?_, ?_, ?_⟩, ?_⟩
  · intro fuel' hf' name i m hm
    have hloop := comboLoopOver_ok (value := value fuel' c.1) ns fun n hn =>
      ⟨(hT n hn).2.1, (hT n hn).2.2.1, fun h => ((hT n hn).2.2.2.2 h).1 fuel' (le_trans (hfuel n hn) hf')⟩
    rw [comboCase, case_results hp.nodup, ← hD]
    simp only [hgr]
    show (match sortedRat groups.keys with
      | [] => _
      | n0 :: ns => _ : Search (Option ComboCurve × List (Rat × ℝ))) = _
    rw [← hns]
    cases hcase : ns with
    | nil =>
      have : D.isEmpty = true := by
        cases hDl : D with
        | nil => rfl
        | cons e D' =>
          have := (hmem e.1.noise).2 ⟨e, by rw [hDl]; exact List.mem_cons_self, rfl⟩
          rw [hcase] at this
          simp at this
      rw [this]
      rfl
    | cons n0 ns' =>
      have hn0 : n0 ∈ ns := by rw [hcase]; exact List.mem_cons_self
      obtain ⟨e, he, -⟩ := (hmem n0).1 hn0
      have hne : D.isEmpty = false := by
        cases hDl : D with
        | nil => rw [hDl] at he; simp at he
        | cons e D' => rfl
      rw [hcase] at hloop
      obtain ⟨v, hv⟩ := group_rep hkD hG (hT n0 hn0).1
      have hlab : comboLabel (G n0).rep name = caseLabel c name := by
        obtain ⟨-, a1, a2⟩ := mem_resultsOf.1 hv
        rw [caseLabel, comboLabel, comboLabel]
        simp only at a1 a2 ⊢
        rw [a1, a2]
      simp only [hloop, (hT n0 hn0).2.1, hm, hne]
      show some (Except.ok (ε := PyErr) (some (ComboCurve.mk _ (comboLabel (G n0).rep name) m), _)) = _
      rw [hlab]
      rfl
  · rw [List.pairwise_map]
    exact (sortedRat_strict hG.nodup).sublist List.filter_sublist
  · intro p
    rw [List.map_map]
    constructor
    · intro h
      obtain ⟨n, hn, rfl⟩ := List.mem_map.1 h
      rw [List.mem_filter, decide_eq_true_eq] at hn
      exact (hT n hn.1).2.2.2.1.1 hn.2
    · intro h
      have hn := (hmem p).2 h.1
      exact List.mem_map.2 ⟨p, List.mem_filter.2 ⟨hn, decide_eq_true ((hT p hn).2.2.2.1.2 h)⟩, rfl⟩
  · intro p t hpt
    obtain ⟨n, hn, he⟩ := List.mem_map.1 hpt
    rw [List.mem_filter, decide_eq_true_eq] at hn
    cases he
    exact ((hT p hn.1).2.2.2.2 hn.2).2
  · intro p y
    constructor
    · intro h
      obtain ⟨n, hn, he⟩ := List.mem_map.1 h
      rw [List.mem_filter] at hn
      cases he
      have hn' := (List.mem_filter.1 hn.1).1
      exact ⟨(low_confidence hkD hG (hT p hn').1).1 hn.2, T p, List.mem_map.2 ⟨p, hn.1, rfl⟩, rfl⟩
    · rintro ⟨hfew, t, ht, rfl⟩
      obtain ⟨n, hn, he⟩ := List.mem_map.1 ht
      cases he
      have hn' := (List.mem_filter.1 hn).1
      exact List.mem_map.2 ⟨p, List.mem_filter.2 ⟨hn, (low_confidence hkD hG (hT p hn').1).2 hfew⟩, rfl⟩

/-- What is drawn for a case. -/
def caseCurve (data : ProblemShotData) (pts : StyleDecoder → List (Rat × Triple)) (c : StyleDecoder) : Option ComboCurve :=
  if (resultsOf data c.1 c.2).isEmpty then none else some ⟨pts c, (legendOf c.1 c.2).1, (legendOf c.1 c.2).2⟩

theorem comboCasesOf_ok {data : ProblemShotData} {linregress : List ℝ → List ℝ → LineFit} {value : String → LambdaGroup → Search Triple}
    {pts : StyleDecoder → List (Rat × Triple)} {poor : StyleDecoder → List (Rat × ℝ)} {name : String} :
    ∀ (cases : List StyleDecoder) (i : Nat),
      (∀ c ∈ cases, ∀ name i m, "ov*s".toList[i]? = some m → comboCase linregress value data name i c =
        some (.ok (if (resultsOf data c.1 c.2).isEmpty then none else some ⟨pts c, caseLabel c name, m⟩, poor c))) →
      (∀ k c, cases[k]? = some c → caseLabel c name = (legendOf c.1 c.2).1 ∧ "ov*s".toList[i + k]? = some (legendOf c.1 c.2).2) →
      comboCasesOf linregress value data name i cases = some (.ok (cases.filterMap (caseCurve data pts), cases.flatMap poor))
  | [], _, _, _ => rfl
  | c :: rest, i, h, hl => by
    have h0 := hl 0 c rfl
    have h1 := h c List.mem_cons_self name i _ h0.2
    have h2 := comboCasesOf_ok rest (i + 1) (fun c' hc' => h c' (List.mem_cons_of_mem _ hc')) (fun k c' hk => by
      have := hl (k + 1) c' (by simpa using hk)
      rwa [show i + (k + 1) = i + 1 + k by omega] at this)
    rw [h0.1] at h1
    rw [comboCasesOf, h1]
    show ((do
      let (curves, poor') ← comboCasesOf linregress value data name (i + 1) rest
      pure (_, _)) : Search (List ComboCurve × List (Rat × ℝ))) = _
    rw [h2]
    show some (Except.ok (ε := PyErr) (Option.toList _ ++ _, _)) = _
    rw [List.filterMap_cons, List.flatMap_cons, caseCurve]
    cases (resultsOf data c.1 c.2).isEmpty <;> rfl

/-- The labels and markers of the table. -/
theorem legends : ∀ col ∈ comboCases, ∀ k c, col.2[k]? = some c →
    caseLabel c col.1 = (legendOf c.1 c.2).1 ∧ "ov*s".toList[0 + k]? = some (legendOf c.1 c.2).2 := by
  have h : (comboCases.all fun col => col.2.zipIdx.all fun e => decide (caseLabel e.1 col.1 = (legendOf e.1.1 e.1.2).1 ∧
      "ov*s".toList[0 + e.2]? = some (legendOf e.1.1 e.1.2).2)) = true := by decide +kernel
  intro col hcol k c hk
  have := List.all_eq_true.1 (List.all_eq_true.1 h col hcol) (c, k) (List.mem_zipIdx_iff_getElem?.2 hk)
  simpa using this

theorem comboColumns_ok {data : ProblemShotData} {linregress : List ℝ → List ℝ → LineFit}
    {pts : StyleDecoder → List (Rat × Triple)} {poor : StyleDecoder → List (Rat × ℝ)} {update : Bool → List (Rat × ℝ) → Bool}
    {Inv : Bool → Prop} (hupd : ∀ f p, Inv f → Inv (update f p)) :
    ∀ (table : List (String × List StyleDecoder)) (f : Bool), Inv f →
      ∃ cols, (∀ value, (∀ col ∈ table, comboCasesOf linregress value data col.1 0 col.2 =
          some (.ok (col.2.filterMap (caseCurve data pts), col.2.flatMap poor))) →
        comboColumns linregress value update data f table = some (.ok cols)) ∧
        List.Forall₂ (fun col out => out.title = col.1 ∧ out.curves = col.2.filterMap (caseCurve data pts) ∧
          ∃ f, Inv f ∧ out.marked = if update f (col.2.flatMap poor) then some (col.2.flatMap poor) else none) table cols
  | [], _, _ => ⟨[], fun _ _ => rfl, List.Forall₂.nil⟩
  | (name, cases) :: rest, f, hf => by
    obtain ⟨cols, hc, hall⟩ := comboColumns_ok hupd rest (update f (cases.flatMap poor)) (hupd _ _ hf)
    refine ⟨⟨name, cases.filterMap (caseCurve data pts), if update f (cases.flatMap poor) then some (cases.flatMap poor) else none⟩ :: cols,
      ?_, List.Forall₂.cons ⟨rfl, rfl, f, hf, rfl⟩ hall⟩
    intro value h
    have h0 := h _ List.mem_cons_self
    simp only at h0
    rw [comboColumns, h0]
    show ((do
      let cols ← comboColumns linregress value update data (update f (cases.flatMap poor)) rest
      pure (_ :: cols)) : Search (List ComboColumn)) = _
    rw [hc value (fun col hcol => h col (List.mem_cons_of_mem _ hcol))]
    rfl

theorem panel_shows {data : ProblemShotData} {good : String → ProblemShotData → Rat → Triple → Prop}
    {pts : StyleDecoder → List (Rat × Triple)}
    (h : ∀ c : StyleDecoder, ComboShows (resultsOf data c.1 c.2) (good c.1 (resultsOf data c.1 c.2)) (pts c)) :
    ∀ cases : List StyleDecoder, PanelShows data good cases (cases.filterMap (caseCurve data pts))
  | [] => List.Forall₂.nil
  | c :: rest => by
    have ih := panel_shows h rest
    unfold PanelShows at ih ⊢
    cases hD : (resultsOf data c.1 c.2).isEmpty with
    | true =>
      rw [List.filter_cons_of_neg (by simp [hD]), List.filterMap_cons_none (by rw [caseCurve, hD]; rfl)]
      exact ih
    | false =>
      rw [List.filter_cons_of_pos (by simp [hD]), List.filterMap_cons_some (by rw [caseCurve, hD]; rfl)]
      exact List.Forall₂.cons ⟨h c, rfl⟩ ih

/-- The legend separates the cases of a column. -/
theorem legend_inj : ∀ col ∈ comboCases, ∀ c ∈ col.2, ∀ c' ∈ col.2, legendOf c.1 c.2 = legendOf c'.1 c'.2 → c = c' := by
  have h : (comboCases.all fun col => col.2.all fun c => col.2.all fun c' =>
    decide (legendOf c.1 c.2 = legendOf c'.1 c'.2 → c = c')) = true := by decide +kernel
  intro col hcol c hc c' hc'
  exact of_decide_eq_true (List.all_eq_true.1 (List.all_eq_true.1 (List.all_eq_true.1 h col hcol) c hc) c' hc')

theorem marks_shown {data : ProblemShotData} {pts : StyleDecoder → List (Rat × Triple)} {poor : StyleDecoder → List (Rat × ℝ)}
    {col : String × List StyleDecoder} (hcol : col ∈ comboCases)
    (hempty : ∀ c : StyleDecoder, resultsOf data c.1 c.2 = [] → pts c = [])
    (h : ∀ (c : StyleDecoder) p y, (p, y) ∈ poor c ↔ FewDistances (resultsOf data c.1 c.2) p ∧ ∃ t, (p, t) ∈ pts c ∧ t.mid = y) :
    MarksShown data col.2 (col.2.filterMap (caseCurve data pts)) (col.2.flatMap poor) := by
  intro p y
  rw [List.mem_flatMap]
  constructor
  · rintro ⟨c, hc, hm⟩
    obtain ⟨h1, t, ht, hy⟩ := (h c p y).1 hm
    have hD : (resultsOf data c.1 c.2).isEmpty = false := by
      cases hl : resultsOf data c.1 c.2 with
      | nil => rw [hempty c hl] at ht; simp at ht
      | cons => rfl
    exact ⟨c, hc, h1, _, List.mem_filterMap.2 ⟨c, hc, by rw [caseCurve, hD]; rfl⟩, rfl, t, ht, hy⟩
  · rintro ⟨c, hc, h1, curve, hcv, hleg, t, ht, hy⟩
    obtain ⟨c', hc', he⟩ := List.mem_filterMap.1 hcv
    rw [caseCurve] at he
    split at he
    · cases he
    · cases he
      have := legend_inj col hcol c hc c' hc' hleg.symm
      subst this
      exact ⟨c, hc, (h c p y).2 ⟨h1, t, ht, hy⟩⟩

theorem combo_ok {data : ProblemShotData} {linregress : List ℝ → List ℝ → LineFit} (hl : LinregressMinimises linregress)
    (hp : Plottable data) (hk : ∀ e ∈ data, e.1 ∈ allDescs) {value : Nat → String → LambdaGroup → Search Triple}
    {good : String → ProblemShotData → Rat → Triple → Prop}
    (hval : ∀ (c : StyleDecoder) (groups : PyDict Rat LambdaGroup) n g r, GroupsOf (resultsOf data c.1 c.2) groups → (n, g) ∈ groups →
      g.linearFit linregress = .ok r → Falls r.slope r.intercept →
      ∃ fuel t, (∀ fuel', fuel ≤ fuel' → value fuel' c.1 g = some (.ok t)) ∧ good c.1 (resultsOf data c.1 c.2) n t)
    {update : Bool → List (Rat × ℝ) → Bool} {Inv : Bool → Prop} (hupd : ∀ f p, Inv f → Inv (update f p)) (hinv : Inv false) :
    ∃ fuel cols, (∀ fuel', fuel ≤ fuel' → comboColumns linregress (value fuel') update data false comboCases = some (.ok cols)) ∧
      List.Forall₂ (fun col out => out.title = col.1 ∧ PanelShows data good col.2 out.curves ∧
        ∃ f poor, Inv f ∧ out.marked = (if update f poor then some poor else none) ∧ MarksShown data col.2 out.curves poor)
        comboCases cols := by
  choose fuel pts poor h1 h2 h3 using fun c => comboCase_ok (good := good) hl hp hk c (hval c)
  have hempty : ∀ c : StyleDecoder, resultsOf data c.1 c.2 = [] → pts c = [] := by
    intro c hc
    cases hpt : pts c with
    | nil => rfl
    | cons x xs =>
      have := ((h2 c).noises x.1).1 (by rw [hpt]; exact List.mem_cons_self)
      obtain ⟨⟨e, he, -⟩, -⟩ := this
      rw [hc] at he
      simp at he
  have hcases : ∀ fuel', ((comboCases.flatMap Prod.snd).map fuel).sum ≤ fuel' → ∀ col ∈ comboCases,
      comboCasesOf linregress (value fuel') data col.1 0 col.2 =
        some (.ok (col.2.filterMap (caseCurve data pts), col.2.flatMap poor)) := by
    intro fuel' hf' col hcol
    refine comboCasesOf_ok col.2 0 (fun c hc name i m hm => h1 c fuel' (le_trans ?_ hf') name i m hm) (legends col hcol)
    exact List.single_le_sum (by simp) _ (List.mem_map.2 ⟨c, List.mem_flatMap.2 ⟨col, hcol, hc⟩, rfl⟩)
  obtain ⟨cols, hc, hall⟩ := comboColumns_ok (update := update) hupd comboCases false hinv
  refine ⟨_, cols, fun fuel' hf' => hc _ (hcases fuel' hf'), ?_⟩
  · refine List.forall₂_iff_get.2 ⟨hall.length_eq, ?_⟩
    intro i hi hi'
    obtain ⟨a, b, f, c, d⟩ := (List.forall₂_iff_get.1 hall).2 i hi hi'
    refine ⟨a, b ▸ panel_shows h2 _, f, _, c, d, b ▸ marks_shown (List.getElem_mem _) hempty h3⟩

/-- **C87 (the lambda figure).** The figure has three panels, SD6, SI1000 and EM3. A panel has one curve for every pair of style and
decoder of its column with results. The curve of a pair has one point for every noise value at which the errors fall with the
distance, in increasing order, and the point is the factor by which the trend suppresses the errors per distance step of the code,
with the band of `LambdaAt`. The label and the marker of a pair are the same in all panels. -/
theorem c87_lambda {data : ProblemShotData} (hp : Plottable data) (hk : ∀ e ∈ data, e.1 ∈ allDescs)
    {leastsq : (ℝ → ℝ) → ℝ} (hls : LeastsqMinimises leastsq) {linregress : List ℝ → List ℝ → LineFit}
    (hl : LinregressMinimises linregress) {isinf : ℝ → Prop} (hinf : ∀ j : Nat, ¬ isinf (1 * 2 ^ j) ∧ ¬ isinf (-1 * 2 ^ j)) :
    ∃ fuel cols, (∀ fuel', fuel ≤ fuel' → plotLambda leastsq linregress isinf fuel' data = some (.ok cols)) ∧
      cols.map ComboColumn.title = ["SD6", "SI1000", "EM3"] ∧
      List.Forall₂ (fun col out => PanelShows data (fun _ => LambdaAt) col.2 out.curves ∧ out.marked = none) comboColumnsSpec cols := by
  rw [show comboColumnsSpec = comboCases from rfl]
  obtain ⟨fuel, cols, h1, h2⟩ := combo_ok (value := lambdaValue leastsq linregress isinf) (good := fun _ => LambdaAt)
    (update := fun f _ => f) (Inv := fun f => f = false) hl hp hk (by
      intro c groups n g r hG hm hr hf
      obtain ⟨xs, ys, a1, a2, a3, hpos, hpts⟩ := group_points (plottable_results hp _ _) (fun e he => hk e (mem_resultsOf.1 he).1) hG hm
      obtain ⟨r', hr', htr, hreg⟩ := group_trend hl a1 a2 a3 hpos
      cases hr.symm.trans hr'
      obtain ⟨fuel, t, ht, hL⟩ := lambda_value_ok hls hl hinf a1 a2 a3 hpos hpts htr hreg hf
      exact ⟨fuel, t, fun fuel' hf' => ht fuel' hf' c.1, hL⟩) (fun f p h => h) rfl
  refine ⟨fuel, cols, h1, ?_, ?_⟩
  · have : cols.map ComboColumn.title = comboCases.map Prod.fst := by
      apply List.ext_getElem (by simp [h2.length_eq])
      intro i hi hi'
      rw [List.getElem_map, List.getElem_map]
      exact ((List.forall₂_iff_get.1 h2).2 i (by simpa using hi') (by simpa using hi)).1
    rw [this]
    rfl
  · refine h2.imp fun col out h => ?_
    obtain ⟨-, a, f, poor, rfl, hm, -⟩ := h
    exact ⟨a, hm⟩

/-- **C88 (the teraquop figure).** As C87, with the number of qubits at which the trend reaches one error in 10^12 cells. Marked are
exactly the points that rest on fewer than three distances. -/
theorem c88_teraquop {data : ProblemShotData} (hp : Plottable data) (hk : ∀ e ∈ data, e.1 ∈ allDescs)
    {leastsq : (ℝ → ℝ) → ℝ} (hls : LeastsqMinimises leastsq) {linregress : List ℝ → List ℝ → LineFit}
    (hl : LinregressMinimises linregress) {isinf : ℝ → Prop} (hinf : ∀ j : Nat, ¬ isinf (1 * 2 ^ j) ∧ ¬ isinf (-1 * 2 ^ j)) :
    ∃ fuel cols, (∀ fuel', fuel ≤ fuel' → plotTeraquop leastsq linregress isinf fuel' data = some (.ok cols)) ∧
      cols.map ComboColumn.title = ["SD6", "SI1000", "EM3"] ∧
      List.Forall₂ (fun col out => PanelShows data (fun style D => QubitsAt D style) col.2 out.curves ∧
        MarksShown data col.2 out.curves (out.marked.getD [])) comboColumnsSpec cols := by
  rw [show comboColumnsSpec = comboCases from rfl]
  obtain ⟨fuel, cols, h1, h2⟩ := combo_ok (value := teraquopValue leastsq linregress isinf) (good := fun style D => QubitsAt D style)
    (update := fun f p => f || !p.isEmpty) (Inv := fun _ => True) hl hp hk (by
      intro c groups n g r hG hm hr hf
      have hkD : ∀ e ∈ resultsOf data c.1 c.2, e.1 ∈ allDescs := fun e he => hk e (mem_resultsOf.1 he).1
      obtain ⟨xs, ys, a1, a2, a3, hpos, hpts⟩ := group_points (plottable_results hp _ _) hkD hG hm
      obtain ⟨r', hr', htr, hreg⟩ := group_trend hl a1 a2 a3 hpos
      cases hr.symm.trans hr'
      obtain ⟨v, hv⟩ := group_rep hkD hG hm
      exact qubits_value_ok hls hl hinf ((mem_allDescs _).1 (hkD _ hv)) (mem_resultsOf.1 hv).2.1 hr a1 a2 hpos hpts htr hf)
      (fun f p h => h) trivial
  refine ⟨fuel, cols, h1, ?_, ?_⟩
  · have : cols.map ComboColumn.title = comboCases.map Prod.fst := by
      apply List.ext_getElem (by simp [h2.length_eq])
      intro i hi hi'
      rw [List.getElem_map, List.getElem_map]
      exact ((List.forall₂_iff_get.1 h2).2 i (by simpa using hi') (by simpa using hi)).1
    rw [this]
    rfl
  · refine h2.imp fun col out h => ?_
    obtain ⟨-, a, f, poor, -, hm, hs⟩ := h
    refine ⟨a, ?_⟩
    have : out.marked.getD [] = poor := by
      rw [hm]
      cases poor <;> cases f <;> rfl
    rw [this]
    exact hs

/-! ## A concrete case -/

/-- Results for two distances: 244 errors in 1000 shots and 271 errors in 2000 shots. -/
def fallingDemo : ProblemShotData :=
  [(surfaceCodeDesc "SD6" (1 / 1000) "X" 3 "internal", ⟨1000, 756, 1⟩),
   (surfaceCodeDesc "SD6" (1 / 1000) "Z" 3 "internal", ⟨1000, 756, 1⟩),
   (surfaceCodeDesc "SD6" (1 / 1000) "X" 7 "internal", ⟨2000, 1729, 1⟩),
   (surfaceCodeDesc "SD6" (1 / 1000) "Z" 7 "internal", ⟨2000, 1729, 1⟩)]

theorem fallingDemo_collected : ∀ e ∈ fallingDemo, e.1 ∈ allDescs := by
  intro e he
  rw [mem_allDescs]
  simp only [fallingDemo, List.mem_cons, List.not_mem_nil, or_false] at he
  rcases he with rfl | rfl | rfl | rfl <;>
  · refine .surface _ _ _ _ _ ?_ (by simp) (by simp) (by simp) (by simp [DECODERS])
    norm_num [USED_NOISE_VALUES]

theorem fallingDemo_plottable : Plottable fallingDemo := by
  have hc := fun e he => c66_cells _ (fallingDemo_collected e he)
  refine ⟨?_, ?_, ?_, fun e he => ?_, fun e he => ?_⟩
  · simp [fallingDemo, surfaceCodeDesc]
  · simp [fallingDemo]
  · simp [fallingDemo]
  · have := hc e he; omega
  · have := hc e he; omega

theorem fallingDemo_results : resultsOf fallingDemo "surface_SD6" "internal" = fallingDemo := by
  rw [resultsOf, List.filter_eq_self]
  intro e he
  simp only [fallingDemo, List.mem_cons, List.not_mem_nil, or_false] at he
  rcases he with rfl | rfl | rfl | rfl <;> simp [surfaceCodeDesc]

open Classical in
theorem fallingDemo_rate (first : Prop) (d : Int) (r : ℝ) : KindRate fallingDemo (1 / 1000) d first r ↔
    (d = 3 ∧ r = 244 / 1000) ∨ (d = 7 ∧ r = 271 / 2000) := by
  by_cases hf : first
  all_goals
  · simp only [KindRate, fallingDemo, List.mem_cons, List.not_mem_nil, or_false, Prod.mk.injEq, hf, FirstTable]
    constructor
    · rintro (⟨k, v, h1 | h1 | h1 | h1, -, h2, h3, h4⟩ | ⟨h0, k, v, h1 | h1 | h1 | h1, a, h2, h3, h4⟩) <;>
        obtain ⟨rfl, rfl⟩ := h1 <;> simp [surfaceCodeDesc] at h2 h3 h4 <;> subst h2 <;> norm_num at h4 <;> norm_num [h4] <;>
        (exfalso; apply h0; simp [surfaceCodeDesc])
    · rintro (⟨rfl, rfl⟩ | ⟨rfl, rfl⟩) <;> left
      · refine ⟨surfaceCodeDesc "SD6" (1 / 1000) (if first then "X" else "Z") 3 "internal", ⟨1000, 756, 1⟩, ?_, rfl, rfl, ?_, by norm_num⟩ <;>
          simp [surfaceCodeDesc, hf]
      · refine ⟨surfaceCodeDesc "SD6" (1 / 1000) (if first then "X" else "Z") 7 "internal", ⟨2000, 1729, 1⟩, ?_, rfl, rfl, ?_, by norm_num⟩ <;>
          simp [surfaceCodeDesc, hf]

theorem perCell_unique {e q q' : ℝ} (h : IsPerCell e 3 q) (h' : IsPerCell e 3 q') : q = q' :=
  le_antisymm (perCell_mono (by norm_num) le_rfl h h') (perCell_mono (by norm_num) le_rfl h' h)

theorem fallingDemo_points : CellPoints fallingDemo (1 / 1000) [(3, 19 / 100), (7, 975 / 10000)] := by
  have p1 : IsPerCell (244 / 1000) 3 (1 / 10) := by
    rw [IsPerCell, if_pos (by norm_num)]
    norm_num [oddFlips]
  have p2 : IsPerCell (271 / 2000) 3 (1 / 20) := by
    rw [IsPerCell, if_pos (by norm_num)]
    norm_num [oddFlips]
  refine ⟨by simp, fun d y => ?_⟩
  simp only [CellRate, fallingDemo_rate, List.mem_cons, Prod.mk.injEq, List.not_mem_nil, or_false]
  constructor
  · rintro (⟨rfl, rfl⟩ | ⟨rfl, rfl⟩)
    · exact ⟨_, _, _, _, Or.inl ⟨rfl, rfl⟩, Or.inl ⟨rfl, rfl⟩, by norm_num, by norm_num, p1, p1, by norm_num⟩
    · exact ⟨_, _, _, _, Or.inr ⟨rfl, rfl⟩, Or.inr ⟨rfl, rfl⟩, by norm_num, by norm_num, p2, p2, by norm_num⟩
  · rintro ⟨rH, rV, a, b, ⟨rfl, rfl⟩ | ⟨rfl, rfl⟩, h2, -, -, ha, hb, rfl⟩
    · rcases h2 with ⟨-, rfl⟩ | ⟨h, -⟩
      · rw [perCell_unique ha p1, perCell_unique hb p1]
        norm_num
      · norm_num at h
    · rcases h2 with ⟨h, -⟩ | ⟨-, rfl⟩
      · norm_num at h
      · rw [perCell_unique ha p2, perCell_unique hb p2]
        norm_num

theorem fallingDemo_trend {slope intercept : ℝ} (h : IsTrend [(3, 19 / 100), (7, 975 / 10000)] slope intercept) :
    slope * 3 + intercept = Real.log (19 / 100) ∧ slope * 7 + intercept = Real.log (975 / 10000) := by
  rw [IsTrend, if_neg (by simp)] at h
  have := h ((Real.log (975 / 10000) - Real.log (19 / 100)) / 4)
    (Real.log (19 / 100) - 3 * ((Real.log (975 / 10000) - Real.log (19 / 100)) / 4))
  have h0 := sum_sq_zero (logPoints [(3, 19 / 100), (7, 975 / 10000)]) (fun q => slope * q.1 + intercept - q.2) (by
    refine le_trans this (le_of_eq ?_)
    simp [squaredResiduals, logPoints]
    ring)
  have h1 := h0 (3, Real.log (19 / 100)) (by simp [logPoints])
  have h2 := h0 (7, Real.log (975 / 10000)) (by simp [logPoints])
  simp only at h1 h2
  exact ⟨by linarith, by linarith⟩

theorem fallingDemo_suppressed : SuppressedAt fallingDemo (1 / 1000) := by
  obtain ⟨s, i, h⟩ := exists_best_line (pts := logPoints [(3, 19 / 100), (7, 975 / 10000)])
    ⟨(3, Real.log (19 / 100)), by simp [logPoints], (7, Real.log (975 / 10000)), by simp [logPoints], by norm_num⟩
  have ht : IsTrend [(3, 19 / 100), (7, 975 / 10000)] s i := by
    rw [IsTrend, if_neg (by simp)]
    exact h
  refine ⟨⟨_, List.mem_cons_self, rfl⟩, _, s, i, fallingDemo_points, ht, Or.inl ?_⟩
  obtain ⟨h1, h2⟩ := fallingDemo_trend ht
  have l1 : Real.log (975 / 10000) - Real.log (19 / 100) ≤ -1 / 10 := by
    rw [← Real.log_div (by norm_num) (by norm_num)]
    have := Real.log_le_sub_one_of_pos (x := 975 / 10000 / (19 / 100)) (by norm_num)
    norm_num at this ⊢
    linarith
  have l2 : 7 * Real.log (19 / 100) - 3 * Real.log (975 / 10000) < -4 / 10 := by
    have e1 : 7 * Real.log (19 / 100) - 3 * Real.log (975 / 10000) = Real.log ((19 / 100) ^ 7 / (975 / 10000) ^ 3) := by
      rw [Real.log_div (x := (19 / 100) ^ 7) (by norm_num) (by norm_num), Real.log_pow, Real.log_pow]
      norm_num
    rw [e1]
    have := Real.log_le_sub_one_of_pos (x := (19 / 100 : ℝ) ^ 7 / (975 / 10000) ^ 3) (by norm_num)
    norm_num at this ⊢
    linarith
  exact ⟨by linarith, by linarith⟩

theorem fallingDemo_few : FewDistances fallingDemo (1 / 1000) := by
  left
  rw [show distancesOf fallingDemo (1 / 1000) "H" "X" = {3, 7} by
    simp [distancesOf, fallingDemo, surfaceCodeDesc, List.filter_cons]]
  decide

/-- The curves of the panel SD6. -/
def sd6Cases : List StyleDecoder :=
  [("honeycomb_SD6", "internal"), ("honeycomb_SD6", "internal_correlated"), ("surface_SD6", "internal"), ("surface_SD6", "internal_correlated")]

/-- The panel SD6 of data with errors that fall has a point. -/
theorem demo_curve {data : ProblemShotData} (hdata : resultsOf data "surface_SD6" "internal" = data)
    (hnoise : ∀ e ∈ data, e.1.noise = 1 / 1000) (hsup : SuppressedAt data (1 / 1000)) {value : String → ProblemShotData → Rat → Triple → Prop} {cols : List ComboColumn}
    {S : ComboColumn → (String × List StyleDecoder) → Prop}
    (h : List.Forall₂ (fun col out => PanelShows data value col.2 out.curves ∧ S out col) comboColumnsSpec cols) :
    ∃ out ∈ cols, S out ("SD6", sd6Cases) ∧ ∃ curve ∈ out.curves, (curve.label, curve.marker) = ("Surface (Standard)", '*') ∧
      ∃ t, curve.points = [(1 / 1000, t)] ∧ value "surface_SD6" data (1 / 1000) t := by
  cases cols with
  | nil => cases h
  | cons out cols =>
    cases h with
    | cons h0 _ =>
    have hne : (resultsOf data "surface_SD6" "internal").isEmpty = false := by
      rw [hdata]
      obtain ⟨⟨e, he, -⟩, -⟩ := hsup
      cases data with
      | nil => cases he
      | cons => rfl
    have hmem : ("surface_SD6", "internal") ∈ sd6Cases.filter fun c : StyleDecoder => !(resultsOf data c.1 c.2).isEmpty := by
      rw [List.mem_filter]
      exact ⟨by decide, by rw [hne]; rfl⟩
    obtain ⟨i, hi, he⟩ := List.mem_iff_getElem.1 hmem
    have hpanel : PanelShows data value sd6Cases out.curves := h0.1
    have hp := List.forall₂_iff_get.1 hpanel
    obtain ⟨a1, a2⟩ := hp.2 i hi (hp.1 ▸ hi)
    simp only [List.get_eq_getElem] at a1 a2
    rw [he, hdata] at a1
    rw [he] at a2
    refine ⟨out, List.mem_cons_self, h0.2, _, List.getElem_mem _, a2, ?_⟩
    have hin := (a1.noises (1 / 1000)).2 hsup
    have hall : ∀ q ∈ (out.curves[i]'(hp.1 ▸ hi)).points, q.1 = 1 / 1000 := by
      intro q hq
      obtain ⟨⟨e, he, hn⟩, -⟩ := (a1.noises q.1).1 (List.mem_map.2 ⟨q, hq, rfl⟩)
      rw [← hn]
      exact hnoise e he
    have hval := a1.value
    have hsort := a1.sorted
    revert hin hall hval hsort
    generalize (out.curves[i]'(hp.1 ▸ hi)).points = pts
    intro hin hall hval hsort
    match pts, hin, hall, hval, hsort with
    | [], hin, _, _, _ => simp at hin
    | [(p, t)], _, hall, hval, _ =>
      have : p = 1 / 1000 := hall _ List.mem_cons_self
      subst this
      exact ⟨t, rfl, hval _ _ List.mem_cons_self⟩
    | q :: q' :: _, _, hall, _, hsort =>
      have := (List.pairwise_cons.1 hsort).1 q' List.mem_cons_self
      rw [hall q List.mem_cons_self, hall q' (by simp)] at this
      exact absurd this (lt_irrefl _)

theorem fallingDemo_noise : ∀ e ∈ fallingDemo, e.1.noise = 1 / 1000 := by
  intro e he
  simp only [fallingDemo, List.mem_cons, List.not_mem_nil, or_false] at he
  rcases he with rfl | rfl | rfl | rfl <;> rfl

/-- Lambda of the demo data is the square root of 0.19 / 0.0975. -/
theorem fallingDemo_lambda {t : Triple} (h : LambdaAt fallingDemo (1 / 1000) t) : t.mid ^ 2 = (19 / 100) / (975 / 10000) := by
  obtain ⟨pts, s, i, h1, h2, h3, -⟩ := h
  rw [cellPoints_unique h1 fallingDemo_points] at h2
  obtain ⟨e1, e2⟩ := fallingDemo_trend h2
  have a := h3 3
  have b := h3 5
  norm_num at a b
  rw [e1, Real.exp_log (by norm_num)] at a
  rw [e2, Real.exp_log (by norm_num)] at b
  rw [b] at a
  rw [eq_div_iff (by norm_num)]
  linear_combination -a

/-- C87, finding: the figure of lambda factors never marks the points that rest on few distances, although the code collects them. -/
theorem c87_unmarked {leastsq : (ℝ → ℝ) → ℝ} (hls : LeastsqMinimises leastsq) {linregress : List ℝ → List ℝ → LineFit}
    (hl : LinregressMinimises linregress) {isinf : ℝ → Prop} (hinf : ∀ j : Nat, ¬ isinf (1 * 2 ^ j) ∧ ¬ isinf (-1 * 2 ^ j)) :
    ∃ data fuel cols, (∀ fuel', fuel ≤ fuel' → plotLambda leastsq linregress isinf fuel' data = some (.ok cols)) ∧
      ∃ out ∈ cols, ∃ curve ∈ out.curves, curve.label = "Surface (Standard)" ∧
        (∃ t, curve.points = [(1 / 1000, t)] ∧ t.mid ^ 2 = (19 / 100) / (975 / 10000)) ∧
        FewDistances (resultsOf data "surface_SD6" "internal") (1 / 1000) ∧ out.marked = none := by
  obtain ⟨fuel, cols, h1, -, h2⟩ := c87_lambda fallingDemo_plottable fallingDemo_collected hls hl hinf
  obtain ⟨out, ho, hm, curve, hc, hleg, t, ht, hv⟩ := demo_curve fallingDemo_results fallingDemo_noise fallingDemo_suppressed (S := fun out _ => out.marked = none) h2
  exact ⟨fallingDemo, fuel, cols, h1, out, ho, curve, hc, congrArg Prod.fst hleg, ⟨t, ht, fallingDemo_lambda hv⟩,
    by rw [fallingDemo_results]; exact fallingDemo_few, hm⟩

/-- The hypotheses of C87 can be met, and its figure has points. -/
example : ∃ leastsq linregress, ∃ isinf : ℝ → Prop, ∃ fuel cols, plotLambda leastsq linregress isinf fuel fallingDemo = some (.ok cols) ∧
    ∃ out ∈ cols, ∃ curve ∈ out.curves, curve.points ≠ [] := by
  obtain ⟨leastsq, hls⟩ := exists_leastsq
  obtain ⟨linregress, hl⟩ := exists_linregress
  obtain ⟨fuel, cols, h1, -, h2⟩ := c87_lambda (isinf := fun _ => False) fallingDemo_plottable fallingDemo_collected hls hl (by simp)
  obtain ⟨out, ho, -, curve, hc, -, t, ht, -⟩ := demo_curve fallingDemo_results fallingDemo_noise fallingDemo_suppressed (S := fun out _ => out.marked = none) h2
  exact ⟨leastsq, linregress, _, fuel, cols, h1 fuel le_rfl, out, ho, curve, hc, by rw [ht]; simp⟩

/-- The figure of qubit counts marks the same point. -/
example : ∃ leastsq linregress, ∃ isinf : ℝ → Prop, ∃ fuel cols, plotTeraquop leastsq linregress isinf fuel fallingDemo = some (.ok cols) ∧
    ∃ out ∈ cols, ∃ curve ∈ out.curves, ∃ t, curve.points = [(1 / 1000, t)] ∧ (1 / 1000, t.mid) ∈ out.marked.getD [] := by
  obtain ⟨leastsq, hls⟩ := exists_leastsq
  obtain ⟨linregress, hl⟩ := exists_linregress
  obtain ⟨fuel, cols, h1, -, h2⟩ := c88_teraquop (isinf := fun _ => False) fallingDemo_plottable fallingDemo_collected hls hl (by simp)
  obtain ⟨out, ho, hm, curve, hc, hleg, t, ht, -⟩ := demo_curve fallingDemo_results fallingDemo_noise fallingDemo_suppressed
    (S := fun out col => MarksShown fallingDemo col.2 out.curves (out.marked.getD [])) h2
  exact ⟨leastsq, linregress, _, fuel, cols, h1 fuel le_rfl, out, ho, curve, hc, t, ht, (hm _ _).2
    ⟨("surface_SD6", "internal"), by decide, by rw [fallingDemo_results]; exact fallingDemo_few, curve, hc, hleg, t,
      by rw [ht]; exact List.mem_cons_self, rfl⟩⟩

/-- The line fit of the demo data is drawn in the first panel. -/
example : ∃ linregress panels, plotLineFits linregress fallingDemo false = .ok panels ∧
    ∃ p ∈ panels, (p.row, p.col) = (0, 0) ∧ p.title = "SD6" ∧ ∃ q ∈ p.groups, q.points = [(3, 19 / 100), (7, 975 / 10000)] ∧
      q.dashed ≠ none := by
  obtain ⟨linregress, hl⟩ := exists_linregress
  obtain ⟨panels, h1, -, h3, look, -, h4⟩ := c86_panels linregress hl fallingDemo false fallingDemo_plottable fallingDemo_collected
  obtain ⟨p, hp, h0⟩ := h3 0 0 "SD6" "surface_SD6" "internal" ⟨"surface", rfl, Or.inl ⟨rfl, rfl, by decide⟩⟩
  obtain ⟨style, decoder, hs, hshow⟩ := h4 p hp
  have e1 : p.row = 0 := congrArg Prod.fst h0
  have e2 : p.col = 0 := congrArg Prod.snd h0
  rw [e1, e2, shownAt_iff] at hs
  obtain ⟨cases, hs1, hs2⟩ := hs
  obtain ⟨e3, rfl⟩ := Prod.mk.inj (Option.some.inj hs1)
  obtain ⟨rfl, rfl⟩ := Prod.mk.inj (Option.some.inj (Option.some.inj hs2))
  rw [fallingDemo_results] at hshow
  obtain ⟨q, hq, hn⟩ := List.mem_map.1 ((hshow.noises (1 / 1000)).2 fallingDemo_suppressed.1)
  have hpts := hshow.points q hq
  rw [hn] at hpts
  have epts := cellPoints_unique hpts fallingDemo_points
  obtain ⟨s, i, ht, hf, -⟩ := hshow.dashed q hq
  obtain ⟨-, pts, s', i', b1, b2, b3⟩ := fallingDemo_suppressed
  obtain ⟨rfl, rfl⟩ := trend_unique hpts b1 ht b2
  obtain ⟨x1, x2, hd, -⟩ := hf b3
  exact ⟨linregress, panels, h1, p, hp, h0, e3.symm, q, hq, epts, by rw [hd]; simp⟩

/-! ## A point outside of its band -/

/-- Results for three distances that are not quite on a line. -/
def scatteredDemo : ProblemShotData :=
  [(surfaceCodeDesc "SD6" (1 / 1000) "X" 3 "internal", ⟨1000, 756, 1⟩),
   (surfaceCodeDesc "SD6" (1 / 1000) "Z" 3 "internal", ⟨1000, 756, 1⟩),
   (surfaceCodeDesc "SD6" (1 / 1000) "X" 7 "internal", ⟨1000, 756, 1⟩),
   (surfaceCodeDesc "SD6" (1 / 1000) "Z" 7 "internal", ⟨1000, 756, 1⟩),
   (surfaceCodeDesc "SD6" (1 / 1000) "X" 11 "internal", ⟨2000, 1729, 1⟩),
   (surfaceCodeDesc "SD6" (1 / 1000) "Z" 11 "internal", ⟨2000, 1729, 1⟩)]

theorem scatteredDemo_collected : ∀ e ∈ scatteredDemo, e.1 ∈ allDescs := by
  intro e he
  rw [mem_allDescs]
  simp only [scatteredDemo, List.mem_cons, List.not_mem_nil, or_false] at he
  rcases he with rfl | rfl | rfl | rfl | rfl | rfl <;>
  · refine .surface _ _ _ _ _ ?_ (by simp) (by simp) (by simp) (by simp [DECODERS])
    norm_num [USED_NOISE_VALUES]

theorem scatteredDemo_plottable : Plottable scatteredDemo := by
  have hc := fun e he => c66_cells _ (scatteredDemo_collected e he)
  refine ⟨?_, ?_, ?_, fun e he => ?_, fun e he => ?_⟩
  · simp [scatteredDemo, surfaceCodeDesc]
  · simp [scatteredDemo]
  · simp [scatteredDemo]
  · have := hc e he; omega
  · have := hc e he; omega

theorem scatteredDemo_results : resultsOf scatteredDemo "surface_SD6" "internal" = scatteredDemo := by
  rw [resultsOf, List.filter_eq_self]
  intro e he
  simp only [scatteredDemo, List.mem_cons, List.not_mem_nil, or_false] at he
  rcases he with rfl | rfl | rfl | rfl | rfl | rfl <;> simp [surfaceCodeDesc]

theorem scatteredDemo_noise : ∀ e ∈ scatteredDemo, e.1.noise = 1 / 1000 := by
  intro e he
  simp only [scatteredDemo, List.mem_cons, List.not_mem_nil, or_false] at he
  rcases he with rfl | rfl | rfl | rfl | rfl | rfl <;> rfl

open Classical in
theorem scatteredDemo_rate (first : Prop) (d : Int) (r : ℝ) : KindRate scatteredDemo (1 / 1000) d first r ↔
    (d = 3 ∧ r = 244 / 1000) ∨ (d = 7 ∧ r = 244 / 1000) ∨ (d = 11 ∧ r = 271 / 2000) := by
  by_cases hf : first
  all_goals
  · simp only [KindRate, scatteredDemo, List.mem_cons, List.not_mem_nil, or_false, Prod.mk.injEq, hf, FirstTable]
    constructor
    · rintro (⟨k, v, h1 | h1 | h1 | h1 | h1 | h1, -, h2, h3, h4⟩ | ⟨h0, k, v, h1 | h1 | h1 | h1 | h1 | h1, a, h2, h3, h4⟩) <;>
        obtain ⟨rfl, rfl⟩ := h1 <;> simp [surfaceCodeDesc] at h2 h3 h4 <;> subst h2 <;> norm_num at h4 <;> norm_num [h4] <;>
        (exfalso; apply h0; simp [surfaceCodeDesc])
    · rintro (⟨rfl, rfl⟩ | ⟨rfl, rfl⟩ | ⟨rfl, rfl⟩) <;> left
      · refine ⟨surfaceCodeDesc "SD6" (1 / 1000) (if first then "X" else "Z") 3 "internal", ⟨1000, 756, 1⟩, ?_, rfl, rfl, ?_, by norm_num⟩ <;>
          simp [surfaceCodeDesc, hf]
      · refine ⟨surfaceCodeDesc "SD6" (1 / 1000) (if first then "X" else "Z") 7 "internal", ⟨1000, 756, 1⟩, ?_, rfl, rfl, ?_, by norm_num⟩ <;>
          simp [surfaceCodeDesc, hf]
      · refine ⟨surfaceCodeDesc "SD6" (1 / 1000) (if first then "X" else "Z") 11 "internal", ⟨2000, 1729, 1⟩, ?_, rfl, rfl, ?_, by norm_num⟩ <;>
          simp [surfaceCodeDesc, hf]

theorem scatteredDemo_points : CellPoints scatteredDemo (1 / 1000) [(3, 19 / 100), (7, 19 / 100), (11, 975 / 10000)] := by
  have p1 : IsPerCell (244 / 1000) 3 (1 / 10) := by
    rw [IsPerCell, if_pos (by norm_num)]
    norm_num [oddFlips]
  have p2 : IsPerCell (271 / 2000) 3 (1 / 20) := by
    rw [IsPerCell, if_pos (by norm_num)]
    norm_num [oddFlips]
  refine ⟨by simp, fun d y => ?_⟩
  simp only [CellRate, scatteredDemo_rate, List.mem_cons, Prod.mk.injEq, List.not_mem_nil, or_false]
  constructor
  · rintro (⟨rfl, rfl⟩ | ⟨rfl, rfl⟩ | ⟨rfl, rfl⟩)
    · exact ⟨_, _, _, _, Or.inl ⟨rfl, rfl⟩, Or.inl ⟨rfl, rfl⟩, by norm_num, by norm_num, p1, p1, by norm_num⟩
    · exact ⟨_, _, _, _, Or.inr (Or.inl ⟨rfl, rfl⟩), Or.inr (Or.inl ⟨rfl, rfl⟩), by norm_num, by norm_num, p1, p1, by norm_num⟩
    · exact ⟨_, _, _, _, Or.inr (Or.inr ⟨rfl, rfl⟩), Or.inr (Or.inr ⟨rfl, rfl⟩), by norm_num, by norm_num, p2, p2, by norm_num⟩
  · rintro ⟨rH, rV, a, b, ⟨rfl, rfl⟩ | ⟨rfl, rfl⟩ | ⟨rfl, rfl⟩, ⟨h, rfl⟩ | ⟨h, rfl⟩ | ⟨h, rfl⟩, -, -, ha, hb, rfl⟩ <;>
    first
      | (norm_num at h; done)
      | (rw [perCell_unique ha p1, perCell_unique hb p1]; norm_num; done)
      | (rw [perCell_unique ha p2, perCell_unique hb p2]; norm_num; done)

/-- The sum of squares as a function of the line. -/
theorem scattered_cost (L M s i : ℝ) : squaredResiduals [(3, L), (7, L), (11, M)] s i =
    squaredResiduals [(3, L), (7, L), (11, M)] (-(L - M) / 8) ((2 * L + M) / 3 + 7 * (L - M) / 8) +
      3 * (i + 7 * s - (2 * L + M) / 3) ^ 2 + 32 * (s + (L - M) / 8) ^ 2 := by
  simp [squaredResiduals]
  ring

theorem scattered_cost_swap (L M m k : ℝ) (h : L ≠ M) : squaredResiduals [(L, 3), (L, 7), (M, 11)] m k =
    8 + 3 * (k + m * ((2 * L + M) / 3) - 7) ^ 2 + 2 / 3 * (m * (L - M) + 6) ^ 2 := by
  simp [squaredResiduals]
  ring

theorem scatteredDemo_trend {s i : ℝ} (h : IsTrend [(3, 19 / 100), (7, 19 / 100), (11, 975 / 10000)] s i) :
    s = -(Real.log (19 / 100) - Real.log (975 / 10000)) / 8 ∧
      i = (2 * Real.log (19 / 100) + Real.log (975 / 10000)) / 3 + 7 * (Real.log (19 / 100) - Real.log (975 / 10000)) / 8 := by
  rw [IsTrend, if_neg (by simp)] at h
  have e : logPoints [(3, 19 / 100), (7, 19 / 100), (11, 975 / 10000)] =
      [(3, Real.log (19 / 100)), (7, Real.log (19 / 100)), (11, Real.log (975 / 10000))] := by simp [logPoints]
  rw [e] at h
  generalize Real.log (19 / 100) = L at *
  generalize Real.log (975 / 10000) = M at *
  have h1 := h (-(L - M) / 8) ((2 * L + M) / 3 + 7 * (L - M) / 8)
  rw [scattered_cost L M s i] at h1
  have a1 := sq_nonneg (i + 7 * s - (2 * L + M) / 3)
  have a2 := sq_nonneg (s + (L - M) / 8)
  have b2 : s + (L - M) / 8 = 0 := pow_eq_zero_iff two_ne_zero |>.1 (by linarith)
  have b1 : i + 7 * s - (2 * L + M) / 3 = 0 := pow_eq_zero_iff two_ne_zero |>.1 (by linarith)
  exact ⟨by linarith, by linarith⟩

theorem log_gap : 0 < Real.log (19 / 100) - Real.log (975 / 10000) ∧ 1 / 5 ≤ Real.log (19 / 100) - Real.log (975 / 10000) ∧
    3 * (Real.log (19 / 100) - Real.log (975 / 10000)) ≤
      (2 * Real.log (19 / 100) + Real.log (975 / 10000)) / 3 - Real.log (1 / 10 ^ 12) ∧
    (2 * Real.log (19 / 100) + Real.log (975 / 10000)) / 3 + 7 * (Real.log (19 / 100) - Real.log (975 / 10000)) / 8 < -1 / 10 := by
  have hgap : 1 / 5 ≤ Real.log (19 / 100) - Real.log (975 / 10000) := by
    rw [← Real.log_div (by norm_num) (by norm_num)]
    have := Real.log_le_sub_one_of_pos (x := 975 / 10000 / (19 / 100)) (by norm_num)
    have e : Real.log (19 / 100 / (975 / 10000)) = -Real.log (975 / 10000 / (19 / 100)) := by
      rw [← Real.log_inv]; norm_num
    rw [e]
    norm_num at this ⊢
    linarith
  have hle : ∀ x y : ℝ, 0 < x → x ≤ y → Real.log x ≤ Real.log y := fun x y hx hxy => Real.log_le_log hx hxy
  refine ⟨by linarith, hgap, ?_, ?_⟩
  · have : Real.log ((19 / 100) ^ 7 * (1 / 10 ^ 12) ^ 3) ≤ Real.log ((975 / 10000) ^ 10) := hle _ _ (by norm_num) (by norm_num)
    rw [Real.log_mul (by norm_num) (by norm_num), Real.log_pow, Real.log_pow, Real.log_pow] at this
    push_cast at this
    linarith
  · have e1 : Real.log ((19 / 100) ^ 37 / (975 / 10000) ^ 13) = 37 * Real.log (19 / 100) - 13 * Real.log (975 / 10000) := by
      rw [Real.log_div (x := (19 / 100) ^ 37) (by norm_num) (by norm_num), Real.log_pow, Real.log_pow]
      norm_num
    have e2 := Real.log_le_log (x := (19 / 100 : ℝ) ^ 37 / (975 / 10000) ^ 13) (y := (1 / 5) ^ 10) (by norm_num) (by norm_num)
    have e3 := Real.log_le_sub_one_of_pos (x := (1 / 5 : ℝ)) (by norm_num)
    rw [e1, Real.log_pow] at e2
    push_cast at e2
    linarith

theorem scatteredDemo_suppressed : SuppressedAt scatteredDemo (1 / 1000) := by
  obtain ⟨s, i, h⟩ := exists_best_line (pts := logPoints [(3, 19 / 100), (7, 19 / 100), (11, 975 / 10000)])
    ⟨(3, Real.log (19 / 100)), by simp [logPoints], (11, Real.log (975 / 10000)), by simp [logPoints], by norm_num⟩
  have ht : IsTrend [(3, 19 / 100), (7, 19 / 100), (11, 975 / 10000)] s i := by
    rw [IsTrend, if_neg (by simp)]
    exact h
  refine ⟨⟨_, List.mem_cons_self, rfl⟩, _, s, i, scatteredDemo_points, ht, Or.inl ?_⟩
  obtain ⟨rfl, rfl⟩ := scatteredDemo_trend ht
  obtain ⟨-, a, -, b⟩ := log_gap
  exact ⟨by linarith, b⟩

theorem scattered_bounds {A B z d2 : ℝ} (hz : 3 ≤ z) (hd : d2 = 7 + 6 * z + A - B * z) (h : 3 * A ^ 2 + 2 / 3 * B ^ 2 ≤ 1 + 1 / 100000) :
    0 < d2 ∧ d2 + 1 < 7 + 8 * z := by
  have hA := abs_le.1 (abs_le_of_sq_le_sq (a := A) (b := 6 / 10) (by nlinarith [sq_nonneg B]) (by norm_num))
  have hB := abs_le.1 (abs_le_of_sq_le_sq (a := B) (b := 123 / 100) (by nlinarith [sq_nonneg A]) (by norm_num))
  have h1 : B * z ≤ 123 / 100 * z := mul_le_mul_of_nonneg_right hB.2 (by linarith)
  have h2 : -(123 / 100) * z ≤ B * z := mul_le_mul_of_nonneg_right hB.1 (by linarith)
  constructor <;> linarith [hA.1, hA.2]

theorem scatteredDemo_outside {t : Triple} (h : QubitsAt scatteredDemo "surface_SD6" (1 / 1000) t) : t.high < t.mid := by
  obtain ⟨pts, s, i, h1, h2, ⟨d, hd1, -, hd2⟩, d1, d2, base, v1, v2, -, -, hq, hbase, -, -, hv2, hv⟩ := h
  rw [cellPoints_unique h1 scatteredDemo_points] at h2 hbase hv2
  obtain ⟨hs, hi⟩ := scatteredDemo_trend h2
  obtain ⟨g1, -, g2, -⟩ := log_gap
  have hlog : s * d + i ≤ Real.log (1 / 10 ^ 12) := by
    have := Real.log_le_log (Real.exp_pos _) hd1
    rwa [Real.log_exp] at this
  have e : (logPoints [(3, 19 / 100), (7, 19 / 100), (11, 975 / 10000)]).map Prod.swap =
      [(Real.log (19 / 100), 3), (Real.log (19 / 100), 7), (Real.log (975 / 10000), 11)] := by simp [logPoints]
  rw [e] at hbase hv2
  rw [hs, hi] at hlog
  generalize Real.log (19 / 100) = L at *
  generalize Real.log (975 / 10000) = M at *
  generalize Real.log (1 / 10 ^ 12) = X at *
  have hne : L ≠ M := by
    intro h
    rw [h] at g1
    linarith
  have hb : base ≤ 8 := by
    have := hbase.2 (-6 / (L - M)) (7 + 6 / (L - M) * ((2 * L + M) / 3))
    rw [scattered_cost_swap _ _ _ _ hne] at this
    have z1 : 7 + 6 / (L - M) * ((2 * L + M) / 3) + -6 / (L - M) * ((2 * L + M) / 3) - 7 = 0 := by ring
    have z2 : -6 / (L - M) * (L - M) + 6 = 0 := by field_simp; ring
    rw [z1, z2] at this
    linarith
  obtain ⟨⟨m, k, hmk, hcost⟩, -⟩ := hv2
  rw [scattered_cost_swap _ _ _ _ hne] at hcost
  have hvle := (abs_le.1 hv).2
  obtain ⟨z, hz⟩ : ∃ z, z * (L - M) = (2 * L + M) / 3 - X := ⟨((2 * L + M) / 3 - X) / (L - M), by field_simp⟩
  have hz3 : 3 ≤ z := by
    by_contra hlt
    push_neg at hlt
    nlinarith
  have hd2e : d2 = 7 + 6 * z + (k + m * ((2 * L + M) / 3) - 7) - (m * (L - M) + 6) * z := by
    rw [← hmk]
    linear_combination m * hz
  have hdz : 7 + 8 * z ≤ d := by
    by_contra hlt
    push_neg at hlt
    have : (7 + 8 * z - d) * (L - M) > 0 := mul_pos (by linarith) g1
    nlinarith
  obtain ⟨hlow, hup'⟩ := scattered_bounds hz3 hd2e (by linarith)
  have hup : d2 + 1 < d := by linarith
  have hc1 : (⌈d2⌉ : ℝ) < d := lt_trans (Int.ceil_lt_add_one d2) hup
  have hc0 : (0 : ℝ) < ⌈d2⌉ := lt_of_lt_of_le hlow (Int.le_ceil d2)
  have hm : t.mid = 2 * (d : ℝ) ^ 2 - 1 := by
    rcases hd2 with ⟨-, h⟩ | ⟨h | h, -⟩ | ⟨h, -⟩
    · exact h
    all_goals exact absurd h (by decide)
  have hh : t.high = 2 * (⌈d2⌉ : ℝ) ^ 2 - 1 := by
    rcases hq with ⟨-, h⟩ | ⟨h | h, -⟩ | ⟨h, -⟩
    · exact h
    all_goals exact absurd h (by decide)
  rw [hm, hh]
  nlinarith

/-- C88, finding: the point need not lie in its band, because the band belongs to the regression of the distance on the logarithmic error
rate, and the point to that of the logarithmic error rate on the distance. For the demo data both ends of the band are below the point. -/
theorem c88_outside {leastsq : (ℝ → ℝ) → ℝ} (hls : LeastsqMinimises leastsq) {linregress : List ℝ → List ℝ → LineFit}
    (hl : LinregressMinimises linregress) {isinf : ℝ → Prop} (hinf : ∀ j : Nat, ¬ isinf (1 * 2 ^ j) ∧ ¬ isinf (-1 * 2 ^ j)) :
    ∃ data fuel cols, (∀ e ∈ data, e.1 ∈ allDescs) ∧ Plottable data ∧
      (∀ fuel', fuel ≤ fuel' → plotTeraquop leastsq linregress isinf fuel' data = some (.ok cols)) ∧
      ∃ out ∈ cols, ∃ curve ∈ out.curves, ∃ t, curve.points = [(1 / 1000, t)] ∧ t.high < t.mid := by
  obtain ⟨fuel, cols, h1, -, h2⟩ := c88_teraquop scatteredDemo_plottable scatteredDemo_collected hls hl hinf
  obtain ⟨out, ho, -, curve, hc, -, t, ht, hv⟩ := demo_curve scatteredDemo_results scatteredDemo_noise scatteredDemo_suppressed
    (S := fun out col => MarksShown scatteredDemo col.2 out.curves (out.marked.getD [])) h2
  exact ⟨_, fuel, cols, scatteredDemo_collected, scatteredDemo_plottable, h1, out, ho, curve, hc, t, ht, scatteredDemo_outside hv⟩

end Honeycomb
