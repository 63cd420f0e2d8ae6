import Verif.Model.Figures
import Verif.Props.Plot
import Verif.Props.Projection

/-!
# The panels of the figures: C71, C72

`ShowsData` and `Plottable` are defined in `Verif/Spec/Plot.lean`.
-/

namespace Honeycomb

/-! ## C71 -/

theorem get_group {κ : Type} [DecidableEq κ] (le : κ → κ → Bool) (key : DecodingProblemDesc → κ) {data : ProblemShotData}
    (hn : (data.map Prod.fst).Nodup) (k : κ) : ((groupedBy le key data).get? k).getD [] = data.filter fun e => decide (key e.1 = k) := by
  rw [c51_grouped le key data hn]
  split_ifs with h
  · exact h.symm
  · rfl

theorem plottable_filter {data : ProblemShotData} (hp : Plottable data) (p : DecodingProblemDesc × ShotData → Bool) :
    Plottable (data.filter p) where
  nodup := hp.nodup.sublist (List.Sublist.map _ List.filter_sublist)
  shots := fun e he => hp.shots e (List.mem_of_mem_filter he)
  correct := fun e he => hp.correct e (List.mem_of_mem_filter he)
  rounds := fun e he => hp.rounds e (List.mem_of_mem_filter he)
  distance := fun e he => hp.distance e (List.mem_of_mem_filter he)

theorem collected_noise {k : DecodingProblemDesc} (h : Collected k) {p : Rat} (hp : p ∈ USED_NOISE_VALUES) :
    Collected { k with noise := p } := by
  cases h with
  | honeycomb p' u style obs decoder hp' hu hs ho hd => exact .honeycomb p u style obs decoder hp hu hs ho hd
  | surface p' d noise_name obs decoder hp' hd hs ho hdec => exact .surface p d noise_name obs decoder hp hd hs ho hdec

theorem collected_used {k : DecodingProblemDesc} (h : Collected k) : k.noise ∈ USED_NOISE_VALUES := by
  cases h <;> assumption

theorem collected_style {k : DecodingProblemDesc} (h : Collected k) : k.circuit_style ∈ fractionStyles := by
  cases h with
  | honeycomb p u style obs decoder hp hu hs ho hd =>
    show "honeycomb_" ++ style ∈ _
    rcases hs with rfl | rfl | rfl <;> decide
  | surface p d noise_name obs decoder hp hd hs ho hdec =>
    show "surface_" ++ noise_name ∈ _
    rcases hs with rfl | rfl <;> decide

theorem collected_distance {k : DecodingProblemDesc} (h : Collected k) :
    k.code_distance ∈ ([4, 8, 12, 16, 20, 3, 7, 11, 15, 19] : List Int).toFinset := by
  cases h with
  | honeycomb p u style obs decoder hp hu hs ho hd =>
    have : (HoneycombLayout.asDecoderProblemDesc ⟨u * 4, u * 6, u * 3 * 4 * 3, style, obs, p⟩ decoder).code_distance = u * 4 := by
      show min (u * 4) (u * 6 / 3 * 2) = _
      omega
    rw [this, List.mem_toFinset]
    simp only [List.mem_cons, List.not_mem_nil, or_false]
    omega
  | surface p d noise_name obs decoder hp hd hs ho hdec =>
    rw [List.mem_toFinset]
    simp only [List.mem_cons, List.not_mem_nil, or_false] at hd ⊢
    show d = _ ∨ _
    tauto

theorem few_curves {data : ProblemShotData} (hk : ∀ e ∈ data, e.1 ∈ allDescs) (c : Case) (hc : ∀ e ∈ data, caseOf e.1 = c) :
    (data.map fun e => { e.1 with noise := 0 }).toFinset.card ≤ 10 := by
  have : (([4, 8, 12, 16, 20, 3, 7, 11, 15, 19] : List Int).toFinset).card = 10 := by decide
  rw [← this]
  refine Finset.card_le_card_of_injOn DecodingProblemDesc.code_distance ?_ ?_
  · intro k hk'
    rw [Finset.mem_coe, List.mem_toFinset, List.mem_map] at hk'
    obtain ⟨e, he, rfl⟩ := hk'
    exact collected_distance (k := e.1) ((mem_allDescs _).1 (hk e he))
  · intro a ha b hb hab
    rw [Finset.mem_coe, List.mem_toFinset, List.mem_map] at ha hb
    obtain ⟨e, he, rfl⟩ := ha
    obtain ⟨e', he', rfl⟩ := hb
    have h1 := (mem_allDescs _).1 (hk e he)
    have h2 := (mem_allDescs _).1 (hk e' he')
    have hcase : caseOf e.1 = caseOf e'.1 := (hc e he).trans (hc e' he').symm
    simp only [caseOf, Prod.mk.injEq] at hcase
    have := c66_determined { e.1 with noise := e'.1.noise } e'.1 ((mem_allDescs _).2 (collected_noise h1 (collected_used h2))) (hk e' he')
      hcase.1 hcase.2.2 ⟨rfl, by simp only; rw [hcase.2.1], hab⟩
    rw [← this]

theorem plotData_shows {data : ProblemShotData} (hp : Plottable data) (off : Nat)
    (hcount : (data.map fun e => { e.1 with noise := 0 }).toFinset.card + off ≤ 30) :
    ∃ curves, plotData data off = .ok curves ∧ ShowsData data curves := by
  obtain ⟨keys, curves, h, h'⟩ := c70_curves data off hp hcount
  exact ⟨curves, h, keys, h'⟩

theorem thresholdRows_eq {groups : PyDict Case ProblemShotData} {f : Case → List Curve}
    (hf : ∀ c, plotData ((groups.get? c).getD []) (if pyIn c.2.1 "XZ" then 4 else 0) = .ok (f c)) (col : Nat) (name : String) :
    ∀ (cases : List (Option Case)) (row : Nat), thresholdRows groups col name row cases =
      .ok ((cases.zipIdx row).filterMap fun x => x.1.map fun c => ⟨x.2, col, name, f c⟩) := by
  intro cases
  induction cases with
  | nil => intro row; rfl
  | cons c cases ih =>
    intro row
    cases c with
    | none => rw [thresholdRows, ih, List.zipIdx_cons, List.filterMap_cons]; rfl
    | some c =>
      simp only [thresholdRows, thresholdPanel, hf, ih, bind, Except.bind, pure, Except.pure, List.zipIdx_cons, List.filterMap_cons,
        Option.map_some]

theorem thresholdCols_eq {groups : PyDict Case ProblemShotData} {f : Case → List Curve}
    (hf : ∀ c, plotData ((groups.get? c).getD []) (if pyIn c.2.1 "XZ" then 4 else 0) = .ok (f c)) :
    ∀ (table : List (String × List (Option Case))) (col : Nat), thresholdCols groups col table =
      .ok ((table.zipIdx col).flatMap fun y => (y.1.2.zipIdx 0).filterMap fun x => x.1.map fun c => ⟨x.2, y.2, y.1.1, f c⟩) := by
  intro table
  induction table with
  | nil => intro col; rfl
  | cons c table ih =>
    intro col
    obtain ⟨name, cases⟩ := c
    simp only [thresholdCols, thresholdRows_eq hf, ih, bind, Except.bind, pure, Except.pure, List.zipIdx_cons, List.flatMap_cons]

/-- C71: with data of the collection script both threshold figures can be drawn. The panels are those of the table; each
shows exactly the data with its circuit style, observable and decoder, below the name of its column. -/
theorem c71_panels (data : ProblemShotData) (focused : Bool) (hp : Plottable data) (hk : ∀ e ∈ data, e.1 ∈ allDescs) :
    ∃ panels, plotThresholds data focused = .ok panels ∧ (panels.map fun p => (p.row, p.col)).Nodup ∧
      (∀ row col, (row, col) ∈ panels.map (fun p => (p.row, p.col)) ↔
        ∃ name cases c, (thresholdCases focused)[col]? = some (name, cases) ∧ cases[row]? = some (some c)) ∧
      ∀ p ∈ panels, ∃ cases c, (thresholdCases focused)[p.col]? = some (p.title, cases) ∧ cases[p.row]? = some (some c) ∧
        ShowsData (data.filter fun e => decide (e.1.circuit_style = c.1 ∧ e.1.preserved_observable = c.2.1 ∧ e.1.decoder = c.2.2)) p.curves := by
  have hpanel : ∀ c : Case, ∃ curves, plotData (data.filter fun e => decide (caseOf e.1 = c)) (if pyIn c.2.1 "XZ" then 4 else 0) = .ok curves ∧
      ShowsData (data.filter fun e => decide (caseOf e.1 = c)) curves := by
    intro c
    refine plotData_shows (plottable_filter hp _) _ ?_
    have := few_curves (data := data.filter fun e => decide (caseOf e.1 = c)) (fun e he => hk e (List.mem_of_mem_filter he)) c
      (fun e he => by simpa using (List.mem_filter.1 he).2)
    split_ifs <;> omega
  choose f hf hshow using hpanel
  have heq : plotThresholds data focused = _ := thresholdCols_eq (f := f) (fun c => by rw [get_group caseLe caseOf hp.nodup]; exact hf c)
    (thresholdCases focused) 0
  refine ⟨_, heq, ?_, ?_, ?_⟩
  · rw [List.map_flatMap]
    have : (fun y : (String × List (Option Case)) × Nat => ((y.1.2.zipIdx 0).filterMap fun x => x.1.map fun c =>
          (⟨x.2, y.2, y.1.1, f c⟩ : Panel)).map fun p => (p.row, p.col)) =
        fun y => (y.1.2.zipIdx 0).filterMap fun x => x.1.map fun _ => (x.2, y.2) := by
      funext y
      rw [List.map_filterMap]
      congr 1
      funext x
      cases x.1 <;> rfl
    simp only [this]
    cases focused <;> decide
  · intro row col
    simp only [List.mem_map, List.mem_flatMap, List.mem_filterMap, Option.map_eq_some_iff]
    constructor
    · rintro ⟨p, ⟨⟨⟨name, cases⟩, col'⟩, h1, ⟨c', row'⟩, h2, c, h3, rfl⟩, h4⟩
      simp only at h2 h3 h4
      subst h3
      cases h4
      rw [List.mem_zipIdx_iff_getElem?] at h1 h2
      exact ⟨name, cases, c, h1, h2⟩
    · rintro ⟨name, cases, c, h1, h2⟩
      exact ⟨_, ⟨((name, cases), col), List.mem_zipIdx_iff_getElem?.2 h1, (some c, row), List.mem_zipIdx_iff_getElem?.2 h2, c, rfl, rfl⟩, rfl⟩
  · intro p hp'
    simp only [List.mem_flatMap, List.mem_filterMap, Option.map_eq_some_iff] at hp'
    obtain ⟨⟨⟨name, cases⟩, col'⟩, h1, ⟨c', row'⟩, h2, c, h3, rfl⟩ := hp'
    simp only at h2 h3
    subst h3
    rw [List.mem_zipIdx_iff_getElem?] at h1 h2
    refine ⟨cases, c, h1, h2, ?_⟩
    have : (fun e : DecodingProblemDesc × ShotData =>
        decide (e.1.circuit_style = c.1 ∧ e.1.preserved_observable = c.2.1 ∧ e.1.decoder = c.2.2)) = fun e => decide (caseOf e.1 = c) := by
      funext e
      obtain ⟨c1, c2, c3⟩ := c
      simp [caseOf]
    rw [this]
    exact hshow c

/-- An entry of the table of the full figure. -/
def tableEntry (col row : Nat) : Option Case := ((allThresholdCases[col]?).bind fun x => x.2[row]?).join

theorem tableEntry_iff (col row : Nat) (c : Case) : tableEntry col row = some c ↔
    ∃ name cases, (thresholdCases false)[col]? = some (name, cases) ∧ cases[row]? = some (some c) := by
  simp only [tableEntry, Option.join_eq_some_iff, Option.bind_eq_some_iff, Prod.exists]
  rfl

theorem tableEntry_range {col row : Nat} {c : Case} (h : tableEntry col row = some c) : col < 3 ∧ row < 8 := by
  rw [tableEntry_iff] at h
  obtain ⟨name, cases, h1, h2⟩ := h
  have hc : col < 3 := (List.getElem?_eq_some_iff.1 h1).1
  have hlen : ∀ x ∈ thresholdCases false, x.2.length = 8 := by decide
  have := hlen _ (List.mem_of_getElem? h1)
  exact ⟨hc, by rw [← this]; exact (List.getElem?_eq_some_iff.1 h2).1⟩

set_option maxRecDepth 20000 in
theorem tableEntry_inj : ∀ (col col' : Fin 3) (row row' : Fin 8), tableEntry col row ≠ none → tableEntry col row = tableEntry col' row' →
    row = row' ∧ col = col' := by decide

/-- C71: every problem of the collection script has exactly one panel in the full figure, and its column is named after its noise
model. -/
theorem c71_complete (k : DecodingProblemDesc) (hk : k ∈ allDescs) :
    (∃! rc : Nat × Nat, ∃ name cases, (thresholdCases false)[rc.2]? = some (name, cases) ∧
      cases[rc.1]? = some (some (k.circuit_style, k.preserved_observable, k.decoder))) ∧
    ∀ (row col : Nat) (name : String) (cases : List (Option Case)), (thresholdCases false)[col]? = some (name, cases) →
      cases[row]? = some (some (k.circuit_style, k.preserved_observable, k.decoder)) →
      k.circuit_style = "surface_" ++ name ∨ k.circuit_style = "honeycomb_" ++ name ∨ k.circuit_style = "honeycomb_" ++ name ++ "_v2" := by
  constructor
  · have hex : ∃ col row : Nat, tableEntry col row = some (caseOf k) := by
      rw [mem_allDescs] at hk
      cases hk with
      | honeycomb p u style obs decoder hp hu hs ho hd =>
        simp only [DECODERS, List.mem_cons, List.not_mem_nil, or_false] at hd
        rcases hs with rfl | rfl | rfl <;> rcases ho with rfl | rfl <;> rcases hd with rfl | rfl
        · exact ⟨1, 5, rfl⟩
        · exact ⟨1, 7, rfl⟩
        · exact ⟨1, 4, rfl⟩
        · exact ⟨1, 6, rfl⟩
        · exact ⟨0, 5, rfl⟩
        · exact ⟨0, 7, rfl⟩
        · exact ⟨0, 4, rfl⟩
        · exact ⟨0, 6, rfl⟩
        · exact ⟨2, 5, rfl⟩
        · exact ⟨2, 7, rfl⟩
        · exact ⟨2, 4, rfl⟩
        · exact ⟨2, 6, rfl⟩
      | surface p d noise_name obs decoder hp hd hs ho hdec =>
        simp only [DECODERS, List.mem_cons, List.not_mem_nil, or_false] at hdec
        rcases hs with rfl | rfl <;> rcases ho with rfl | rfl <;> rcases hdec with rfl | rfl
        · exact ⟨0, 0, rfl⟩
        · exact ⟨0, 2, rfl⟩
        · exact ⟨0, 1, rfl⟩
        · exact ⟨0, 3, rfl⟩
        · exact ⟨1, 0, rfl⟩
        · exact ⟨1, 2, rfl⟩
        · exact ⟨1, 1, rfl⟩
        · exact ⟨1, 3, rfl⟩
    obtain ⟨col, row, h⟩ := hex
    refine ⟨(row, col), (tableEntry_iff _ _ _).1 h, ?_⟩
    rintro ⟨row', col'⟩ h'
    have h' := (tableEntry_iff _ _ _).2 h'
    have r := tableEntry_range h
    have r' := tableEntry_range h'
    have := tableEntry_inj ⟨col', r'.1⟩ ⟨col, r.1⟩ ⟨row', r'.2⟩ ⟨row, r.2⟩ (by simp only; rw [h']; simp) (h'.trans h.symm)
    simp only [Fin.mk.injEq] at this
    rw [this.1, this.2]
  · intro row col name cases h1 h2
    have hall : ∀ x ∈ thresholdCases false, ∀ c ∈ x.2, ∀ y ∈ c, y.1 = "surface_" ++ x.1 ∨ y.1 = "honeycomb_" ++ x.1 ∨
        y.1 = "honeycomb_" ++ x.1 ++ "_v2" := by decide
    exact hall _ (List.mem_of_getElem? h1) _ (List.mem_of_getElem? h2) _ rfl

/-- C71: the label of a row, which is made from the column "SD6", fits all panels of the row: they have the same label. -/
theorem c71_row_labels (focused : Bool) (row : Nat) (name : String) (cases : List (Option Case)) (c : Case)
    (h : (name, cases) ∈ thresholdCases focused) (hc : cases[row]? = some (some c)) :
    ∃ sd6 c', ("SD6", sd6) ∈ thresholdCases focused ∧ sd6[row]? = some (some c') ∧ rowLabel c = rowLabel c' := by
  have hlen : ∀ b : Bool, ∀ x ∈ thresholdCases b, x.2.length ≤ 8 := by decide
  have hrow : row < 8 := lt_of_lt_of_le (List.getElem?_eq_some_iff.1 hc).1 (hlen _ _ h)
  have hall : ∀ (b : Bool) (r : Fin 8), ∀ x ∈ thresholdCases b, ∀ o ∈ x.2[r.1]?, ∀ c ∈ o,
      ∃ y ∈ thresholdCases b, y.1 = "SD6" ∧ ∃ o' ∈ y.2[r.1]?.toList, ∃ c' ∈ o'.toList, (beforeUnderscore c.1, c.2) = (beforeUnderscore c'.1, c'.2) := by
    decide +kernel
  obtain ⟨⟨n, sd6⟩, h1, h2, o', h3, c', h4, h5⟩ := hall focused ⟨row, hrow⟩ _ h _ hc _ rfl
  simp only at h2
  subst h2
  simp only [Option.mem_toList] at h3 h4
  subst h4
  refine ⟨sd6, c', h1, h3, ?_⟩
  simp only [Prod.mk.injEq] at h5
  rw [rowLabel, rowLabel, h5.1, h5.2]

/-- The word for an observable on the figure. -/
def ObservableWord (observable word : String) : Prop :=
  (observable, word) ∈ [("H", "Horizontal"), ("V", "Vertical"), ("X", "X"), ("Z", "Z")]

/-- C71: the label of a row says what its panels show. It names the code, "Correlated" for the correlated decoder and "Standard" for the
other one, and the observable; so different kinds of panels have different labels. -/
theorem c71_label_text (focused : Bool) (name : String) (cases : List (Option Case)) (style observable decoder : String)
    (h : (name, cases) ∈ thresholdCases focused) (hc : some (style, observable, decoder) ∈ cases) :
    ∃ code kind word, (code, style) ∈ [("Surface", "surface_" ++ name), ("Honeycomb", "honeycomb_" ++ name), ("Honeycomb", "honeycomb_" ++ name ++ "_v2")] ∧
      (decoder, kind) ∈ [("internal", "Standard"), ("internal_correlated", "Correlated")] ∧ ObservableWord observable word ∧
      rowLabel (style, observable, decoder) = code ++ " (" ++ kind ++ ")\n" ++ word ++ " Observable\nCode Cell Error Rate" := by
  have hall : ∀ b : Bool, ∀ x ∈ thresholdCases b, ∀ o ∈ x.2, ∀ c ∈ o,
      ∃ code ∈ [("Surface", "surface_" ++ x.1), ("Honeycomb", "honeycomb_" ++ x.1), ("Honeycomb", "honeycomb_" ++ x.1 ++ "_v2")],
      ∃ kind ∈ [("internal", "Standard"), ("internal_correlated", "Correlated")],
      ∃ word ∈ [("H", "Horizontal"), ("V", "Vertical"), ("X", "X"), ("Z", "Z")],
        code.2 = c.1 ∧ kind.1 = c.2.2 ∧ word.1 = c.2.1 ∧
        rowLabel c = code.1 ++ " (" ++ kind.2 ++ ")\n" ++ word.2 ++ " Observable\nCode Cell Error Rate" := by
    decide +kernel
  obtain ⟨code, h1, kind, h2, word, h3, e1, e2, e3, e4⟩ := hall focused _ h _ hc _ rfl
  simp only at e1 e2 e3
  subst e1 e2 e3
  exact ⟨code.1, kind.2, word.2, h1, h2, h3, e4⟩

example : ∃ code kind word, (code, "honeycomb_SD6") ∈ [("Surface", "surface_SD6"), ("Honeycomb", "honeycomb_SD6"), ("Honeycomb", "honeycomb_SD6_v2")] ∧
    ("internal", kind) ∈ [("internal", "Standard"), ("internal_correlated", "Correlated")] ∧ ObservableWord "V" word ∧
    rowLabel ("honeycomb_SD6", "V", "internal") = code ++ " (" ++ kind ++ ")\n" ++ word ++ " Observable\nCode Cell Error Rate" :=
  c71_label_text false "SD6" _ "honeycomb_SD6" "V" "internal" (List.mem_cons_self ..) (by decide)

example : rowLabel ("honeycomb_SI1000", "H", "internal_correlated") =
    "Honeycomb (Correlated)\nHorizontal Observable\nCode Cell Error Rate" := by decide +kernel

/-- Data of the collection script, for the examples. -/
def figureDemo : ProblemShotData :=
  [(HoneycombLayout.asDecoderProblemDesc ⟨1 * 4, 1 * 6, 1 * 3 * 4 * 3, "SD6", "H", 1 / 10000⟩ "internal", ⟨1000, 900, 1⟩),
   (surfaceCodeDesc "SI1000" (3 / 10000) "X" 7 "internal_correlated", ⟨1000, 990, 1⟩)]

theorem figureDemo_collected : ∀ e ∈ figureDemo, e.1 ∈ allDescs := by
  intro e he
  rw [mem_allDescs]
  simp only [figureDemo, List.mem_cons, List.not_mem_nil, or_false] at he
  rcases he with rfl | rfl
  · refine .honeycomb _ _ _ _ _ ?_ (by omega) (by simp) (by simp) (by simp [DECODERS])
    norm_num [USED_NOISE_VALUES]
  · refine .surface _ _ _ _ _ ?_ (by simp) (by simp) (by simp) (by simp [DECODERS])
    norm_num [USED_NOISE_VALUES]

theorem figureDemo_plottable : Plottable figureDemo := by
  have hc := fun e he => c66_cells _ (figureDemo_collected e he)
  refine ⟨?_, ?_, ?_, fun e he => ?_, fun e he => ?_⟩
  · simp [figureDemo, HoneycombLayout.asDecoderProblemDesc, surfaceCodeDesc]
  · simp [figureDemo]
  · simp [figureDemo]
  · have := hc e he; omega
  · have := hc e he; omega

/-- The full figure of the demo data has a panel in row 4 of column 0. -/
example : ∃ panels, plotThresholds figureDemo false = .ok panels ∧ ∃ p ∈ panels, (p.row, p.col) = (4, 0) := by
  obtain ⟨panels, h, -, h2, -⟩ := c71_panels figureDemo false figureDemo_plottable figureDemo_collected
  refine ⟨panels, h, ?_⟩
  have := (h2 4 0).2 ⟨_, _, _, rfl, rfl⟩
  rw [List.mem_map] at this
  exact this

/-! ## C72 -/

theorem mapM_ok {α β : Type} {f : α → Except PyErr β} {g : α → β} : ∀ l : List α, (∀ a ∈ l, f a = .ok (g a)) → l.mapM f = .ok (l.map g) := by
  intro l
  induction l with
  | nil => intro _; rfl
  | cons a l ih =>
    intro h
    rw [List.mapM_cons, h a List.mem_cons_self, ih fun b hb => h b (List.mem_cons_of_mem _ hb)]
    rfl

/-- The noise values of the data. -/
def noiseValues (data : ProblemShotData) : Finset Rat := (data.map fun e => e.1.noise).toFinset

/-- The curve for one noise value. -/
def fractionCurveOf (data : ProblemShotData) (noise : Rat) (case_data : ProblemShotData) : FractionCurve :=
  let order := (sortedRat (pySet (data.map fun e => e.1.noise))).idxOf noise
  { points := case_data.map fun e => (e.1.code_distance, e.2.logical_error_rate), noise := noise,
    marker := fractionMarkers[order]?.getD ' ', color := order % 10 }

theorem length_sortedNoises (data : ProblemShotData) :
    (sortedRat (pySet (data.map fun e => e.1.noise))).length = (noiseValues data).card := by
  rw [(sortedRat_perm _).length_eq, ← List.toFinset_card_of_nodup (nodup_pySet _), noiseValues]
  congr 1
  ext p
  rw [List.mem_toFinset, mem_pySet, List.mem_toFinset]

theorem mem_sortedNoises {data : ProblemShotData} {p : Rat} :
    p ∈ sortedRat (pySet (data.map fun e => e.1.noise)) ↔ ∃ e ∈ data, e.1.noise = p := by
  rw [(sortedRat_perm _).mem_iff, mem_pySet, List.mem_map]

theorem fractionCurve_ok {data : ProblemShotData} (h16 : (noiseValues data).card ≤ 16) {p : Rat} (hp : ∃ e ∈ data, e.1.noise = p)
    (case_data : ProblemShotData) : fractionCurve data p case_data = .ok (fractionCurveOf data p case_data) := by
  have hm := mem_sortedNoises.2 hp
  have hidx := List.idxOf_lt_length_of_mem hm
  rw [length_sortedNoises] at hidx
  have h1 : noiseIndex data p = .ok ((sortedRat (pySet (data.map fun e => e.1.noise))).idxOf p) := by
    rw [noiseIndex]
    rw [show (sortedRat (pySet (data.map fun e => e.1.noise))).idxOf? p = some _ from
      List.findIdx?_eq_some_iff_findIdx_eq.2 ⟨List.idxOf_lt_length_of_mem hm, rfl⟩]
  have h2 : ∀ i, i < 16 → fractionMarkers[i]? = some (fractionMarkers[i]?.getD ' ') := by decide
  have h3 := h2 _ (lt_of_lt_of_le hidx h16)
  rw [fractionCurve, h1]
  simp only [bind, Except.bind, pure, Except.pure]
  rw [h3]
  simp only [colorAt_ok (i := (sortedRat (pySet (data.map fun e => e.1.noise))).idxOf p) (by omega)]
  simp only [fractionCurveOf]

/-- C72: with at most 16 noise values the detection fraction figure can be drawn. Every column has one curve per noise value of its
circuit style, in ascending order; the curve shows exactly the distances and fractions of its problems, in the order of the data.
In all columns together, curves have the same marker and colour exactly if they have the same noise value. -/
theorem c72_columns (data : ProblemShotData) (hn : (data.map Prod.fst).Nodup) (h16 : (data.map fun e => e.1.noise).toFinset.card ≤ 16) :
    ∃ cols, plotDetectionFraction data = .ok cols ∧ cols.length = fractionStyles.length ∧
      (∀ (i : Nat) (style : String) (curves : List FractionCurve), fractionStyles[i]? = some style → cols[i]? = some curves →
        curves.Pairwise (fun a b => a.noise < b.noise) ∧
        (∀ p, (∃ c ∈ curves, c.noise = p) ↔ ∃ e ∈ data, e.1.circuit_style = style ∧ e.1.noise = p) ∧
        ∀ c ∈ curves, c.points = (data.filter fun e => decide (e.1.circuit_style = style ∧ e.1.noise = c.noise)).map
          fun e => (e.1.code_distance, e.2.logical_error_rate)) ∧
      ∀ curves ∈ cols, ∀ curves' ∈ cols, ∀ c ∈ curves, ∀ c' ∈ curves',
        c.noise = c'.noise ↔ (c.marker, c.color) = (c'.marker, c'.color) := by
  have hsub : ∀ style, ((data.filter fun e => decide (e.1.circuit_style = style)).map Prod.fst).Nodup :=
    fun style => hn.sublist (List.Sublist.map _ List.filter_sublist)
  have hgroups : ∀ style, ∀ g ∈ groupedBy ratLe DecodingProblemDesc.noise (data.filter fun e => decide (e.1.circuit_style = style)),
      g.2 = (data.filter fun e => decide (e.1.circuit_style = style)).filter (fun e => decide (e.1.noise = g.1)) ∧ g.2 ≠ [] := by
    intro style g hg
    have hnd := (((sortedByKey_perm ratLe _).map Prod.fst).nodup_iff.mpr (grouped_fold DecodingProblemDesc.noise _ (hsub style)).1)
    have := PyDict.get?_of_mem hnd (k := g.1) (v := g.2) hg
    rw [show sortedByKey ratLe _ = groupedBy ratLe DecodingProblemDesc.noise (data.filter fun e => decide (e.1.circuit_style = style)) from rfl,
      c51_grouped ratLe DecodingProblemDesc.noise _ (hsub style)] at this
    split_ifs at this with hne
    have hv := (Option.some.inj this).symm
    exact ⟨hv, by rw [hv]; exact hne⟩
  have hin : ∀ style, ∀ g ∈ groupedBy ratLe DecodingProblemDesc.noise (data.filter fun e => decide (e.1.circuit_style = style)),
      ∃ e ∈ data, e.1.circuit_style = style ∧ e.1.noise = g.1 := by
    intro style g hg
    obtain ⟨h1, h2⟩ := hgroups style g hg
    obtain ⟨e, he⟩ := List.exists_mem_of_ne_nil _ h2
    rw [h1, List.mem_filter, List.mem_filter, decide_eq_true_eq, decide_eq_true_eq] at he
    exact ⟨e, he.1.1, he.1.2, he.2⟩
  have hcol : ∀ style ∈ fractionStyles, fractionColumn data style = .ok
      ((groupedBy ratLe DecodingProblemDesc.noise (data.filter fun e => decide (e.1.circuit_style = style))).map
        fun g => fractionCurveOf data g.1 g.2) := by
    intro style _
    rw [fractionColumn, get_group stringLe DecodingProblemDesc.circuit_style hn]
    refine mapM_ok _ fun g hg => ?_
    obtain ⟨e, he, -, h2⟩ := hin style g hg
    exact fractionCurve_ok h16 ⟨e, he, h2⟩ _
  refine ⟨_, mapM_ok _ hcol, by rw [List.length_map], ?_, ?_⟩
  · intro i style curves h1 h2
    rw [List.getElem?_map, h1, Option.map_some, Option.some.injEq] at h2
    subst h2
    have hs := c51_grouped_sorted ratLe (fun a b c h1 h2 => by simp only [ratLe, decide_eq_true_eq] at *; exact le_trans h1 h2)
      (fun a b => by simp only [ratLe, decide_eq_true_eq]; exact le_total a b) DecodingProblemDesc.noise _ (hsub style)
    refine ⟨?_, ?_, ?_⟩
    · rw [List.pairwise_map]
      have := hs.2.and hs.1
      rw [List.pairwise_map] at this
      refine this.imp fun h => ?_
      simp only [ratLe, decide_eq_true_eq] at h
      exact lt_of_le_of_ne h.1 h.2
    · intro p
      constructor
      · rintro ⟨c, hc, rfl⟩
        rw [List.mem_map] at hc
        obtain ⟨g, hg, rfl⟩ := hc
        exact hin style g hg
      · rintro ⟨e, he, hst, hp⟩
        have hsome : ((groupedBy ratLe DecodingProblemDesc.noise (data.filter fun e => decide (e.1.circuit_style = style))).get? p).isSome = true := by
          rw [c51_grouped ratLe DecodingProblemDesc.noise _ (hsub style), if_neg]
          · rfl
          · intro hnil
            have : e ∈ entriesOf DecodingProblemDesc.noise (data.filter fun e => decide (e.1.circuit_style = style)) p := by
              rw [entriesOf, List.mem_filter, List.mem_filter, decide_eq_true_eq, decide_eq_true_eq]
              exact ⟨⟨he, hst⟩, hp⟩
            rw [hnil] at this
            simp at this
        rw [PyDict.get?_isSome_iff, List.mem_map] at hsome
        obtain ⟨g, hg, rfl⟩ := hsome
        exact ⟨_, List.mem_map.2 ⟨g, hg, rfl⟩, rfl⟩
    · intro c hc
      rw [List.mem_map] at hc
      obtain ⟨g, hg, rfl⟩ := hc
      show g.2.map _ = _
      rw [(hgroups style g hg).1, List.filter_filter]
      congr 1
      refine List.filter_congr fun e _ => ?_
      show (decide (e.1.noise = g.1) && decide (e.1.circuit_style = style)) = decide (e.1.circuit_style = style ∧ e.1.noise = g.1)
      rw [Bool.decide_and, Bool.and_comm]
  · intro curves hc curves' hc' c hcc c' hcc'
    rw [List.mem_map] at hc hc'
    obtain ⟨style, -, rfl⟩ := hc
    obtain ⟨style', -, rfl⟩ := hc'
    rw [List.mem_map] at hcc hcc'
    obtain ⟨g, hg, rfl⟩ := hcc
    obtain ⟨g', hg', rfl⟩ := hcc'
    constructor
    · intro h
      have h' : g.1 = g'.1 := h
      simp only [fractionCurveOf, h']
    · intro h
      have h1 := (Prod.mk.injEq _ _ _ _ ▸ h).1
      obtain ⟨e, he, -, hp⟩ := hin _ g hg
      obtain ⟨e', he', -, hp'⟩ := hin _ g' hg'
      have m := mem_sortedNoises.2 ⟨e, he, hp⟩
      have m' := mem_sortedNoises.2 ⟨e', he', hp'⟩
      have i := List.idxOf_lt_length_of_mem m
      have i' := List.idxOf_lt_length_of_mem m'
      rw [length_sortedNoises] at i i'
      have hinj : ∀ a b : Fin 16, fractionMarkers[a.1]?.getD ' ' = fractionMarkers[b.1]?.getD ' ' → a = b := by decide
      have := hinj ⟨_, lt_of_lt_of_le i h16⟩ ⟨_, lt_of_lt_of_le i' h16⟩ h1
      exact (List.idxOf_inj m).1 (Fin.mk.injEq _ _ _ _ ▸ this)

/-- C72: the data of the collection script has at most 15 noise values. -/
theorem c72_script (data : ProblemShotData) (hn : (data.map Prod.fst).Nodup) (hk : ∀ e ∈ data, e.1 ∈ allDescs) :
    ∃ cols, plotDetectionFraction data = .ok cols := by
  obtain ⟨cols, h, -⟩ := c72_columns data hn (by
    have : USED_NOISE_VALUES.toFinset.card ≤ 16 := le_trans (List.toFinset_card_le _) (by decide)
    refine le_trans (Finset.card_le_card ?_) this
    intro p hp
    rw [List.mem_toFinset, List.mem_map] at hp
    obtain ⟨e, he, rfl⟩ := hp
    exact List.mem_toFinset.2 (collected_used ((mem_allDescs _).1 (hk e he))))
  exact ⟨cols, h⟩

/-- C72: nothing that the script collects is left out. Every problem has exactly one column for its circuit style, and its distance and
fraction are on the curve of its noise value there. -/
theorem c72_all_shown (data : ProblemShotData) (hn : (data.map Prod.fst).Nodup) (hk : ∀ e ∈ data, e.1 ∈ allDescs) :
    ∃ cols, plotDetectionFraction data = .ok cols ∧ cols.length = 6 ∧ ∀ e ∈ data, ∃ i : Nat, fractionStyles[i]? = some e.1.circuit_style ∧
      (∀ j : Nat, fractionStyles[j]? = some e.1.circuit_style → j = i) ∧
      ∃ curves : List FractionCurve, cols[i]? = some curves ∧ ∃ c ∈ curves, c.noise = e.1.noise ∧ (e.1.code_distance, e.2.logical_error_rate) ∈ c.points := by
  obtain ⟨cols, h, hlen, hcols, -⟩ := c72_columns data hn (by
    have : USED_NOISE_VALUES.toFinset.card ≤ 16 := le_trans (List.toFinset_card_le _) (by decide)
    refine le_trans (Finset.card_le_card ?_) this
    intro p hp
    rw [List.mem_toFinset, List.mem_map] at hp
    obtain ⟨e, he, rfl⟩ := hp
    exact List.mem_toFinset.2 (collected_used ((mem_allDescs _).1 (hk e he))))
  refine ⟨cols, h, hlen, fun e he => ?_⟩
  have hmem : e.1.circuit_style ∈ fractionStyles := by
    have := (mem_allDescs _).1 (hk e he)
    exact collected_style this
  obtain ⟨i, hi⟩ := List.mem_iff_getElem?.1 hmem
  have hnd : fractionStyles.Nodup := by decide
  have hi' := (List.getElem?_eq_some_iff.1 hi).1
  obtain ⟨curves, hcurves⟩ : ∃ curves, cols[i]? = some curves := ⟨cols[i], List.getElem?_eq_getElem (by omega)⟩
  obtain ⟨-, h2, h3⟩ := hcols i _ curves hi hcurves
  obtain ⟨c, hc, hcn⟩ := (h2 e.1.noise).2 ⟨e, he, rfl, rfl⟩
  refine ⟨i, hi, fun j hj => ((List.getElem?_inj hi' hnd).1 (hi.trans hj.symm)).symm, curves, hcurves, c, hc, hcn, ?_⟩
  rw [h3 c hc, List.mem_map]
  exact ⟨e, by rw [List.mem_filter, decide_eq_true_eq]; exact ⟨he, rfl, hcn.symm⟩, rfl⟩

example : ∃ cols, plotDetectionFraction figureDemo = .ok cols := c72_script figureDemo figureDemo_plottable.nodup figureDemo_collected

example : ∃ cols, plotDetectionFraction figureDemo = .ok cols ∧ cols.length = 6 := by
  obtain ⟨cols, h1, h2, -⟩ := c72_all_shown figureDemo figureDemo_plottable.nodup figureDemo_collected
  exact ⟨cols, h1, h2⟩

end Honeycomb
