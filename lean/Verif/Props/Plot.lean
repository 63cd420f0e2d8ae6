import Verif.Lemmas.Plot

/-!
# The plotted curves: C70

`IsPerCell`, `Plottable` and `CurveShows` are defined in `Verif/Spec/Plot.lean`.
-/

namespace Honeycomb

/-! ## C70 -/

theorem plotGroup_shows {data : ProblemShotData} (hp : Plottable data) {key : DecodingProblemDesc} (hk : key.noise = 0)
    (hr : 0 < key.rounds) (hd : 0 < key.code_distance) (off order : Nat) (hi : order + off < 30) :
    ∃ c, plotGroup off order key (entriesOf atZeroNoise data key) = .ok c ∧ CurveShows data key c ∧
      (c.marker, c.color) = plotStyle (order + off) := by
  have hn := hp.nodup
  have hc := (plotCells_ok hr hd).2
  have good : ∀ e ∈ data, GoodShots e.2 := fun e he => ⟨hp.shots e he, hp.correct e he⟩
  obtain ⟨line, band, hl, h1, h2, h3, h4⟩ := plotLoop_ok hc ((entriesOf atZeroNoise data key).map fun e => (e.1.noise, e.2))
    (sortedRat ((entriesOf atZeroNoise data key).map fun e => e.1.noise)) (by
      intro x hx
      obtain ⟨v, hv⟩ := (mem_noises hn hk x).1 hx
      exact ⟨v, (group_mem hn hk x v).2 hv, good _ hv⟩)
  have hs : (sortedRat ((entriesOf atZeroNoise data key).map fun e => e.1.noise)).Pairwise (· < ·) := by
    refine sortedRat_strict ?_
    have := group_get hn hk
    rwa [List.map_map] at this
  have hline : ∀ x y, (x, y) ∈ line ↔ ∃ v, ({ key with noise := x }, v) ∈ data ∧ v.num_correct < v.num_shots ∧
      IsPerCell (((v.num_shots - v.num_correct : Int) : ℝ) / (v.num_shots : ℝ)) ⌈(key.rounds : ℝ) / (key.code_distance : ℝ)⌉₊ y := by
    intro x y
    rw [h3, mem_noises hn hk]
    simp only [group_mem hn hk]
    constructor
    · rintro ⟨-, v, g1, g2, g3⟩
      refine ⟨v, g1, g2, ?_⟩
      rw [← rate_cast v (good _ g1)]
      exact g3
    · rintro ⟨v, g1, g2, g3⟩
      refine ⟨⟨v, g1⟩, v, g1, g2, ?_⟩
      rw [rate_cast v (good _ g1)]
      exact g3
  have hband : ∀ x lo hi, (x, lo, hi) ∈ band ↔ ∃ v low high, ({ key with noise := x }, v) ∈ data ∧
      v.likelyErrorRateBounds (1 / 1000) = .ok (low, high) ∧
      IsPerCell low ⌈(key.rounds : ℝ) / (key.code_distance : ℝ)⌉₊ lo ∧
      IsPerCell high ⌈(key.rounds : ℝ) / (key.code_distance : ℝ)⌉₊ hi := by
    intro x lo hi
    rw [h4, mem_noises hn hk]
    simp only [group_mem hn hk]
    constructor
    · rintro ⟨-, h⟩; exact h
    · rintro ⟨v, low, high, g1, g⟩; exact ⟨⟨v, g1⟩, v, low, high, g1, g⟩
  refine ⟨_, by
    rw [plotGroup_eq hn hk hr hd, hl, markerAt_ok (i := order + off) (by omega), colorAt_ok (i := order + off) hi]
    rfl, ⟨?_, hline, ?_, hband, ?_, rfl⟩, rfl⟩
  · exact (List.pairwise_map.1 (hs.sublist h1))
  · exact List.pairwise_map.1 (by rw [h2]; exact hs)
  · intro x y hxy
    obtain ⟨v, g1, g2, g3⟩ := (hline x y).1 hxy
    obtain ⟨low, high, hb, b0, b1, b2, b3⟩ := c44_bracket v (1 / 1000) (good _ g1).1 (good _ g1).2.1 (good _ g1).2.2 (by norm_num)
    rw [rate_cast v (good _ g1)] at b1 b2
    obtain ⟨lo, hlo⟩ := perCell_exists (e := low) b0 (by linarith) hc
    obtain ⟨hi', hhi⟩ := perCell_exists (e := high) (by linarith) b3 hc
    rw [perCell_iff b0 (by linarith) hc] at hlo
    rw [perCell_iff (by linarith) b3 hc] at hhi
    exact ⟨lo, hi', (hband x lo hi').2 ⟨v, low, high, g1, hb, hlo, hhi⟩, perCell_mono hc b1 hlo g3, perCell_mono hc b2 g3 hhi⟩

theorem plotGroups_show {data : ProblemShotData} (hp : Plottable data) (off : Nat) :
    ∀ (groups : PyDict DecodingProblemDesc ProblemShotData) (order : Nat),
      (∀ g ∈ groups, g.2 = entriesOf atZeroNoise data g.1 ∧ g.1.noise = 0 ∧ 0 < g.1.rounds ∧ 0 < g.1.code_distance) →
      order + groups.length + off ≤ 30 →
      ∃ curves, plotGroups off order groups = .ok curves ∧ List.Forall₂ (CurveShows data) (groups.map Prod.fst) curves ∧
        curves.map (fun c => (c.marker, c.color)) = (List.range' (order + off) groups.length).map plotStyle := by
  intro groups
  induction groups with
  | nil => intro order _ _; exact ⟨[], rfl, .nil, rfl⟩
  | cons g groups ih =>
    intro order hg hlen
    obtain ⟨key, vals⟩ := g
    rw [List.length_cons] at hlen
    obtain ⟨hv, hk, hr, hd⟩ := hg _ List.mem_cons_self
    simp only at hv hk hr hd
    subst hv
    obtain ⟨c, hc, hs, hst⟩ := plotGroup_shows hp hk hr hd off order (by omega)
    obtain ⟨cs, hcs, hss, hsts⟩ := ih (order + 1) (fun g h => hg g (List.mem_cons_of_mem _ h)) (by omega)
    refine ⟨c :: cs, ?_, .cons hs hss, ?_⟩
    · simp only [plotGroups, hc, hcs, bind, Except.bind, pure, Except.pure]
    · rw [List.map_cons, hsts, hst, List.length_cons, List.range'_succ, List.map_cons, show order + 1 + off = order + off + 1 by omega]

theorem groups_good {data : ProblemShotData} (hn : (data.map Prod.fst).Nodup) (hr : ∀ e ∈ data, 0 < e.1.rounds)
    (hd : ∀ e ∈ data, 0 < e.1.code_distance) :
    ∀ g ∈ groupedBy descLe atZeroNoise data,
      g.2 = entriesOf atZeroNoise data g.1 ∧ g.1.noise = 0 ∧ 0 < g.1.rounds ∧ 0 < g.1.code_distance := by
  intro g hg
  have hnd : ((groupedBy descLe atZeroNoise data).map Prod.fst).Nodup :=
    ((sortedByKey_perm descLe _).map _).nodup_iff.mpr (grouped_fold atZeroNoise data hn).1
  have := PyDict.get?_of_mem hnd (k := g.1) (v := g.2) hg
  rw [c51_grouped descLe atZeroNoise data hn] at this
  split_ifs at this with hne
  have hv := (Option.some.inj this).symm
  obtain ⟨e, he⟩ := List.exists_mem_of_ne_nil _ hne
  simp only [entriesOf, List.mem_filter, decide_eq_true_eq] at he
  obtain ⟨h1, h2⟩ := he
  refine ⟨hv, ?_, ?_, ?_⟩
  · rw [← h2]; rfl
  · rw [← h2]; exact hr e h1
  · rw [← h2]; exact hd e h1

theorem group_keys {data : ProblemShotData} (hn : (data.map Prod.fst).Nodup) (k : DecodingProblemDesc) :
    k ∈ (groupedBy descLe atZeroNoise data).map Prod.fst ↔ ∃ e ∈ data, k = { e.1 with noise := 0 } := by
  rw [← PyDict.get?_isSome_iff, c51_grouped descLe atZeroNoise data hn]
  constructor
  · intro h
    split_ifs at h with hne
    · simp at h
    · obtain ⟨e, he⟩ := List.exists_mem_of_ne_nil _ hne
      simp only [entriesOf, List.mem_filter, decide_eq_true_eq] at he
      exact ⟨e, he.1, he.2.symm⟩
  · rintro ⟨e, he, rfl⟩
    rw [if_neg]
    · rfl
    · intro hnil
      have : e ∈ entriesOf atZeroNoise data { e.1 with noise := 0 } := by
        simp only [entriesOf, List.mem_filter, decide_eq_true_eq]
        exact ⟨he, rfl⟩
      rw [hnil] at this
      simp at this

theorem groups_length {data : ProblemShotData} (hn : (data.map Prod.fst).Nodup) :
    (groupedBy descLe atZeroNoise data).length = (data.map fun e => { e.1 with noise := 0 }).toFinset.card := by
  have hnd : ((groupedBy descLe atZeroNoise data).map Prod.fst).Nodup :=
    ((sortedByKey_perm descLe _).map _).nodup_iff.mpr (grouped_fold atZeroNoise data hn).1
  rw [← List.length_map (f := Prod.fst), ← List.toFinset_card_of_nodup hnd]
  congr 1
  ext k
  rw [List.mem_toFinset, group_keys hn, List.mem_toFinset, List.mem_map]
  simp only [eq_comm]

theorem descLe_trans (a b c : DecodingProblemDesc) (h1 : descLe a b = true) (h2 : descLe b c = true) : descLe a c = true := by
  simp only [descLe, decide_eq_true_eq] at *
  exact le_trans h1 h2

theorem descLe_total (a b : DecodingProblemDesc) : descLe a b = true ∨ descLe b a = true := by
  simp only [descLe, decide_eq_true_eq]
  exact le_total _ _

/-- C70: `plot_data` draws one curve per problem up to noise, ordered like the problems. Each curve shows exactly the recorded error
rates and error bands of its problems, per cell. No two curves have the same marker and the same colour. At most 30 curves
(minus the offset) can be drawn. -/
theorem c70_curves (data : ProblemShotData) (off : Nat) (hp : Plottable data)
    (hcount : (data.map fun e => { e.1 with noise := 0 }).toFinset.card + off ≤ 30) :
    ∃ (keys : List DecodingProblemDesc) (curves : List Curve), plotData data off = .ok curves ∧
      keys.Nodup ∧ keys.Pairwise (fun a b => descKey a ≤ descKey b) ∧
      (∀ k, k ∈ keys ↔ ∃ e ∈ data, k = { e.1 with noise := 0 }) ∧
      List.Forall₂ (CurveShows data) keys curves ∧
      (curves.map fun c => (c.marker, c.color)).Nodup := by
  have hn := hp.nodup
  have hsorted := c51_grouped_sorted descLe descLe_trans descLe_total atZeroNoise data hn
  rw [← groups_length hn] at hcount
  obtain ⟨curves, h1, h2, h3⟩ := plotGroups_show hp off (groupedBy descLe atZeroNoise data) 0 (groups_good hn hp.rounds hp.distance)
    (by omega)
  refine ⟨_, curves, h1, hsorted.1, ?_, group_keys hn, h2, ?_⟩
  · refine hsorted.2.imp fun h => ?_
    simpa [descLe] using h
  · rw [h3, Nat.zero_add]
    have h30 : ((List.range' 0 30).map plotStyle).Nodup := by decide
    refine h30.sublist (List.Sublist.map _ ?_)
    have : List.range' 0 30 = List.range' 0 off ++ (List.range' off (groupedBy descLe atZeroNoise data).length ++
        List.range' (off + (groupedBy descLe atZeroNoise data).length) (30 - (off + (groupedBy descLe atZeroNoise data).length))) := by
      rw [List.range'_append_1]
      have := List.range'_append_1 (s := 0) (m := off)
        (n := (groupedBy descLe atZeroNoise data).length + (30 - (off + (groupedBy descLe atZeroNoise data).length)))
      rw [Nat.zero_add] at this
      rw [this]
      congr 1
      omega
    rw [this]
    exact (List.sublist_append_left _ _).trans (List.sublist_append_right _ _)

/-- C70: with more curves the colours run out and nothing is drawn completely. -/
theorem c70_too_many (data : ProblemShotData) (off : Nat) (hp : Plottable data)
    (hcount : 30 < (data.map fun e => { e.1 with noise := 0 }).toFinset.card + off) (hoff : off ≤ 30) :
    plotData data off = .error .indexError := by
  have hn := hp.nodup
  rw [← groups_length hn] at hcount
  have hg := groups_good hn hp.rounds hp.distance
  have key : ∀ (groups : PyDict DecodingProblemDesc ProblemShotData) (order : Nat),
      (∀ g ∈ groups, g.2 = entriesOf atZeroNoise data g.1 ∧ g.1.noise = 0 ∧ 0 < g.1.rounds ∧ 0 < g.1.code_distance) →
      30 < order + groups.length + off → order + off ≤ 30 → plotGroups off order groups = .error .indexError := by
    intro groups
    induction groups with
    | nil => intro order _ h1 h2; simp only [List.length_nil] at h1; omega
    | cons g groups ih =>
      intro order hg h1 h2
      obtain ⟨k, vals⟩ := g
      obtain ⟨hv, hk, hr, hd⟩ := hg _ List.mem_cons_self
      simp only at hv hk hr hd
      subst hv
      rw [List.length_cons] at h1
      rcases Nat.lt_or_ge (order + off) 30 with hlt | hge
      · obtain ⟨c, hc, -⟩ := plotGroup_shows hp hk hr hd off order hlt
        have := ih (order + 1) (fun g h => hg g (List.mem_cons_of_mem _ h)) (by omega) (by omega)
        simp only [plotGroups, hc, this, bind, Except.bind]
      · have : plotGroup off order k (entriesOf atZeroNoise data k) = .error .indexError := by
          obtain ⟨line, band, hl, -⟩ := plotLoop_ok (plotCells_ok hr hd).2
            ((entriesOf atZeroNoise data k).map fun e => (e.1.noise, e.2))
            (sortedRat ((entriesOf atZeroNoise data k).map fun e => e.1.noise)) (by
              intro x hx
              obtain ⟨v, hv⟩ := (mem_noises hn hk x).1 hx
              exact ⟨v, (group_mem hn hk x v).2 hv, hp.shots _ hv, hp.correct _ hv⟩)
          rw [plotGroup_eq hn hk hr hd, hl, markerAt_ok (i := order + off) (by omega), colorAt_error hge]
          rfl
        simp only [plotGroups, this, bind, Except.bind]
  exact key _ 0 hg (by omega) (by omega)

/-- C70: a problem without shots makes `plot_data` raise. -/
theorem c70_no_shots (data : ProblemShotData) (off : Nat) (hn : (data.map Prod.fst).Nodup)
    (hv : ∀ e ∈ data, 0 ≤ e.2.num_correct ∧ e.2.num_correct ≤ e.2.num_shots)
    (hr : ∀ e ∈ data, 0 < e.1.rounds) (hd : ∀ e ∈ data, 0 < e.1.code_distance)
    (hcount : (data.map fun e => { e.1 with noise := 0 }).toFinset.card + off ≤ 30)
    (h0 : ∃ e ∈ data, e.2.num_shots = 0) : plotData data off = .error .zeroDivision := by
  rw [← groups_length hn] at hcount
  have hg := groups_good hn hr hd
  have good : ∀ e ∈ data, GoodShots e.2 ∨ e.2.num_shots = 0 ∧ e.2.num_correct = 0 := by
    intro e he
    obtain ⟨a, b⟩ := hv e he
    rcases Nat.eq_zero_or_pos e.2.num_shots.toNat with h | h
    · right; omega
    · left; exact ⟨by omega, a, b⟩
  obtain ⟨e0, he0, hz⟩ := h0
  have key : ∀ (groups : PyDict DecodingProblemDesc ProblemShotData) (order : Nat),
      (∀ g ∈ groups, g.2 = entriesOf atZeroNoise data g.1 ∧ g.1.noise = 0 ∧ 0 < g.1.rounds ∧ 0 < g.1.code_distance) →
      order + groups.length + off ≤ 30 → ({ e0.1 with noise := 0 } : DecodingProblemDesc) ∈ groups.map Prod.fst →
      plotGroups off order groups = .error .zeroDivision := by
    intro groups
    induction groups with
    | nil => intro order _ _ h; simp at h
    | cons g groups ih =>
      intro order hg h1 hm
      obtain ⟨k, vals⟩ := g
      obtain ⟨hv, hk, hr, hd⟩ := hg _ List.mem_cons_self
      simp only at hv hk hr hd
      subst hv
      rw [List.length_cons] at h1
      have hall : ∀ x ∈ sortedRat ((entriesOf atZeroNoise data k).map fun e => e.1.noise),
          ∃ v, PyDict.get? ((entriesOf atZeroNoise data k).map fun e => (e.1.noise, e.2)) x = some v ∧
            (GoodShots v ∨ v.num_shots = 0 ∧ v.num_correct = 0) := by
        intro x hx
        obtain ⟨v, hv⟩ := (mem_noises hn hk x).1 hx
        exact ⟨v, (group_mem hn hk x v).2 hv, good _ hv⟩
      by_cases hex : ∃ x ∈ sortedRat ((entriesOf atZeroNoise data k).map fun e => e.1.noise),
          ∃ v, PyDict.get? ((entriesOf atZeroNoise data k).map fun e => (e.1.noise, e.2)) x = some v ∧ v.num_shots = 0
      · have := plotLoop_empty (plotCells_ok hr hd).2 _ _ hall hex
        have : plotGroup off order k (entriesOf atZeroNoise data k) = .error .zeroDivision := by
          rw [plotGroup_eq hn hk hr hd, this]
          rfl
        simp only [plotGroups, this, bind, Except.bind]
      · obtain ⟨line, band, hl, -⟩ := plotLoop_ok (plotCells_ok hr hd).2 _ _ (by
          intro x hx
          obtain ⟨v, g1, g2⟩ := hall x hx
          refine ⟨v, g1, g2.resolve_right fun g3 => hex ⟨x, hx, v, g1, g3.1⟩⟩)
        have hok : ∃ c, plotGroup off order k (entriesOf atZeroNoise data k) = .ok c := by
          rw [plotGroup_eq hn hk hr hd, hl, markerAt_ok (i := order + off) (by omega), colorAt_ok (i := order + off) (by omega)]
          exact ⟨_, rfl⟩
        obtain ⟨c, hc⟩ := hok
        have hm' : ({ e0.1 with noise := 0 } : DecodingProblemDesc) ∈ groups.map Prod.fst := by
          rw [List.map_cons, List.mem_cons] at hm
          refine hm.resolve_left fun h => ?_
          refine hex ⟨e0.1.noise, (mem_noises hn hk _).2 ⟨e0.2, ?_⟩, e0.2, (group_mem hn hk _ _).2 ?_, hz⟩ <;>
          · simp only at h
            rw [← h]
            exact he0
        have := ih (order + 1) (fun g h => hg g (List.mem_cons_of_mem _ h)) (by omega) hm'
        simp only [plotGroups, hc, this, bind, Except.bind]
  exact key _ 0 hg (by omega) ((group_keys hn _).2 ⟨e0, he0, rfl⟩)

theorem exists_of_forall₂ {α β : Type} {R : α → β → Prop} {l : List α} {l' : List β} (h : List.Forall₂ R l l') {a : α} (ha : a ∈ l) :
    ∃ b ∈ l', R a b := by
  induction h with
  | nil => simp at ha
  | cons hr _ ih =>
    rcases List.mem_cons.1 ha with rfl | ha
    · exact ⟨_, List.mem_cons_self, hr⟩
    · obtain ⟨b, hb, hR⟩ := ih ha
      exact ⟨b, List.mem_cons_of_mem _ hb, hR⟩

/-- Two sizes, one of them with two noise values. -/
def plotDemo : ProblemShotData :=
  [(⟨4, 6, 4, 60, 12, 1 / 100, "honeycomb_SD6", "V", "internal"⟩, ⟨1000, 900, 1⟩),
   (⟨4, 6, 4, 60, 12, 1 / 1000, "honeycomb_SD6", "V", "internal"⟩, ⟨1000, 1000, 1⟩),
   (⟨8, 12, 8, 240, 24, 1 / 100, "honeycomb_SD6", "V", "internal"⟩, ⟨1000, 400, 1⟩)]

theorem plotDemo_plottable : Plottable plotDemo := by
  refine ⟨?_, ?_, ?_, ?_, ?_⟩
  · simp [plotDemo]
  all_goals simp [plotDemo]

/-- The demo has two curves; the first size has a point at 1/100 and none at 1/1000, where no error was seen. -/
example : ∃ curves, plotData plotDemo 4 = .ok curves ∧ curves.length = 2 ∧
    ∃ c ∈ curves, c.label = "12 rounds, 4x6 data" ∧ (∃ y, ((1 / 100 : Rat), y) ∈ c.line) ∧ ∀ y, ((1 / 1000 : Rat), y) ∉ c.line := by
  have hset : (plotDemo.map fun e => { e.1 with noise := 0 }).toFinset =
      {⟨4, 6, 4, 60, 12, 0, "honeycomb_SD6", "V", "internal"⟩, ⟨8, 12, 8, 240, 24, 0, "honeycomb_SD6", "V", "internal"⟩} := by
    simp [plotDemo]
  obtain ⟨keys, curves, h1, h2, -, h3, h4, -⟩ := c70_curves plotDemo 4 plotDemo_plottable (by rw [hset]; decide)
  refine ⟨curves, h1, ?_, ?_⟩
  · rw [← h4.length_eq, ← List.toFinset_card_of_nodup h2]
    have : keys.toFinset = (plotDemo.map fun e => { e.1 with noise := 0 }).toFinset := by
      ext k
      rw [List.mem_toFinset, h3, List.mem_toFinset, List.mem_map]
      simp only [eq_comm]
    rw [this, hset]
    decide
  · have hk : (⟨4, 6, 4, 60, 12, 0, "honeycomb_SD6", "V", "internal"⟩ : DecodingProblemDesc) ∈ keys :=
      (h3 _).2 ⟨_, List.mem_cons_self, rfl⟩
    obtain ⟨c, hc, hs⟩ := exists_of_forall₂ h4 hk
    refine ⟨c, hc, by rw [hs.label]; rfl, ?_, ?_⟩
    · obtain ⟨y, hy⟩ := perCell_exists (e := ((1000 - 900 : Int) : ℝ) / (1000 : Int)) (k := 3) (by norm_num) (by norm_num) (by norm_num)
      rw [perCell_iff (by norm_num) (by norm_num) (by norm_num)] at hy
      refine ⟨y, (hs.line _ _).2 ⟨⟨1000, 900, 1⟩, List.mem_cons_self, by decide, ?_⟩⟩
      have : ⌈((12 : Int) : ℝ) / ((4 : Int) : ℝ)⌉₊ = 3 := by norm_num
      rw [this]
      exact hy
    · intro y hy
      obtain ⟨v, hv, hlt, -⟩ := (hs.line _ _).1 hy
      simp [plotDemo] at hv
      subst hv
      exact absurd hlt (by decide)

end Honeycomb
