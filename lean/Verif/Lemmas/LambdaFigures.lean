import Verif.Model.LambdaFigures
import Verif.Spec.LambdaFigures
import Verif.Props.Figures

/-!
# Lemmas for C86, C87 and C88: the groups of one circuit style and one decoder
-/

namespace Honeycomb

open LambdaGroup

theorem plottable_results {data : ProblemShotData} (hp : Plottable data) (s t : String) : Plottable (resultsOf data s t) :=
  plottable_filter hp _

theorem mem_resultsOf {data : ProblemShotData} {s t : String} {e : DecodingProblemDesc × ShotData} :
    e ∈ resultsOf data s t ↔ e ∈ data ∧ e.1.circuit_style = s ∧ e.1.decoder = t := by
  rw [resultsOf, List.mem_filter, decide_eq_true_eq]

theorem case_results {data : ProblemShotData} (hn : (data.map Prod.fst).Nodup) (c : StyleDecoder) :
    ((groupedBy styleDecoderLe styleDecoderOf data).get? c).getD [] = resultsOf data c.1 c.2 := by
  rw [get_group _ _ hn, resultsOf]
  congr 1
  funext e
  obtain ⟨c1, c2⟩ := c
  simp [styleDecoderOf]

theorem results_groups {data : ProblemShotData} (hp : Plottable data) (hk : ∀ e ∈ data, e.1 ∈ allDescs) (s t : String) :
    ∃ groups, groupsFromData (resultsOf data s t) = .ok groups ∧ GroupsOf (resultsOf data s t) groups := by
  refine (groups_cases _).1 ?_
  have hn := (plottable_results hp s t).nodup
  rw [List.Nodup, List.pairwise_map] at hn
  refine hn.imp_of_mem fun {a b} ha hb hne hsame => hne ?_
  rw [mem_resultsOf] at ha hb
  exact c66_determined a.1 b.1 (hk a ha.1) (hk b hb.1) (ha.2.1.trans hb.2.1.symm) (ha.2.2.trans hb.2.2.symm) hsame

theorem rate_real {data : ProblemShotData} (hp : Plottable data) {e : DecodingProblemDesc × ShotData} (he : e ∈ data) :
    ((e.2.logical_error_rate : Rat) : ℝ) = ((e.2.num_shots - e.2.num_correct : Int) : ℝ) / (e.2.num_shots : ℝ) := by
  have := hp.shots e he
  rw [ShotData.logical_error_rate, if_neg (by omega)]
  push_cast
  rfl

section Group

variable {D : ProblemShotData} {groups : PyDict Rat LambdaGroup} {n : Rat} {g : LambdaGroup}

theorem kindRate_true (hp : Plottable D) (hG : GroupsOf D groups) (hm : (n, g) ∈ groups) (d : Int) (r : ℝ) :
    KindRate D n d True r ↔ ∃ p : Rat, RateAt g.distance_error_pairs_h g.distance_error_pairs_v d p ∧ r = (p : ℝ) := by
  obtain ⟨-, hh⟩ := hG.h n g hm
  obtain ⟨-, hv⟩ := hG.v n g hm
  simp only [KindRate, RateAt, iff_true]
  constructor
  · rintro (⟨k, v, h1, h2, h3, h4, rfl⟩ | ⟨hno, k, v, h1, h2, h3, h4, rfl⟩)
    · exact ⟨v.logical_error_rate, .inl ⟨v, (hh d v).2 ⟨k, h1, h2, h3, h4⟩, rfl⟩, (rate_real hp h1).symm⟩
    · refine ⟨v.logical_error_rate, .inr ⟨fun s hs => hno ?_, v, (hv d v).2 ⟨k, h1, h2, h3, h4⟩, rfl⟩, (rate_real hp h1).symm⟩
      obtain ⟨k', a1, a2, a3, a4⟩ := (hh d s).1 hs
      exact ⟨k', s, a1, a2, a3, a4⟩
  · rintro ⟨p, ⟨s, hs, rfl⟩ | ⟨hno, s, hs, rfl⟩, rfl⟩
    · obtain ⟨k, h1, h2, h3, h4⟩ := (hh d s).1 hs
      exact .inl ⟨k, s, h1, h2, h3, h4, rate_real hp h1⟩
    · obtain ⟨k, h1, h2, h3, h4⟩ := (hv d s).1 hs
      refine .inr ⟨?_, k, s, h1, h2, h3, h4, rate_real hp h1⟩
      rintro ⟨k', v', a1, a2, a3, a4⟩
      exact hno v' ((hh d v').2 ⟨k', a1, a2, a3, a4⟩)

theorem kindRate_false (hp : Plottable D) (hG : GroupsOf D groups) (hm : (n, g) ∈ groups) (d : Int) (r : ℝ) :
    KindRate D n d False r ↔ ∃ p : Rat, RateAt g.distance_error_pairs_v g.distance_error_pairs_h d p ∧ r = (p : ℝ) := by
  obtain ⟨-, hh⟩ := hG.h n g hm
  obtain ⟨-, hv⟩ := hG.v n g hm
  simp only [KindRate, RateAt, iff_false, not_not]
  constructor
  · rintro (⟨k, v, h1, h2, h3, h4, rfl⟩ | ⟨hno, k, v, h1, h2, h3, h4, rfl⟩)
    · exact ⟨v.logical_error_rate, .inl ⟨v, (hv d v).2 ⟨k, h1, h2, h3, h4⟩, rfl⟩, (rate_real hp h1).symm⟩
    · refine ⟨v.logical_error_rate, .inr ⟨fun s hs => hno ?_, v, (hh d v).2 ⟨k, h1, h2, h3, h4⟩, rfl⟩, (rate_real hp h1).symm⟩
      obtain ⟨k', a1, a2, a3, a4⟩ := (hv d s).1 hs
      exact ⟨k', s, a1, a2, a3, a4⟩
  · rintro ⟨p, ⟨s, hs, rfl⟩ | ⟨hno, s, hs, rfl⟩, rfl⟩
    · obtain ⟨k, h1, h2, h3, h4⟩ := (hv d s).1 hs
      exact .inl ⟨k, s, h1, h2, h3, h4, rate_real hp h1⟩
    · obtain ⟨k, h1, h2, h3, h4⟩ := (hh d s).1 hs
      refine .inr ⟨?_, k, s, h1, h2, h3, h4, rate_real hp h1⟩
      rintro ⟨k', v', a1, a2, a3, a4⟩
      exact hno v' ((hv d v').2 ⟨k', a1, a2, a3, a4⟩)

theorem group_tables (hp : Plottable D) (hG : GroupsOf D groups) (hm : (n, g) ∈ groups) : GoodTables g where
  h := (hG.h n g hm).1
  v := (hG.v n g hm).1
  hs := fun e he => by
    obtain ⟨k, h, -⟩ := ((hG.h n g hm).2 e.1 e.2).1 he
    exact hp.correct (k, e.2) h
  vs := fun e he => by
    obtain ⟨k, h, -⟩ := ((hG.v n g hm).2 e.1 e.2).1 he
    exact hp.correct (k, e.2) h

theorem group_rep (hk : ∀ e ∈ D, e.1 ∈ allDescs) (hG : GroupsOf D groups) (hm : (n, g) ∈ groups) :
    ∃ v, (g.rep, v) ∈ D := by
  have := List.mem_of_find?_eq_some (hG.rep n g hm)
  obtain ⟨e, he, h⟩ := List.mem_map.1 this
  exact ⟨e.2, by rw [← h]; exact he⟩

theorem rateAt_bounds (hg : GoodTables g) {d : Int} {p : Rat} :
    (RateAt g.distance_error_pairs_h g.distance_error_pairs_v d p ∨ RateAt g.distance_error_pairs_v g.distance_error_pairs_h d p) →
    0 ≤ p ∧ p ≤ 1 := by
  rintro ((⟨s, hs, rfl⟩ | ⟨-, s, hs, rfl⟩) | (⟨s, hs, rfl⟩ | ⟨-, s, hs, rfl⟩))
  · exact rate_bounds (hg.hs _ hs).1 (hg.hs _ hs).2
  · exact rate_bounds (hg.vs _ hs).1 (hg.vs _ hs).2
  · exact rate_bounds (hg.vs _ hs).1 (hg.vs _ hs).2
  · exact rate_bounds (hg.hs _ hs).1 (hg.hs _ hs).2

/-- The points of a group. -/
theorem group_points (hp : Plottable D) (hk : ∀ e ∈ D, e.1 ∈ allDescs) (hG : GroupsOf D groups) (hm : (n, g) ∈ groups) :
    ∃ (xs : List Int) (ys : List ℝ), g.comboData = .ok (xs, ys) ∧ xs.length = ys.length ∧ xs.Pairwise (· < ·) ∧ (∀ y ∈ ys, 0 < y) ∧
      CellPoints D n (xs.zip ys) := by
  obtain ⟨v, hrep⟩ := group_rep hk hG hm
  obtain ⟨hc1, hc2⟩ := c66_cells g.rep (hk _ hrep)
  have hg := group_tables hp hG hm
  obtain ⟨cells, xs, ys, ⟨hce1, hce2⟩, h1, h2, h3, h4, h5⟩ := c59_combined g hg (by omega) hc1
  have hcells : cells = 3 := by
    rw [hc2] at hce1 hce2
    have e1 : (3 : Int) ≤ cells := le_of_mul_le_mul_right hce1 (by omega)
    have e2 : (cells - 1 : Int) < 3 := lt_of_mul_lt_mul_right hce2 (by omega)
    omega
  subst hcells
  have hpos : ∀ y ∈ ys, 0 < y := by
    intro y hy
    obtain ⟨i, hi, rfl⟩ := List.mem_iff_getElem.1 hy
    refine (h5 (xs[i]'(by omega)) ys[i] ?_).1
    rw [List.mem_iff_getElem]
    exact ⟨i, by rw [List.length_zip]; omega, by rw [List.getElem_zip]⟩
  refine ⟨xs, ys, h1, h2, h3, hpos, ?_, ?_⟩
  · rw [← List.pairwise_map (f := Prod.fst) (R := (· < ·)), List.map_fst_zip (by omega)]
    exact h3
  · have fwd : ∀ d y, (d, y) ∈ xs.zip ys → CellRate D n d y := by
      intro d y hdy
      have hx := (List.of_mem_zip hdy).1
      obtain ⟨pH, pV, r1, r2, z1, z2⟩ := (h4 d).1 hx
      obtain ⟨-, -, hval⟩ := h5 d y hdy
      obtain ⟨a, b, ha, hb, hy⟩ := hval pH pV r1 r2
      have b1 := rateAt_bounds hg (.inl r1)
      have b2 := rateAt_bounds hg (.inr r2)
      refine ⟨pH, pV, a, b, (kindRate_true hp hG hm d _).2 ⟨pH, r1, rfl⟩, (kindRate_false hp hG hm d _).2 ⟨pV, r2, rfl⟩,
        by exact_mod_cast z1, by exact_mod_cast z2, ?_, ?_, hy⟩
      · exact (perCell_iff (by exact_mod_cast b1.1) (by exact_mod_cast b1.2) (by norm_num) a).1 ha
      · exact (perCell_iff (by exact_mod_cast b2.1) (by exact_mod_cast b2.2) (by norm_num) b).1 hb
    intro d y
    refine ⟨fwd d y, ?_⟩
    rintro ⟨rH, rV, a, b, kH, kV, z1, z2, ha, hb, rfl⟩
    obtain ⟨pH, r1, rfl⟩ := (kindRate_true hp hG hm d rH).1 kH
    obtain ⟨pV, r2, rfl⟩ := (kindRate_false hp hG hm d rV).1 kV
    have hx : d ∈ xs := (h4 d).2 ⟨pH, pV, r1, r2, by exact_mod_cast z1, by exact_mod_cast z2⟩
    obtain ⟨i, hi, rfl⟩ := List.mem_iff_getElem.1 hx
    have hz : (xs[i], ys[i]'(by omega)) ∈ xs.zip ys := by
      rw [List.mem_iff_getElem]
      exact ⟨i, by rw [List.length_zip]; omega, by rw [List.getElem_zip]⟩
    obtain ⟨-, -, hval⟩ := h5 _ _ hz
    obtain ⟨a', b', ha', hb', hy⟩ := hval pH pV r1 r2
    have b1 := rateAt_bounds hg (.inl r1)
    have b2 := rateAt_bounds hg (.inr r2)
    have ha2 := (perCell_iff (k := 3) (by exact_mod_cast b1.1) (by exact_mod_cast b1.2) (by norm_num) a).2 ha
    have hb2 := (perCell_iff (k := 3) (by exact_mod_cast b2.1) (by exact_mod_cast b2.2) (by norm_num) b).2 hb
    have ea : a' = a := Except.ok.inj (ha'.symm.trans ha2)
    have eb : b' = b := Except.ok.inj (hb'.symm.trans hb2)
    rw [← ea, ← eb, ← hy]
    exact hz

theorem logPoints_zip : ∀ (xs : List Int) (ys : List ℝ), logPoints (xs.zip ys) = (xs.map fun x : Int => (x : ℝ)).zip (ys.map Real.log) := by
  intro xs
  induction xs with
  | nil => intro ys; rfl
  | cons x xs ih =>
    intro ys
    cases ys with
    | nil => rfl
    | cons y ys =>
      simp only [List.zip_cons_cons, List.map_cons]
      rw [← ih]
      rfl

theorem distinct_of_length {xs : List Int} (h : xs.Pairwise (· < ·)) (hx : ¬ xs.length ≤ 1) :
    ∃ a ∈ xs.map (fun x : Int => (x : ℝ)), ∃ b ∈ xs.map (fun x : Int => (x : ℝ)), a ≠ b := by
  match xs, hx, h with
  | x :: y :: l, _, h =>
    refine ⟨x, by simp, y, by simp, ?_⟩
    have : x < y := (List.pairwise_cons.1 h).1 y (by simp)
    exact_mod_cast this.ne
  | [_], hx, _ => simp at hx
  | [], hx, _ => simp at hx

theorem linregress_zero {linregress : List ℝ → List ℝ → LineFit} (hl : LinregressMinimises linregress) :
    (linregress [0, 1] [0, 0]).slope = 0 ∧ (linregress [0, 1] [0, 0]).intercept = 0 := by
  have := hl [0, 1] [0, 0] rfl ⟨0, by simp, 1, by simp, by norm_num⟩ 0 0
  simp only [squaredResiduals, List.zip_cons_cons, List.zip_nil_right, List.map_cons, List.map_nil, List.sum_cons, List.sum_nil] at this
  have h1 : (linregress [0, 1] [0, 0]).intercept = 0 := by
    nlinarith [sq_nonneg ((linregress [0, 1] [0, 0]).slope * 1 + (linregress [0, 1] [0, 0]).intercept - 0),
      sq_nonneg (linregress [0, 1] [0, 0]).intercept]
  rw [h1] at this
  refine ⟨?_, h1⟩
  nlinarith [sq_nonneg (linregress [0, 1] [0, 0]).slope]

/-- The fit of a group. -/
theorem group_trend {linregress : List ℝ → List ℝ → LineFit} (hl : LinregressMinimises linregress) {xs : List Int} {ys : List ℝ}
    (h1 : g.comboData = .ok (xs, ys)) (h2 : xs.length = ys.length) (h3 : xs.Pairwise (· < ·)) (hpos : ∀ y ∈ ys, 0 < y) :
    ∃ r, g.linearFit linregress = .ok r ∧ IsTrend (xs.zip ys) r.slope r.intercept ∧
      (¬ xs.length ≤ 1 → r = linregress (xs.map fun x : Int => (x : ℝ)) (ys.map Real.log)) := by
  refine ⟨if xs.length ≤ 1 then linregress [0, 1] [0, 0] else linregress (xs.map fun x : Int => (x : ℝ)) (ys.map Real.log), ?_, ?_, ?_⟩
  · rw [linearFit]
    simp only [bind, Except.bind, h1]
    by_cases hx : xs.length ≤ 1
    · rw [if_pos hx, if_pos hx]; rfl
    · rw [if_neg hx, if_neg hx, mapM_pyLog hpos]; rfl
  · rw [IsTrend, List.length_zip, ← h2, Nat.min_self]
    by_cases hx : xs.length ≤ 1
    · rw [if_pos hx, if_pos hx]
      exact linregress_zero hl
    · rw [if_neg hx, if_neg hx, logPoints_zip]
      exact hl _ _ (by simp [h2]) (distinct_of_length h3 hx)
  · intro hx
    rw [if_neg hx]

theorem group_suppressing {linregress : List ℝ → List ℝ → LineFit} {r : LineFit} (h : g.linearFit linregress = .ok r) :
    g.appearsToBeSuppressing linregress = .ok (Falls r.slope r.intercept) := by
  rw [appearsToBeSuppressing]
  simp only [bind, Except.bind, h]
  rfl

theorem falls_slope {s i : ℝ} (h : Falls s i) : s < 0 := by
  rcases h with h | h
  · linarith [h.1]
  · linarith

end Group

theorem projected_ok {g : LambdaGroup} {linregress : List ℝ → List ℝ → LineFit} {r : LineFit} (hr : g.linearFit linregress = .ok r)
    (hs : r.slope < 0) {t : ℝ} (ht : 0 < t) :
    g.projectedDistance linregress t = .ok (some ((Real.log t - r.intercept) / r.slope)) ∧
      Real.exp (r.slope * ((Real.log t - r.intercept) / r.slope) + r.intercept) = t := by
  constructor
  · rw [projectedDistance]
    simp only [bind, Except.bind, hr, pyLog, if_pos ht, if_neg hs.ne, pure, Except.pure]
  · rw [mul_div_cancel₀ _ hs.ne, sub_add_cancel, Real.exp_log ht]

/-! ## Trends are unique -/

theorem cellPoints_unique {D : ProblemShotData} {n : Rat} {pts pts' : List (Int × ℝ)} (h : CellPoints D n pts) (h' : CellPoints D n pts') :
    pts = pts' := by
  have : Std.Asymm (fun a b : Int × ℝ => a.1 < b.1) := ⟨fun a b h1 h2 => absurd (h1.trans h2) (lt_irrefl _)⟩
  have : Std.Irrefl (fun a b : Int × ℝ => a.1 < b.1) := ⟨fun a h => absurd h (lt_irrefl _)⟩
  exact List.Pairwise.eq_of_mem_iff h.1 h'.1 fun q => by rw [h.2 q.1 q.2, h'.2 q.1 q.2]

theorem residuals_midpoint (s i s' i' : ℝ) : ∀ pts : List (ℝ × ℝ), squaredResiduals pts ((s + s') / 2) ((i + i') / 2) +
    (pts.map fun q => ((s - s') / 2 * q.1 + (i - i') / 2) ^ 2).sum = (squaredResiduals pts s i + squaredResiduals pts s' i') / 2 := by
  intro pts
  induction pts with
  | nil => simp [squaredResiduals]
  | cons q pts ih =>
    simp only [squaredResiduals, List.map_cons, List.sum_cons] at ih ⊢
    linear_combination ih

theorem sum_sq_zero : ∀ (l : List (ℝ × ℝ)) (f : ℝ × ℝ → ℝ), (l.map fun q => f q ^ 2).sum ≤ 0 → ∀ q ∈ l, f q = 0 := by
  intro l f
  induction l with
  | nil => intro _ q hq; simp at hq
  | cons a l ih =>
    intro h q hq
    simp only [List.map_cons, List.sum_cons] at h
    have h1 : 0 ≤ (l.map fun q => f q ^ 2).sum := List.sum_nonneg (by
      intro x hx
      obtain ⟨y, -, rfl⟩ := List.mem_map.1 hx
      positivity)
    rcases List.mem_cons.1 hq with rfl | hq
    · exact pow_eq_zero_iff (two_ne_zero) |>.1 (le_antisymm (by linarith) (sq_nonneg _))
    · exact ih (by linarith [sq_nonneg (f a)]) q hq

theorem line_zero {s i x y : ℝ} (hxy : x ≠ y) (h1 : s * x + i = 0) (h2 : s * y + i = 0) : s = 0 ∧ i = 0 := by
  have : s * (x - y) = 0 := by linarith
  rcases mul_eq_zero.1 this with h | h
  · exact ⟨h, by rw [h] at h1; linarith⟩
  · exact absurd (sub_eq_zero.1 h) hxy

theorem fit_unique {pts : List (ℝ × ℝ)} (hd : ∃ a ∈ pts, ∃ b ∈ pts, a.1 ≠ b.1) {s i s' i' : ℝ}
    (h : ∀ t j, squaredResiduals pts s i ≤ squaredResiduals pts t j) (h' : ∀ t j, squaredResiduals pts s' i' ≤ squaredResiduals pts t j) :
    s = s' ∧ i = i' := by
  have h1 := residuals_midpoint s i s' i' pts
  have h2 := h ((s + s') / 2) ((i + i') / 2)
  have h3 := h' ((s + s') / 2) ((i + i') / 2)
  have h4 := sum_sq_zero pts (fun q => (s - s') / 2 * q.1 + (i - i') / 2) (by linarith)
  obtain ⟨a, ha, b, hb, hab⟩ := hd
  obtain ⟨e1, e2⟩ := line_zero hab (h4 a ha) (h4 b hb)
  exact ⟨by linarith, by linarith⟩

theorem logPoints_distinct {pts : List (Int × ℝ)} (h : pts.Pairwise fun a b => a.1 < b.1) (hl : ¬ pts.length ≤ 1) :
    ∃ a ∈ logPoints pts, ∃ b ∈ logPoints pts, a.1 ≠ b.1 := by
  match pts, hl, h with
  | x :: y :: l, _, h =>
    refine ⟨_, List.mem_map.2 ⟨x, by simp, rfl⟩, _, List.mem_map.2 ⟨y, by simp, rfl⟩, ?_⟩
    have : x.1 < y.1 := (List.pairwise_cons.1 h).1 y (by simp)
    simp only
    exact_mod_cast this.ne
  | [_], hl, _ => simp at hl
  | [], hl, _ => simp at hl

theorem trend_unique {D : ProblemShotData} {n : Rat} {pts pts' : List (Int × ℝ)} {s i s' i' : ℝ} (hc : CellPoints D n pts)
    (hc' : CellPoints D n pts') (h : IsTrend pts s i) (h' : IsTrend pts' s' i') : s = s' ∧ i = i' := by
  have := cellPoints_unique hc hc'
  subst this
  rw [IsTrend] at h h'
  split_ifs at h h' with hl
  · exact ⟨h.1.trans h'.1.symm, h.2.trans h'.2.symm⟩
  · exact fit_unique (logPoints_distinct hc.1 hl) h h'

/-- A falling trend has at least two points, and their error rates differ. -/
theorem falls_points {pts : List (Int × ℝ)} (hs : pts.Pairwise fun a b => a.1 < b.1) {s i : ℝ} (ht : IsTrend pts s i) (hf : Falls s i) :
    ¬ pts.length ≤ 1 ∧ ∃ a ∈ logPoints pts, ∃ b ∈ logPoints pts, a.2 ≠ b.2 := by
  have hl : ¬ pts.length ≤ 1 := by
    intro hl
    rw [IsTrend, if_pos hl] at ht
    have := falls_slope hf
    linarith [ht.1]
  refine ⟨hl, ?_⟩
  by_contra hcon
  push Not at hcon
  rw [IsTrend, if_neg hl] at ht
  obtain ⟨a, ha, b, hb, hab⟩ := logPoints_distinct hs hl
  have hz : squaredResiduals (logPoints pts) 0 a.2 = 0 := by
    rw [squaredResiduals]
    refine List.sum_eq_zero ?_
    intro x hx
    obtain ⟨q, hq, rfl⟩ := List.mem_map.1 hx
    rw [hcon q hq a ha]
    ring
  have h1 := sum_sq_zero (logPoints pts) (fun q => s * q.1 + i - q.2) (by
    have := ht 0 a.2
    rw [hz] at this
    exact this)
  have e1 := h1 a ha
  have e2 := h1 b hb
  rw [hcon b hb a ha] at e2
  have := (line_zero (s := s) (i := i - a.2) hab (by linarith) (by linarith)).1
  have := falls_slope hf
  linarith

/-! ## Searches do not depend on their fuel -/

theorem slopeRange_fuel {leastsq : (ℝ → ℝ) → ℝ} {linregress : List ℝ → List ℝ → LineFit} {isinf : ℝ → Prop} {xs ys : List ℝ} {c : ℝ}
    {fuel fuel' : Nat} {r : Except PyErr (ℝ × ℝ × ℝ)} (hf : fuel ≤ fuel')
    (h : leastSquaresSlopeRange leastsq linregress isinf xs ys c fuel = some r) :
    leastSquaresSlopeRange leastsq linregress isinf xs ys c fuel' = some r := by
  rw [leastSquaresSlopeRange] at h ⊢
  by_cases hlen : xs.length ≠ ys.length
  · rw [if_pos hlen] at h ⊢; exact h
  · rw [if_neg hlen] at h ⊢
    simp only at h ⊢
    generalize hx : binaryIntercept (costForSlope leastsq xs ys) isinf (linregress xs ys).slope (-1) _ _ fuel = x at h
    cases x with
    | none => simp at h
    | some x =>
      rw [c41_fuel _ _ _ _ _ _ fuel fuel' _ hf hx]
      cases x with
      | error e => exact h
      | ok x =>
        simp only at h ⊢
        generalize hy : binaryIntercept (costForSlope leastsq xs ys) isinf (linregress xs ys).slope 1 _ _ fuel = y at h
        cases y with
        | none => simp at h
        | some y =>
          rw [c41_fuel _ _ _ _ _ _ fuel fuel' _ hf hy]
          exact h

theorem outputRange_fuel {leastsq : (ℝ → ℝ) → ℝ} {linregress : List ℝ → List ℝ → LineFit} {isinf : ℝ → Prop} {xs ys : List ℝ} {t c : ℝ}
    {fuel fuel' : Nat} {r : Except PyErr (ℝ × ℝ)} (hf : fuel ≤ fuel')
    (h : leastSquaresOutputRange leastsq linregress isinf xs ys t c fuel = some r) :
    leastSquaresOutputRange leastsq linregress isinf xs ys t c fuel' = some r := by
  rw [leastSquaresOutputRange] at h ⊢
  by_cases hlen : xs.length ≠ ys.length
  · rw [if_pos hlen] at h ⊢; exact h
  · rw [if_neg hlen] at h ⊢
    simp only at h ⊢
    generalize hx : binaryIntercept (costForY leastsq xs ys t) isinf _ (-1) _ _ fuel = x at h
    cases x with
    | none => simp at h
    | some x =>
      rw [c41_fuel _ _ _ _ _ _ fuel fuel' _ hf hx]
      cases x with
      | error e => exact h
      | ok x =>
        simp only at h ⊢
        generalize hy : binaryIntercept (costForY leastsq xs ys t) isinf _ 1 _ _ fuel = y at h
        cases y with
        | none => simp at h
        | some y =>
          rw [c41_fuel _ _ _ _ _ _ fuel fuel' _ hf hy]
          exact h

/-! ## Lambda factors -/

section Value

variable {D : ProblemShotData} {n : Rat} {g : LambdaGroup} {xs : List Int} {ys : List ℝ} {r : LineFit}

theorem bestCost_fit {linregress : List ℝ → List ℝ → LineFit} (hl : LinregressMinimises linregress) {us vs : List ℝ} (h : us.length = vs.length)
    (hd : ∃ a ∈ us, ∃ b ∈ us, a ≠ b) :
    IsBestCost (us.zip vs) (squaredResiduals (us.zip vs) (linregress us vs).slope (linregress us vs).intercept) :=
  ⟨⟨_, _, rfl⟩, hl us vs h hd⟩

theorem slopeToLambda_eq (s : ℝ) : slopeToLambda s = Real.exp (-2 * s) := by
  rw [slopeToLambda, ← Real.exp_nat_mul, one_div, ← Real.exp_neg]
  congr 1
  push_cast
  ring

theorem lambda_value_ok {leastsq : (ℝ → ℝ) → ℝ} (hls : LeastsqMinimises leastsq) {linregress : List ℝ → List ℝ → LineFit}
    (hl : LinregressMinimises linregress) {isinf : ℝ → Prop} (hinf : ∀ j : Nat, ¬ isinf (1 * 2 ^ j) ∧ ¬ isinf (-1 * 2 ^ j))
    (h1 : g.comboData = .ok (xs, ys)) (h2 : xs.length = ys.length) (h3 : xs.Pairwise (· < ·)) (hpos : ∀ y ∈ ys, 0 < y)
    (hpts : CellPoints D n (xs.zip ys)) (ht : IsTrend (xs.zip ys) r.slope r.intercept)
    (hr : ¬ xs.length ≤ 1 → r = linregress (xs.map fun x : Int => (x : ℝ)) (ys.map Real.log)) (hf : Falls r.slope r.intercept) :
    ∃ fuel t, (∀ fuel', fuel ≤ fuel' → ∀ style, lambdaValue leastsq linregress isinf fuel' style g = some (.ok t)) ∧ LambdaAt D n t := by
  have hx : ¬ xs.length ≤ 1 := by
    have := (falls_points hpts.1 ht hf).1
    rwa [List.length_zip, ← h2, Nat.min_self] at this
  have hlen : (xs.map fun x : Int => (x : ℝ)).length = (ys.map Real.log).length := by simp [h2]
  have hdist := distinct_of_length h3 hx
  obtain ⟨fuel, _, ⟨⟨low, mid, high⟩, hsl⟩⟩ := c61_ranges_total leastsq hls linregress isinf (xs.map fun x : Int => (x : ℝ)) (ys.map Real.log) 0 1
    hlen hdist one_pos hinf
  obtain ⟨m1, m2, m3, ⟨v1, b1, c1⟩, v3, b3, c3⟩ := c61_slope_range leastsq hls linregress isinf _ _ 1 fuel low mid high hsl
  rw [← hr hx] at m1 c1 c3
  refine ⟨fuel, ⟨slopeToLambda low, slopeToLambda mid, slopeToLambda high⟩, fun fuel' hf' style => ?_, xs.zip ys, r.slope, r.intercept, hpts, ht, ?_, ?_, ?_, ?_⟩
  · have : g.projectedLambdaRange leastsq linregress isinf fuel' = some (.ok (slopeToLambda low, slopeToLambda mid, slopeToLambda high)) := by
      rw [projectedLambdaRange, h1]
      simp only [mapM_pyLog hpos, if_neg hx, slopeRange_fuel hf' hsl]
      rfl
    rw [lambdaValue, this]
    rfl
  · intro d
    simp only
    rw [slopeToLambda_eq, m1, ← Real.exp_add]
    congr 1
    ring
  · simp only [slopeToLambda_eq]
    exact Real.exp_le_exp.2 (by linarith)
  · simp only [slopeToLambda_eq]
    exact Real.exp_le_exp.2 (by linarith)
  · refine ⟨low, high, squaredResiduals (logPoints (xs.zip ys)) r.slope r.intercept, v1, v3, slopeToLambda_eq _, slopeToLambda_eq _,
      by linarith, by linarith, ?_⟩
    rw [logPoints_zip]
    refine ⟨?_, b1, c1, b3, c3⟩
    rw [hr hx]
    exact bestCost_fit hl hlen hdist

/-! ## Qubit counts -/

theorem footprint_ok {style : String} (hrep : Collected g.rep) (hst : g.rep.circuit_style = style) (d : Int) :
    ∃ q : Rat, g.dToQ d style = .ok q ∧ Footprint style d (q : ℝ) := by
  subst hst
  generalize hg : g.rep = k at hrep
  cases hrep with
  | honeycomb p u style obs decoder hp hu hs ho hd =>
    obtain ⟨k, k1, k2, hk⟩ := honeycomb_qubits g ⟨u * 4, u * 6, u * 3 * 4 * 3, style, obs, p⟩ decoder u d hu.1 (by simp; ring) (by simp; ring)
      (by simp only; tauto) hg
    refine ⟨_, by rw [hg] at hk; exact hk, ?_⟩
    have hk0 : 0 ≤ 4 * k * (6 * k) * 5 := by nlinarith [sq_nonneg k]
    have e : ((4 * k * (6 * k) * 5).tdiv 2 : Int) = 60 * k ^ 2 := by
      rw [Int.tdiv_eq_ediv_of_nonneg hk0]
      exact Int.ediv_eq_of_eq_mul_left (by norm_num) (by ring)
    right
    rcases hs with rfl | rfl | rfl
    · left
      refine ⟨.inr rfl, k, k1, k2, ?_⟩
      have : (HoneycombLayout.num_qubits ⟨4 * k, 6 * k, u * 3 * 4 * 3, "SI1000", obs, p⟩) = 60 * k ^ 2 := by
        rw [HoneycombLayout.num_qubits, if_neg (by simp [HoneycombLayout.isEM3])]
        exact e
      rw [this]
      push_cast
      ring
    · left
      refine ⟨.inl rfl, k, k1, k2, ?_⟩
      have : (HoneycombLayout.num_qubits ⟨4 * k, 6 * k, u * 3 * 4 * 3, "SD6", obs, p⟩) = 60 * k ^ 2 := by
        rw [HoneycombLayout.num_qubits, if_neg (by simp [HoneycombLayout.isEM3])]
        exact e
      rw [this]
      push_cast
      ring
    · right
      refine ⟨rfl, k, k1, k2, ?_⟩
      have : (HoneycombLayout.num_qubits ⟨4 * k, 6 * k, u * 3 * 4 * 3, "EM3_v2", obs, p⟩) = 4 * k * (6 * k) := by
        rw [HoneycombLayout.num_qubits, if_pos (by simp [HoneycombLayout.isEM3])]
      rw [this]
      push_cast
      ring
  | surface p d0 noise_name obs decoder hp hd hs ho hdec =>
    refine ⟨((2 * d ^ 2 - 1 : Int) : Rat), ?_, .inl ⟨?_, by push_cast; rfl⟩⟩
    · have := c60_surface g noise_name obs decoder p d0 d (by simp only [List.mem_cons, List.not_mem_nil, or_false] at hd; omega) hg
      rw [hg] at this
      exact this
    · rcases hs with rfl | rfl
      · exact .inl rfl
      · exact .inr rfl

theorem zip_swap : ∀ (us vs : List ℝ), (us.zip vs).map Prod.swap = vs.zip us := by
  intro us
  induction us with
  | nil => intro vs; simp
  | cons u us ih =>
    intro vs
    cases vs with
    | nil => rfl
    | cons v vs => simp [ih]

theorem qubits_value_ok {leastsq : (ℝ → ℝ) → ℝ} (hls : LeastsqMinimises leastsq) {linregress : List ℝ → List ℝ → LineFit}
    (hl : LinregressMinimises linregress) {isinf : ℝ → Prop} (hinf : ∀ j : Nat, ¬ isinf (1 * 2 ^ j) ∧ ¬ isinf (-1 * 2 ^ j))
    (hrep : Collected g.rep) {style : String} (hst : g.rep.circuit_style = style) (hfit : g.linearFit linregress = .ok r)
    (h1 : g.comboData = .ok (xs, ys)) (h2 : xs.length = ys.length) (hpos : ∀ y ∈ ys, 0 < y)
    (hpts : CellPoints D n (xs.zip ys)) (ht : IsTrend (xs.zip ys) r.slope r.intercept) (hf : Falls r.slope r.intercept) :
    ∃ fuel t, (∀ fuel', fuel ≤ fuel' → teraquopValue leastsq linregress isinf fuel' style g = some (.ok t)) ∧ QubitsAt D style n t := by
  obtain ⟨hx, a, ha, b, hb, hab⟩ := falls_points hpts.1 ht hf
  rw [List.length_zip, ← h2, Nat.min_self] at hx
  have hs := falls_slope hf
  have hT : (0 : ℝ) < 1 / 10 ^ 12 := by positivity
  have hlen : (ys.map Real.log).length = (xs.map fun x : Int => (x : ℝ)).length := by simp [h2]
  have hdist : ∃ a ∈ ys.map Real.log, ∃ b ∈ ys.map Real.log, a ≠ b := by
    rw [logPoints_zip] at ha hb
    exact ⟨a.2, (List.of_mem_zip ha).2, b.2, (List.of_mem_zip hb).2, hab⟩
  obtain ⟨fuel, ⟨⟨d1, d2⟩, hout⟩, _⟩ := c61_ranges_total leastsq hls linregress isinf (ys.map Real.log) (xs.map fun x : Int => (x : ℝ))
    (Real.log (1 / 10 ^ 12)) 1 hlen hdist one_pos hinf
  obtain ⟨m1, m2, ⟨v1, b1, c1⟩, v2, b2, c2⟩ := c61_output_range leastsq hls linregress isinf _ _ _ 1 fuel d1 d2 hout
  obtain ⟨p1, p2⟩ := projected_ok hfit hs hT
  obtain ⟨q, hq, fq⟩ := footprint_ok hrep hst ⌈(Real.log (1 / 10 ^ 12) - r.intercept) / r.slope⌉
  obtain ⟨q1, hq1, fq1⟩ := footprint_ok hrep hst ⌈d1⌉
  obtain ⟨q2, hq2, fq2⟩ := footprint_ok hrep hst ⌈d2⌉
  refine ⟨fuel, ⟨q1, q, q2⟩, fun fuel' hf' => ?_, xs.zip ys, r.slope, r.intercept, hpts, ht, ⟨_, ?_, ?_, fq⟩, d1, d2,
    squaredResiduals ((logPoints (xs.zip ys)).map Prod.swap) (linregress (ys.map Real.log) (xs.map fun x : Int => (x : ℝ))).slope
      (linregress (ys.map Real.log) (xs.map fun x : Int => (x : ℝ))).intercept, v1, v2,
    m1.trans m2, fq1, fq2, ?_⟩
  · have e1 : g.projectedQubits linregress (1 / 10 ^ 12) style = .ok q := by
      rw [projectedQubits]
      simp only [bind, Except.bind, p1]
      exact hq
    have e2 : g.projectedQubitRange leastsq linregress isinf fuel' (1 / 10 ^ 12) style = some (.ok (q1, q2)) := by
      rw [projectedQubitRange, h1]
      simp only [mapM_pyLog hpos, if_neg hx, pyLog, if_pos hT, outputRange_fuel hf' hout, Option.map_some, bind, Except.bind, hq1, hq2]
      rfl
    rw [teraquopValue, e1, e2]
    rfl
  · conv_rhs => rw [← p2]
    refine Real.exp_le_exp.2 ?_
    have := mul_le_mul_of_nonpos_left (Int.le_ceil ((Real.log (1 / 10 ^ 12) - r.intercept) / r.slope)) hs.le
    linarith
  · conv_lhs => rw [← p2]
    refine Real.exp_lt_exp.2 ?_
    have h := Int.ceil_lt_add_one ((Real.log (1 / 10 ^ 12) - r.intercept) / r.slope)
    have := mul_lt_mul_of_neg_left (show (⌈(Real.log (1 / 10 ^ 12) - r.intercept) / r.slope⌉ : ℝ) - 1 <
      (Real.log (1 / 10 ^ 12) - r.intercept) / r.slope by linarith) hs
    linarith
  · rw [logPoints_zip, zip_swap]
    exact ⟨bestCost_fit hl hlen hdist, b1, c1, b2, c2⟩

end Value

/-! ## Existence of the best line -/

theorem sum_line_sq (u v w : ℝ) : ∀ pts : List (ℝ × ℝ), (pts.map fun q => (u * q.1 + v - w * q.2) ^ 2).sum =
    u ^ 2 * (pts.map fun q => q.1 ^ 2).sum + 2 * u * v * (pts.map fun q => q.1).sum + v ^ 2 * pts.length -
      2 * u * w * (pts.map fun q => q.1 * q.2).sum - 2 * v * w * (pts.map fun q => q.2).sum + w ^ 2 * (pts.map fun q => q.2 ^ 2).sum := by
  intro pts
  induction pts with
  | nil => simp
  | cons q pts ih =>
    simp only [List.map_cons, List.sum_cons, ih, List.length_cons]
    push_cast
    ring

theorem exists_best_line {pts : List (ℝ × ℝ)} (hd : ∃ a ∈ pts, ∃ b ∈ pts, a.1 ≠ b.1) :
    ∃ s i, ∀ t j, squaredResiduals pts s i ≤ squaredResiduals pts t j := by
  have hsr : ∀ s i, squaredResiduals pts s i = (pts.map fun q => (s * q.1 + i - 1 * q.2) ^ 2).sum := by
    intro s i
    simp only [squaredResiduals, one_mul]
  have h0 := fun u v => sum_line_sq u v 0 pts
  have h1 := fun s i => sum_line_sq s i 1 pts
  set sxx := (pts.map fun q => q.1 ^ 2).sum
  set sx := (pts.map fun q => q.1).sum
  set sxy := (pts.map fun q => q.1 * q.2).sum
  set sy := (pts.map fun q => q.2).sum
  set N : ℝ := (pts.length : ℝ)
  have hN : N ≠ 0 := by
    obtain ⟨a, ha, -⟩ := hd
    exact Nat.cast_ne_zero.2 (List.length_pos_of_mem ha).ne'
  have hD : N * sxx - sx ^ 2 ≠ 0 := by
    intro hD
    have := h0 N (-sx)
    have hz : N ^ 2 * sxx + 2 * N * -sx * sx + (-sx) ^ 2 * N - 2 * N * 0 * sxy - 2 * -sx * 0 * sy + 0 ^ 2 * (pts.map fun q => q.2 ^ 2).sum
        = 0 := by linear_combination N * hD
    rw [hz] at this
    have hall := sum_sq_zero pts _ this.le
    obtain ⟨a, ha, b, hb, hab⟩ := hd
    exact hN (line_zero hab (by simpa using hall a ha) (by simpa using hall b hb)).1
  refine ⟨(N * sxy - sx * sy) / (N * sxx - sx ^ 2), (sy - (N * sxy - sx * sy) / (N * sxx - sx ^ 2) * sx) / N, fun t j => ?_⟩
  set s := (N * sxy - sx * sy) / (N * sxx - sx ^ 2) with hs
  set i := (sy - s * sx) / N with hi
  have e1 : N * i + s * sx = sy := by rw [hi]; field_simp; ring
  have e2 : s * (N * sxx - sx ^ 2) = N * sxy - sx * sy := by rw [hs]; field_simp
  have e3 : s * sxx + i * sx = sxy := by
    have : N * (s * sxx + i * sx - sxy) = 0 := by linear_combination e2 + sx * e1
    rcases mul_eq_zero.1 this with h | h
    · exact absurd h hN
    · linarith
  have hnn : 0 ≤ (pts.map fun q => ((t - s) * q.1 + (j - i) - 0 * q.2) ^ 2).sum := List.sum_nonneg (by
    intro x hx
    obtain ⟨y, -, rfl⟩ := List.mem_map.1 hx
    positivity)
  rw [h0] at hnn
  rw [hsr, hsr, h1, h1]
  have m1 : (t - s) * (s * sxx + i * sx) = (t - s) * sxy := by rw [e3]
  have m2 : (j - i) * (N * i + s * sx) = (j - i) * sy := by rw [e1]
  linarith

/-- There are regressions with the assumed property. -/
theorem exists_linregress : ∃ linregress, LinregressMinimises linregress := by
  classical
  refine ⟨fun xs ys => if h : ∃ s i, ∀ t j, squaredResiduals (xs.zip ys) s i ≤ squaredResiduals (xs.zip ys) t j then
    ⟨h.choose, h.choose_spec.choose⟩ else ⟨0, 0⟩, fun xs ys hlen hd => ?_⟩
  have h : ∃ s i, ∀ t j, squaredResiduals (xs.zip ys) s i ≤ squaredResiduals (xs.zip ys) t j := by
    apply exists_best_line
    obtain ⟨a, ha, b, hb, hab⟩ := hd
    have key : ∀ x ∈ xs, ∃ y, (x, y) ∈ xs.zip ys := by
      intro x hx
      rw [← List.map_fst_zip (l₁ := xs) (l₂ := ys) hlen.le] at hx
      obtain ⟨q, hq, rfl⟩ := List.mem_map.1 hx
      exact ⟨q.2, hq⟩
    obtain ⟨y, hy⟩ := key a ha
    obtain ⟨z, hz⟩ := key b hb
    exact ⟨_, hy, _, hz, hab⟩
  simp only [dif_pos h]
  exact h.choose_spec.choose_spec

end Honeycomb
