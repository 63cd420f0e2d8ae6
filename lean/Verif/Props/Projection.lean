import Verif.Props.Lambda
import Verif.Props.LeastSquares

/-!
# Projections and problem lists of `src/paper`: C60, C65, C66
-/

namespace Honeycomb
open LambdaGroup HoneycombLayout

/-! ## C60 -/

theorem floor_half (z : Int) : ⌊(z : Rat) + 1 / 2⌋ = z := by
  rw [Int.floor_eq_iff]
  constructor <;> linarith

theorem pyIn_append (a b : String) : pyIn a (a ++ b) = true := by
  simp only [pyIn, decide_eq_true_eq, String.toList_append]
  exact ⟨[], b.toList, by simp⟩

/-- C60, surface codes: whatever distance the representative has, the projected number of qubits for distance `d` is `2d² - 1`. -/
theorem c60_surface (g : LambdaGroup) (noise_name obs decoder : String) (noise : Rat) (d0 d : Int) (hd0 : 1 ≤ d0)
    (hrep : g.rep = surfaceCodeDesc noise_name noise obs d0 decoder) :
    g.dToQ d g.rep.circuit_style = .ok ((2 * d ^ 2 - 1 : Int) : Rat) := by
  have hstyle : pyIn "surface" g.rep.circuit_style = true := by
    rw [hrep]
    show pyIn "surface" ("surface" ++ "_" ++ noise_name) = true
    rw [String.append_assoc]
    exact pyIn_append _ _
  have hcd : g.rep.code_distance = d0 := by rw [hrep]; rfl
  have hq : g.rep.num_qubits = 2 * d0 * d0 - 1 := by rw [hrep]; rfl
  have hne : (d0 : Rat) ≠ 0 := by
    have : d0 ≠ 0 := by omega
    exact_mod_cast this
  have e : ((g.rep.num_qubits : Rat) + 1) * ((d : Rat) / (g.rep.code_distance : Rat)) ^ 2 - 1 = ((2 * d ^ 2 - 1 : Int) : Rat) := by
    rw [hcd, hq]
    push_cast
    field_simp
    ring
  rw [dToQ, if_pos hstyle]
  simp only [hcd] at e ⊢
  rw [if_neg (by omega)]
  simp only [bind, Except.bind, pure, Except.pure, e, floor_half]
  simp

theorem style_not_surface {style : String}
    (h : style = "SD6" ∨ style = "PC3" ∨ style = "EM3" ∨ style = "EM3_v2" ∨ style = "SI1000") :
    pyIn "surface" ("honeycomb_" ++ style) = false := by
  rcases h with rfl | rfl | rfl | rfl | rfl <;> decide

theorem honeycomb_qubits (g : LambdaGroup) (lay : HoneycombLayout) (decoder : String) (u d : Int) (hu : 1 ≤ u)
    (hw : lay.data_width = 4 * u) (hh : lay.data_height = 6 * u)
    (hs : lay.style = "SD6" ∨ lay.style = "PC3" ∨ lay.style = "EM3" ∨ lay.style = "EM3_v2" ∨ lay.style = "SI1000")
    (hrep : g.rep = lay.asDecoderProblemDesc decoder) :
    ∃ k : Int, 4 * (k - 1) < d ∧ d ≤ 4 * k ∧
      g.dToQ d g.rep.circuit_style = .ok ({ lay with data_width := 4 * k, data_height := 6 * k }.num_qubits : Rat) := by
  have hne : (u : Rat) ≠ 0 := by
    have : u ≠ 0 := by omega
    exact_mod_cast this
  have hcd : g.rep.code_distance = 4 * u := by
    rw [hrep]
    show lay.code_distance_1qdep = _
    rw [code_distance_1qdep, hw, hh]
    omega
  have hq : g.rep.num_qubits = lay.num_qubits := by rw [hrep]; rfl
  have hst : g.rep.circuit_style = "honeycomb_" ++ lay.style := by rw [hrep]; rfl
  have hc1 : pyIn "surface" g.rep.circuit_style = false := by rw [hst]; exact style_not_surface hs
  have hc2 : pyIn "honeycomb" g.rep.circuit_style = true := by
    rw [hst, show "honeycomb_" = "honeycomb" ++ "_" from rfl, String.append_assoc]
    exact pyIn_append _ _
  set k := ⌈(d : Rat) / 4⌉ with hk
  have hk1 : d ≤ 4 * k := by
    have := Int.le_ceil ((d : Rat) / 4)
    rw [div_le_iff₀ (by norm_num), ← hk] at this
    have h2 : d ≤ k * 4 := by exact_mod_cast this
    omega
  have hk2 : 4 * (k - 1) < d := by
    have := Int.ceil_lt_add_one ((d : Rat) / 4)
    rw [← hk, ← sub_lt_iff_lt_add, lt_div_iff₀ (by norm_num)] at this
    have h2 : (k - 1) * 4 < d := by exact_mod_cast this
    omega
  refine ⟨k, hk2, hk1, ?_⟩
  · have e : (g.rep.num_qubits : Rat) * (((k * 4 : Int) : Rat) / (g.rep.code_distance : Rat)) ^ 2 =
        (({ lay with data_width := 4 * k, data_height := 6 * k }.num_qubits : Int) : Rat) := by
      rw [hcd, hq]
      have hk0 : 0 ≤ 4 * k * (6 * k) * 5 := by nlinarith [sq_nonneg k]
      have hu0 : 0 ≤ 4 * u * (6 * u) * 5 := by nlinarith
      have hiso : ({ lay with data_width := 4 * k, data_height := 6 * k } : HoneycombLayout).isEM3 = lay.isEM3 := rfl
      by_cases hem : lay.isEM3 = true
      · rw [num_qubits, num_qubits, if_pos hem, if_pos (hiso ▸ hem), hw, hh]
        push_cast
        field_simp
      · rw [num_qubits, num_qubits, if_neg hem, if_neg (fun h => hem (hiso ▸ h)), hw, hh]
        simp only
        rw [Int.tdiv_eq_ediv_of_nonneg hu0, Int.tdiv_eq_ediv_of_nonneg hk0,
          show 4 * u * (6 * u) * 5 / 2 = 60 * u ^ 2 from Int.ediv_eq_of_eq_mul_left (by norm_num) (by ring),
          show 4 * k * (6 * k) * 5 / 2 = 60 * k ^ 2 from Int.ediv_eq_of_eq_mul_left (by norm_num) (by ring)]
        push_cast
        field_simp
    rw [dToQ, hc1, if_neg (by simp), if_pos hc2, if_neg (by omega)]
    simp only [bind, Except.bind, pure, Except.pure, ← hk, e, floor_half]
    simp

/-- C60, honeycomb codes: whatever size `4u × 6u` the representative has, the projected number of qubits for distance `d` is that of the
smallest `4k × 6k` layout (of the same style) whose code distance is at least `d`. -/
theorem c60_honeycomb (g : LambdaGroup) (lay : HoneycombLayout) (decoder : String) (u d : Int) (hu : 1 ≤ u) (hd : 1 ≤ d)
    (hw : lay.data_width = 4 * u) (hh : lay.data_height = 6 * u)
    (hs : lay.style = "SD6" ∨ lay.style = "PC3" ∨ lay.style = "EM3" ∨ lay.style = "EM3_v2" ∨ lay.style = "SI1000")
    (hrep : g.rep = lay.asDecoderProblemDesc decoder) :
    ∃ k : Int, 1 ≤ k ∧
      (∀ j : Int, d ≤ { lay with data_width := 4 * j, data_height := 6 * j }.code_distance_1qdep ↔ k ≤ j) ∧
      g.dToQ d g.rep.circuit_style = .ok ({ lay with data_width := 4 * k, data_height := 6 * k }.num_qubits : Rat) := by
  obtain ⟨k, hk2, hk1, h⟩ := honeycomb_qubits g lay decoder u d hu hw hh hs hrep
  refine ⟨k, by omega, fun j => ?_, h⟩
  rw [code_distance_1qdep]
  simp only
  omega

/-- C60: other styles are rejected. -/
theorem c60_other (g : LambdaGroup) (d : Int) (style : String) (h1 : pyIn "surface" style = false) (h2 : pyIn "honeycomb" style = false) :
    g.dToQ d style = .error .notImplemented := by
  rw [dToQ, h1, h2]
  rfl

/-- Distance 5 needs the `8 × 12` layout, which has 240 qubits for SD6. -/
example : comboDemo.dToQ 5 comboDemo.rep.circuit_style = .ok 240 := by
  obtain ⟨k, h1, h2, h3⟩ := c60_honeycomb comboDemo (HoneycombLayout.mk 4 6 36 "SD6" "H" (1 / 100)) "internal" 1 5
    (by decide) (by decide) rfl rfl (Or.inl rfl) rfl
  have a := (h2 2).1 (by decide)
  have b : ¬ k ≤ 1 := fun h => absurd ((h2 1).2 h) (by decide)
  have hk : k = 2 := by omega
  rw [h3, hk]
  rfl

/-! ## C65: extrapolation -/

/-- C65: the distance projected for a target error rate is the one for which that error rate is projected. -/
theorem c65_inverse (linregress : List ℝ → List ℝ → LineFit) (g : LambdaGroup) (r : LineFit) (hr : g.linearFit linregress = .ok r)
    (hs : r.slope ≠ 0) (t : ℝ) (ht : 0 < t) :
    ∃ d, g.projectedDistance linregress t = .ok (some d) ∧ g.projectedError linregress d = .ok t := by
  refine ⟨(Real.log t - r.intercept) / r.slope, ?_, ?_⟩
  · rw [projectedDistance]
    simp only [bind, Except.bind, hr, pyLog, if_pos ht, if_neg hs, pure, Except.pure]
  · rw [projectedError]
    simp only [bind, Except.bind, hr, pure, Except.pure]
    rw [mul_div_cancel₀ _ hs, sub_add_cancel, Real.exp_log ht]

/-- C65: when errors are suppressed, lower target error rates need larger distances, and larger distances have lower projected error rates. -/
theorem c65_monotone (linregress : List ℝ → List ℝ → LineFit) (g : LambdaGroup) (r : LineFit) (hr : g.linearFit linregress = .ok r)
    (hs : r.slope < 0) (t t' : ℝ) (ht : 0 < t) (htt : t < t') :
    ∃ d d', g.projectedDistance linregress t = .ok (some d) ∧ g.projectedDistance linregress t' = .ok (some d') ∧ d' < d := by
  refine ⟨(Real.log t - r.intercept) / r.slope, (Real.log t' - r.intercept) / r.slope, ?_, ?_, ?_⟩
  · rw [projectedDistance]
    simp only [bind, Except.bind, hr, pyLog, if_pos ht, if_neg hs.ne, pure, Except.pure]
  · rw [projectedDistance]
    simp only [bind, Except.bind, hr, pyLog, if_pos (ht.trans htt), if_neg hs.ne, pure, Except.pure]
  · have := Real.log_lt_log ht htt
    exact (div_lt_div_right_of_neg hs).2 (by linarith)

/-- C65: a group that appears to suppress errors has a falling fit, so a distance is projected for every positive target. -/
theorem c65_suppressing (linregress : List ℝ → List ℝ → LineFit) (g : LambdaGroup) (P : Prop)
    (hP : g.appearsToBeSuppressing linregress = .ok P) (h : P) : ∃ r, g.linearFit linregress = .ok r ∧ r.slope < 0 := by
  rw [appearsToBeSuppressing] at hP
  cases hr : g.linearFit linregress with
  | error e => rw [hr] at hP; simp [bind, Except.bind] at hP
  | ok r =>
    rw [hr] at hP
    simp only [bind, Except.bind, pure, Except.pure, Except.ok.injEq] at hP
    subst hP
    refine ⟨r, rfl, ?_⟩
    rcases h with h | h
    · linarith [h.1]
    · linarith

/-- C65: lambda is the factor by which the projected error rate falls when the distance grows by 2. -/
theorem c65_lambda (linregress : List ℝ → List ℝ → LineFit) (g : LambdaGroup) (r : LineFit) (hr : g.linearFit linregress = .ok r) (d : ℝ) :
    ∃ a b, g.projectedError linregress d = .ok a ∧ g.projectedError linregress (d + 2) = .ok b ∧ a = slopeToLambda r.slope * b := by
  refine ⟨Real.exp (r.slope * d + r.intercept), Real.exp (r.slope * (d + 2) + r.intercept), ?_, ?_, ?_⟩
  · rw [projectedError]
    simp only [bind, Except.bind, hr, pure, Except.pure]
  · rw [projectedError]
    simp only [bind, Except.bind, hr, pure, Except.pure]
  · have e : Real.exp (r.slope * (d + 2) + r.intercept) =
        Real.exp (r.slope * d + r.intercept) * Real.exp r.slope * Real.exp r.slope := by
      rw [← Real.exp_add, ← Real.exp_add]
      congr 1
      ring
    rw [slopeToLambda, e]
    have := (Real.exp_pos r.slope).ne'
    field_simp

theorem mapM_pyLog {ys : List ℝ} (h : ∀ y ∈ ys, 0 < y) : ys.mapM pyLog = .ok (ys.map Real.log) := by
  induction ys with
  | nil => rfl
  | cons y ys ih =>
    rw [List.mapM_cons, ih fun y hy => h y (List.mem_cons_of_mem _ hy), pyLog, if_pos (h y (by simp))]
    rfl

/-- C65: the fit of a group exists: it is the regression through the logarithms of the combined rates, or through
the points (0,0) and (1,0) if there are less than two. -/
theorem c65_fit (linregress : List ℝ → List ℝ → LineFit) (g : LambdaGroup) (hg : GoodTables g) (hr : 1 ≤ g.rep.rounds)
    (hd : 1 ≤ g.rep.code_distance) :
    ∃ (xs : List Int) (ys : List ℝ), g.comboData = .ok (xs, ys) ∧
      g.linearFit linregress = .ok (if xs.length ≤ 1 then linregress [0, 1] [0, 0] else linregress (xs.map fun x : Int => (x : ℝ)) (ys.map Real.log)) := by
  obtain ⟨_, xs, ys, _, h1, h2, _, _, h5⟩ := c59_combined g hg hr hd
  refine ⟨xs, ys, h1, ?_⟩
  rw [linearFit]
  simp only [bind, Except.bind, h1]
  have hpos : ∀ y ∈ ys, 0 < y := by
    intro y hy
    obtain ⟨i, hi, rfl⟩ := List.mem_iff_getElem.1 hy
    refine (h5 (xs[i]'(by omega)) ys[i] ?_).1
    rw [List.mem_iff_getElem]
    exact ⟨i, by rw [List.length_zip]; omega, by rw [List.getElem_zip]⟩
  by_cases hx : xs.length ≤ 1
  · rw [if_pos hx, if_pos hx]; rfl
  · rw [if_neg hx, if_neg hx, mapM_pyLog hpos]; rfl

/-- C65: the projected range of lambda exists and is ordered; its middle is the lambda of the fit. Since lambda falls with the slope, the **first**
component is the largest one. (The figure calls it `low`.) -/
theorem c65_lambda_range (leastsq : (ℝ → ℝ) → ℝ) (hl : LeastsqMinimises leastsq) (linregress : List ℝ → List ℝ → LineFit)
    (isinf : ℝ → Prop) (hinf : ∀ j : Nat, ¬ isinf (1 * 2 ^ j) ∧ ¬ isinf (-1 * 2 ^ j)) (hlin : (linregress [0, 1] [0, 0]).slope = 0)
    (g : LambdaGroup) (hg : GoodTables g) (hr : 1 ≤ g.rep.rounds) (hd : 1 ≤ g.rep.code_distance) :
    ∃ fuel l1 l2 l3 r, g.projectedLambdaRange leastsq linregress isinf fuel = some (.ok (l1, l2, l3)) ∧ l3 ≤ l2 ∧ l2 ≤ l1 ∧
      g.linearFit linregress = .ok r ∧ l2 = slopeToLambda r.slope := by
  obtain ⟨_, xs, ys, _, h1, h2, h3, _, h5⟩ := c59_combined g hg hr hd
  obtain ⟨xs', ys', h1', hfit⟩ := c65_fit linregress g hg hr hd
  rw [h1] at h1'
  simp only [Except.ok.injEq, Prod.mk.injEq] at h1'
  obtain ⟨rfl, rfl⟩ := h1'
  have hpos : ∀ y ∈ ys, 0 < y := by
    intro y hy
    obtain ⟨i, hi, rfl⟩ := List.mem_iff_getElem.1 hy
    refine (h5 (xs[i]'(by omega)) ys[i] ?_).1
    rw [List.mem_iff_getElem]
    exact ⟨i, by rw [List.length_zip]; omega, by rw [List.getElem_zip]⟩
  by_cases hx : xs.length ≤ 1
  · refine ⟨0, slopeToLambda 0, slopeToLambda 0, slopeToLambda 0, _, ?_, le_refl _, le_refl _, hfit, ?_⟩
    · rw [projectedLambdaRange, h1]
      simp only [mapM_pyLog hpos, if_pos hx]
      rfl
    · rw [if_pos hx, hlin]
  · have hlen : (xs.map fun x : Int => (x : ℝ)).length = (ys.map Real.log).length := by simp [h2]
    have hdist : ∃ a ∈ xs.map (fun x : Int => (x : ℝ)), ∃ b ∈ xs.map (fun x : Int => (x : ℝ)), a ≠ b := by
      match xs, hx, h3 with
      | x :: y :: l, _, h3 =>
        refine ⟨x, by simp, y, by simp, ?_⟩
        have : x < y := (List.pairwise_cons.1 h3).1 y (by simp)
        exact_mod_cast this.ne
      | [_], hx, _ => simp at hx
      | [], hx, _ => simp at hx
    obtain ⟨fuel, _, ⟨⟨low, mid, high⟩, hsl⟩⟩ := c61_ranges_total leastsq hl linregress isinf (xs.map fun x : Int => (x : ℝ)) (ys.map Real.log) 0 1
      hlen hdist one_pos hinf
    obtain ⟨m1, m2, m3, _⟩ := c61_slope_range leastsq hl linregress isinf _ _ 1 fuel low mid high hsl
    have mono : ∀ {a b : ℝ}, a ≤ b → slopeToLambda b ≤ slopeToLambda a := by
      intro a b hab
      rw [slopeToLambda, slopeToLambda]
      have := Real.exp_pos a
      have := Real.exp_le_exp.2 hab
      gcongr
    refine ⟨fuel, slopeToLambda low, slopeToLambda mid, slopeToLambda high, _, ?_, mono m3, mono m2, hfit, ?_⟩
    · rw [projectedLambdaRange, h1]
      simp only [mapM_pyLog hpos, if_neg hx, hsl]
      rfl
    · rw [if_neg hx, m1]

example : ∃ xs ys, comboDemo.comboData = .ok (xs, ys) := by
  obtain ⟨_, xs, ys, _, h, _⟩ := c59_combined comboDemo ⟨by decide, by decide, by decide, by decide⟩ (by
    show 1 ≤ ⌈((36 : Int) : Rat) / 3⌉
    norm_num) (by decide)
  exact ⟨xs, ys, h⟩

/-! ## C66: the problems of the collection script -/

/-- The parameters of a problem of the collection script. -/
inductive Collected : DecodingProblemDesc → Prop
  | honeycomb (p : Rat) (u : Int) (style obs decoder : String) (hp : p ∈ USED_NOISE_VALUES) (hu : 1 ≤ u ∧ u ≤ 5)
      (hs : style = "SI1000" ∨ style = "SD6" ∨ style = "EM3_v2") (ho : obs = "V" ∨ obs = "H") (hd : decoder ∈ DECODERS) :
      Collected (HoneycombLayout.asDecoderProblemDesc ⟨u * 4, u * 6, u * 3 * 4 * 3, style, obs, p⟩ decoder)
  | surface (p : Rat) (d : Int) (noise_name obs decoder : String) (hp : p ∈ USED_NOISE_VALUES) (hd : d ∈ ([3, 7, 11, 15, 19] : List Int))
      (hs : noise_name = "SD6" ∨ noise_name = "SI1000") (ho : obs = "X" ∨ obs = "Z") (hdec : decoder ∈ DECODERS) :
      Collected (surfaceCodeDesc noise_name p obs d decoder)

theorem mem_allDescs (k : DecodingProblemDesc) : k ∈ allDescs ↔ Collected k := by
  constructor
  · intro h
    rw [allDescs, List.mem_append] at h
    rcases h with h | h
    · simp only [honeycombDescs, collectLayouts, List.mem_flatMap, List.mem_map] at h
      obtain ⟨dec, hdec, lay, ⟨p, hp, u, hu, style, hst, obs, ho, rfl⟩, rfl⟩ := h
      refine .honeycomb p u style obs dec hp ?_ (by simpa using hst) (by simpa using ho) hdec
      simp only [List.mem_cons, List.not_mem_nil, or_false] at hu
      omega
    · simp only [surfaceCodeDescs, List.mem_flatMap, List.mem_map] at h
      obtain ⟨dec, hdec, d, hd, p, hp, n, hn, o, ho, rfl⟩ := h
      exact .surface p d n o dec hp hd (by simpa using hn) (by simpa using ho) hdec
  · intro h
    rw [allDescs, List.mem_append]
    cases h with
    | honeycomb p u style obs decoder hp hu hs ho hd =>
      left
      simp only [honeycombDescs, collectLayouts, List.mem_flatMap, List.mem_map]
      refine ⟨decoder, hd, _, ⟨p, hp, u, ?_, style, by simpa using hs, obs, by simpa using ho, rfl⟩, rfl⟩
      simp only [List.mem_cons, List.not_mem_nil, or_false]
      omega
    | surface p d noise_name obs decoder hp hd hs ho hdec =>
      right
      simp only [surfaceCodeDescs, List.mem_flatMap, List.mem_map]
      exact ⟨decoder, hdec, d, hd, p, hp, noise_name, by simpa using hs, obs, by simpa using ho, rfl⟩

/-- C66: within one circuit style and decoder, a problem of the collection script is determined by noise, kind of observable and
distance. -/
theorem c66_determined (a b : DecodingProblemDesc) (ha : a ∈ allDescs) (hb : b ∈ allDescs) (hs : a.circuit_style = b.circuit_style)
    (hd : a.decoder = b.decoder) (he : SameEntry a b) : a = b := by
  obtain ⟨e1, e2, e3⟩ := he
  rw [mem_allDescs] at ha hb
  cases ha with
  | honeycomb p u style obs decoder hp hu hst ho hdec =>
    cases hb with
    | honeycomb p' u' style' obs' decoder' hp' hu' hst' ho' hdec' =>
      have f1 : p = p' := e1
      have f2 : decoder = decoder' := hd
      have f3 : "honeycomb_" ++ style = "honeycomb_" ++ style' := hs
      have f4 : min (u * 4) (u * 6 / 3 * 2) = min (u' * 4) (u' * 6 / 3 * 2) := e3
      have f5 : FirstTable obs ↔ FirstTable obs' := e2
      have f6 : u = u' := by omega
      have f7 : obs = obs' := by
        rcases ho with rfl | rfl <;> rcases ho' with rfl | rfl <;> simp [FirstTable] at f5 <;> rfl
      have f8 : style = style' := by
        rcases hst with rfl | rfl | rfl <;> rcases hst' with rfl | rfl | rfl <;> first | rfl | (revert f3; decide)
      subst f1 f2 f6 f7 f8
      rfl
    | surface p' d noise_name obs' decoder' hp' hd' hs' ho' hdec' =>
      exfalso
      have f3 : "honeycomb_" ++ style = "surface_" ++ noise_name := hs
      rcases hst with rfl | rfl | rfl <;> rcases hs' with rfl | rfl <;> revert f3 <;> decide
  | surface p d noise_name obs decoder hp hd1 hs1 ho hdec =>
    cases hb with
    | honeycomb p' u' style' obs' decoder' hp' hu' hst' ho' hdec' =>
      exfalso
      have f3 : "surface_" ++ noise_name = "honeycomb_" ++ style' := hs
      rcases hst' with rfl | rfl | rfl <;> rcases hs1 with rfl | rfl <;> revert f3 <;> decide
    | surface p' d' noise_name' obs' decoder' hp' hd' hs' ho' hdec' =>
      have f1 : p = p' := e1
      have f2 : decoder = decoder' := hd
      have f3 : "surface_" ++ noise_name = "surface_" ++ noise_name' := hs
      have f4 : d = d' := e3
      have f5 : FirstTable obs ↔ FirstTable obs' := e2
      have f7 : obs = obs' := by
        rcases ho with rfl | rfl <;> rcases ho' with rfl | rfl <;> simp [FirstTable] at f5 <;> rfl
      have f8 : noise_name = noise_name' := by
        rcases hs1 with rfl | rfl <;> rcases hs' with rfl | rfl <;> first | rfl | (revert f3; decide)
      subst f1 f2 f4 f7 f8
      rfl

/-- C66: so any data collected by the script can be drawn: after grouping by circuit style and decoder, building the noise groups never fails. -/
theorem c66_groups (data : ProblemShotData) (hn : (data.map Prod.fst).Nodup) (hk : ∀ e ∈ data, e.1 ∈ allDescs) (style decoder : String)
    (hsub : ∀ e ∈ data, e.1.circuit_style = style ∧ e.1.decoder = decoder) : ∃ groups, groupsFromData data = .ok groups := by
  obtain ⟨groups, h, _⟩ := c59_groups data (by
    rw [List.Nodup, List.pairwise_map] at hn
    refine hn.imp_of_mem fun {a b} ha hb hne hsame => hne ?_
    exact c66_determined a.1 b.1 (hk a ha) (hk b hb) ((hsub a ha).1.trans (hsub b hb).1.symm) ((hsub a ha).2.trans (hsub b hb).2.symm) hsame)
  exact ⟨groups, h⟩

/-- C66: every problem of the script runs for exactly three code cells, so the conversion to rates per cell by the representative of a group is
right for all members of the group. -/
theorem c66_cells (k : DecodingProblemDesc) (hk : k ∈ allDescs) : 1 ≤ k.code_distance ∧ k.rounds = 3 * k.code_distance := by
  rw [mem_allDescs] at hk
  cases hk with
  | honeycomb p u style obs decoder hp hu hs ho hd =>
    have h1 : (HoneycombLayout.asDecoderProblemDesc ⟨u * 4, u * 6, u * 3 * 4 * 3, style, obs, p⟩ decoder).code_distance = 4 * u := by
      show min (u * 4) (u * 6 / 3 * 2) = _
      omega
    have h2 : (HoneycombLayout.asDecoderProblemDesc ⟨u * 4, u * 6, u * 3 * 4 * 3, style, obs, p⟩ decoder).rounds = 12 * u := by
      show ⌈((u * 3 * 4 * 3 : Int) : Rat) / 3⌉ = _
      rw [show ((u * 3 * 4 * 3 : Int) : Rat) / 3 = ((12 * u : Int) : Rat) by push_cast; ring]
      exact Int.ceil_intCast _
    rw [h1, h2]
    omega
  | surface p d noise_name obs decoder hp hd hs ho hdec =>
    refine ⟨?_, rfl⟩
    show 1 ≤ d
    simp only [List.mem_cons, List.not_mem_nil, or_false] at hd
    omega

/-- C66: every honeycomb problem has a valid, supported layout, so its circuit can be generated. -/
theorem c66_layouts (lay : HoneycombLayout) (h : lay ∈ collectLayouts) :
    HoneycombLayout.make lay.data_width lay.data_height lay.sub_rounds lay.style lay.obs lay.noise = .ok lay ∧ lay.Valid ∧ lay.Supported := by
  simp only [collectLayouts, List.mem_flatMap, List.mem_map] at h
  obtain ⟨p, hp, u, hu, style, hst, obs, ho, rfl⟩ := h
  have hu' : 1 ≤ u ∧ u ≤ 5 := by
    simp only [List.mem_cons, List.not_mem_nil, or_false] at hu
    omega
  refine ⟨?_, ?_, ?_⟩
  · rw [HoneycombLayout.make]
    simp only
    rw [if_neg (by omega), if_neg (by omega)]
  · constructor <;> simp only <;> omega
  · simp only [List.mem_cons, List.not_mem_nil, or_false] at hst ho
    refine ⟨?_, ho, ?_, ?_⟩
    · simp only; tauto
    · simp only; omega
    · simp only; intro _; omega

theorem nodup_flatMap_of_key {α β κ : Type} {xs : List α} {f : α → List β} (g : β → κ) (i : α → κ) (hi : Function.Injective i)
    (hxs : xs.Nodup) (hf : ∀ x ∈ xs, (f x).Nodup) (hg : ∀ x ∈ xs, ∀ y ∈ f x, g y = i x) : (xs.flatMap f).Nodup := by
  rw [List.nodup_flatMap]
  refine ⟨hf, ?_⟩
  refine List.Pairwise.imp_of_mem (fun {a b} ha hb hne => ?_) hxs
  intro y hya hyb
  exact hne (hi ((hg a ha y hya).symm.trans (hg b hb y hyb)))

theorem usedNoiseValues_nodup : USED_NOISE_VALUES.Nodup := by
  rw [USED_NOISE_VALUES]
  refine List.Nodup.map (fun a b h => ?_) (by decide)
  simpa using h

theorem collectLayouts_nodup : collectLayouts.Nodup := by
  rw [collectLayouts]
  refine nodup_flatMap_of_key (fun l => l.noise) id (fun _ _ h => h) usedNoiseValues_nodup (fun p _ => ?_) ?_
  · refine nodup_flatMap_of_key (fun l => l.data_width) (fun u => u * 4) (fun a b h => by simpa using h) (by decide) (fun u _ => ?_) ?_
    · refine nodup_flatMap_of_key (fun l => l.style) id (fun _ _ h => h) (by decide) (fun style _ => ?_) ?_
      · refine List.Nodup.map (fun a b h => ?_) (by decide)
        exact congrArg HoneycombLayout.obs h
      · intro style _ y hy
        obtain ⟨_, _, rfl⟩ := List.mem_map.1 hy
        rfl
    · intro u _ y hy
      simp only [List.mem_flatMap, List.mem_map] at hy
      obtain ⟨_, _, _, _, rfl⟩ := hy
      rfl
  · intro p _ y hy
    simp only [List.mem_flatMap, List.mem_map] at hy
    obtain ⟨_, _, _, _, _, _, rfl⟩ := hy
    rfl

theorem honeycombDescs_nodup : honeycombDescs.Nodup := by
  rw [honeycombDescs]
  refine nodup_flatMap_of_key (fun l => l.decoder) id (fun _ _ h => h) (by decide) (fun decoder hdec => ?_) ?_
  · rw [List.nodup_map_iff_inj_on collectLayouts_nodup]
    intro a ha b hb h
    simp only [collectLayouts, List.mem_flatMap, List.mem_map] at ha hb
    obtain ⟨p, hp, u, hu, style, hst, obs, ho, rfl⟩ := ha
    obtain ⟨p', hp', u', hu', style', hst', obs', ho', rfl⟩ := hb
    have e1 : p = p' := congrArg DecodingProblemDesc.noise h
    have e2 : u * 4 = u' * 4 := congrArg DecodingProblemDesc.data_width h
    have e3 : obs = obs' := congrArg DecodingProblemDesc.preserved_observable h
    have e4 : "honeycomb_" ++ style = "honeycomb_" ++ style' := congrArg DecodingProblemDesc.circuit_style h
    have e5 : u = u' := by omega
    have e6 : style = style' := by
      simp only [List.mem_cons, List.not_mem_nil, or_false] at hst hst'
      rcases hst with rfl | rfl | rfl <;> rcases hst' with rfl | rfl | rfl <;> first | rfl | (revert e4; decide)
    subst e1 e3 e5 e6
    rfl
  · intro dec _ y hy
    obtain ⟨_, _, rfl⟩ := List.mem_map.1 hy
    rfl

theorem surfaceCodeDescs_nodup : surfaceCodeDescs.Nodup := by
  rw [surfaceCodeDescs]
  refine nodup_flatMap_of_key (fun l => l.decoder) id (fun _ _ h => h) (by decide) (fun dec _ => ?_) ?_
  · refine nodup_flatMap_of_key (fun l => l.data_width) id (fun _ _ h => h) (by decide) (fun d _ => ?_) ?_
    · refine nodup_flatMap_of_key (fun l => l.noise) id (fun _ _ h => h) usedNoiseValues_nodup (fun p _ => ?_) ?_
      · refine nodup_flatMap_of_key (fun l => l.circuit_style) (fun n => "surface_" ++ n) (fun a b h => ?_) (by decide) (fun n _ => ?_) ?_
        · exact String.toList_injective (by simpa [String.toList_append] using congrArg String.toList h)
        · refine List.Nodup.map (fun a b h => ?_) (by decide)
          exact congrArg DecodingProblemDesc.preserved_observable h
        · intro n _ y hy
          obtain ⟨_, _, rfl⟩ := List.mem_map.1 hy
          rfl
      · intro p _ y hy
        simp only [List.mem_flatMap, List.mem_map] at hy
        obtain ⟨_, _, _, _, rfl⟩ := hy
        rfl
    · intro d _ y hy
      simp only [List.mem_flatMap, List.mem_map] at hy
      obtain ⟨_, _, _, _, _, _, rfl⟩ := hy
      rfl
  · intro dec _ y hy
    simp only [List.mem_flatMap, List.mem_map] at hy
    obtain ⟨_, _, _, _, _, _, _, _, rfl⟩ := hy
    rfl

/-- C66: the 1500 problems of the collection script are distinct, so no problem is sampled twice and no two of them share a row of statistics. -/
theorem c66_distinct : allDescs.Nodup := by
  rw [allDescs, List.nodup_append]
  refine ⟨honeycombDescs_nodup, surfaceCodeDescs_nodup, ?_⟩
  rintro a ha b hb rfl
  simp only [honeycombDescs, List.mem_flatMap, List.mem_map] at ha
  simp only [surfaceCodeDescs, List.mem_flatMap, List.mem_map] at hb
  obtain ⟨dec, _, lay, hlay, rfl⟩ := ha
  obtain ⟨_, _, _, _, _, _, n, hn, _, _, h⟩ := hb
  simp only [collectLayouts, List.mem_flatMap, List.mem_map] at hlay
  obtain ⟨_, _, _, _, style, hst, _, _, rfl⟩ := hlay
  have e : "surface_" ++ n = "honeycomb_" ++ style := congrArg DecodingProblemDesc.circuit_style h
  simp only [List.mem_cons, List.not_mem_nil, or_false] at hst hn
  rcases hst with rfl | rfl | rfl <;> rcases hn with rfl | rfl <;> revert e <;> decide

set_option maxRecDepth 20000 in
example : allDescs.length = 1500 := by decide

end Honeycomb
