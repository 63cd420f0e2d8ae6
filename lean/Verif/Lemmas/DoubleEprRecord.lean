import Verif.Lemmas.DoubleEprValues

/-! The annotations of the double EPR circuit, evaluated on a record. -/

namespace Honeycomb

theorem measureCount_noise {i : Instr} (h : isNoise i.gate = true) : i.measureCount = 0 := by
  rcases i with ⟨g, ts, as⟩
  cases g <;> simp_all [isNoise, Instr.measureCount]

theorem mcount_removeNoise (l : List Instr) : mcount (removeNoise l) = mcount l := by
  induction l with
  | nil => rfl
  | cons i l ih =>
    have e : mcount (i :: l) = i.measureCount + mcount l := by simp [mcount]
    rw [e, ← ih, removeNoise, List.filter_cons]
    rcases h : isNoise i.gate with _ | _
    · simp only [Bool.not_false, if_true, List.map_cons, mcount, List.sum_cons, removeNoise]
      congr 1
      split_ifs with hm
      · simp [Instr.measureCount, hm]
      · rfl
    · simp only [Bool.not_true, Bool.false_eq_true, if_false, measureCount_noise h, Nat.zero_add]
      rfl

/-- An annotation that looks back less than `t` results does not see what was recorded earlier. -/
theorem flipParity_shift {a rec : List (ZMod 2)} {i : Instr} {t : Nat} (h : OffsetsOk (i, t)) :
    flipParity (a ++ rec) (i, a.length + t) = flipParity rec (i, t) := by
  have e1 : recordIndices (i, a.length + t) = (recordIndices (i, t)).map fun j => (a.length : Int) + j := by
    simp only [recordIndices, List.map_filterMap]
    refine List.filterMap_congr fun x _ => ?_
    cases x <;> simp [add_assoc]
  have e2 : ∀ j ∈ recordIndices (i, t), 0 ≤ j := by
    intro j hj
    obtain ⟨x, hx, e⟩ := List.mem_filterMap.1 hj
    obtain ⟨o, rfl, h1, h2⟩ := h x hx
    simp only [Option.some.injEq] at e
    simp only at h1
    omega
  rw [flipParity, flipParity, e1]
  generalize recordIndices (i, t) = js at e2
  induction js with
  | nil => rfl
  | cons j js ih =>
    rw [List.map_cons, List.foldr_cons, List.foldr_cons, ih fun j hj => e2 j (by simp [hj])]
    have h0 := e2 j (by simp)
    have : recordBit (a ++ rec) ((a.length : Int) + j) = recordBit rec j := by
      rw [recordBit, recordBit, if_pos (by omega), if_pos h0, List.getElem?_append_right (by omega)]
      congr 1
      omega
    rw [this]

/-- Looking back one result. -/
theorem flipParity_last {a b : List (ZMod 2)} {x : ZMod 2} {g : Gate} {as : List Arg} {n : Nat} (hn : n = a.length + 1) :
    flipParity (a ++ x :: b) ({ gate := g, targets := [.record (-1)], args := as }, n) = some x := by
  have h : recordIndices ({ gate := g, targets := [.record (-1)], args := as }, n) = [(a.length : Int)] := by
    simp [recordIndices, hn]
  rw [flipParity, h]
  simp [recordBit]

/-- What an annotation adds to observable `i`. -/
def weight (i : Nat) (rec : List (ZMod 2)) (x : Instr × Nat) : ZMod 2 :=
  if x.1.gate = .OBSERVABLE_INCLUDE ∧ x.1.args = [.lit i] then (flipParity rec x).getD 0 else 0

theorem observableValue_sum {i : Nat} {l : List Instr} {rec : List (ZMod 2)} (h : ∀ x ∈ timeline 0 l, OffsetsOk x ∧ x.2 ≤ rec.length) :
    observableValue i l rec = some ((timeline 0 l).map (weight i rec)).sum := by
  rw [observableValue, foldr_parity (w := fun x => (flipParity rec x).getD 0)]
  · rw [HoneycombLayout.filter_map_sum]
    congr 2
    refine List.map_congr_left fun x _ => ?_
    simp only [weight, decide_eq_true_eq]
  · intro x hx
    have := h x (List.mem_filter.1 hx).1
    exact HoneycombLayout.flipParity_some this.1 this.2

namespace HoneycombLayout
variable {lay : HoneycombLayout}

theorem timeline_eprParity (k : Int) (i t : Nat) : timeline t (lay.eprParity k i) = [(.observable [-1] i, t + 1)] ∧ mcount (lay.eprParity k i) = 1 := by
  have h := eprParity_measures (lay := lay) k i
  rw [measured, eprParity] at h
  simp only [List.flatMap_cons, List.flatMap_nil, List.append_nil, Instr.observable] at h
  rw [show Instr.measures { gate := .OBSERVABLE_INCLUDE, targets := List.map Target.record [-1], args := [Arg.lit i] } = [] from rfl, List.append_nil] at h
  have h' := congrArg List.length h
  have hm : ∀ ts : List Target, Instr.measureCount { gate := .MPP, targets := ts } = (Instr.measures { gate := .MPP, targets := ts }).length := fun _ => rfl
  rw [← hm, List.length_singleton] at h'
  constructor
  · rw [eprParity]
    simp only [timeline, isMark, Bool.false_eq_true, if_false, Instr.observable, if_true]
    rw [h']
  · rw [eprParity]
    simp only [mcount, List.map_cons, List.map_nil, List.sum_cons, List.sum_nil]
    rw [h']
    rfl

theorem timeline_parities (k : Int) (t : Nat) : timeline t (lay.measureObsAncParities k [0, 1, 2, 3]) =
    [(.observable [-1] 0, t + 1), (.observable [-1] 1, t + 2), (.observable [-1] 2, t + 3), (.observable [-1] 3, t + 4)] ∧
    mcount (lay.measureObsAncParities k [0, 1, 2, 3]) = 4 := by
  rw [measureObsAncParities]
  simp only [List.flatMap_cons, List.flatMap_nil, List.append_nil]
  constructor
  · rw [timeline_append, timeline_append, timeline_append, (timeline_eprParity k 0 t).2, (timeline_eprParity k 1 t).2, (timeline_eprParity k 2 t).2,
      (timeline_eprParity k 0 _).1, (timeline_eprParity k 1 _).1, (timeline_eprParity k 2 _).1, (timeline_eprParity k 3 _).1]
    rfl
  · simp only [mcount_append, (timeline_eprParity k _ 0).2]

theorem eprAnn_marks (k : Nat) : ∀ i ∈ lay.eprAnn k, isMark i = true := fun i hi => (isMark_iff i).2 (by
  have := eprAnn_gate hi
  tauto)

theorem mcount_eprEmit (hv : lay.Valid) (k : Nat) : mcount (lay.eprEmit k) = lay.perRound := by
  rw [eprEmit, mcount_append, mcount_append, mcount_marks (eprAnn_marks k)]
  have := mcount_groups hv k
  rw [show mcount [Instr.tick] = 0 from rfl]
  exact this

theorem timeline_eprEmit (hv : lay.Valid) (k t : Nat) : timeline t (lay.eprEmit k) = (lay.eprAnn k).map fun i => (i, t + lay.perRound) := by
  have h1 : mcount [lay.eprMpp k] = lay.perRound := mcount_groups hv k
  rw [eprEmit, timeline_append, timeline_append, h1, timeline_marks (eprAnn_marks k)]
  have h2 : timeline t [lay.eprMpp k] = [] := rfl
  have h3 : ∀ n, timeline n [Instr.tick] = [] := fun _ => rfl
  rw [h2, h3, List.append_nil, List.nil_append]

theorem timeline_memory (hv : lay.Valid) {g : Nat → List Instr} (hg : lay.EprRounds g) (N t : Nat) :
    timeline t ((List.range N).flatMap g) = ((List.range N).flatMap fun k => (lay.eprAnn k).map fun i => (i, t + (k + 1) * lay.perRound)) ∧
    mcount ((List.range N).flatMap g) = N * lay.perRound := by
  induction N with
  | zero => simp [timeline, mcount]
  | succ N ih =>
    have hm : mcount (g N) = lay.perRound := by rw [← mcount_removeNoise, hg.clean, mcount_eprEmit hv]
    rw [range_succ_flatMap, range_succ_flatMap, timeline_append, mcount_append, ih.1, ih.2, hm, hg.marks, timeline_eprEmit hv]
    refine ⟨?_, by rw [Nat.add_mul, Nat.one_mul]⟩
    congr 1
    refine List.map_congr_left fun i _ => ?_
    rw [Nat.add_mul N 1, Nat.one_mul, Nat.add_assoc]

theorem before_eprObs (hv : lay.Valid) (k i : Nat) : ∀ x ∈ lay.eprObs k i, x < (k + 1) * lay.perRound := by
  have h : BeforeO ((k + 1) * lay.perRound) (xorL ((obsEdgesOf (lay.eprEdges i) (lay.round_edges k)).map fun e => some (lay.vE k e))) := by
    apply beforeO_xorL
    intro o ho
    obtain ⟨e, h, rfl⟩ := List.mem_map.1 ho
    exact beforeO_vE hv (mem_obsEdgesOf h)
  rw [xorL_some] at h
  exact h _ rfl

theorem eprAnn_offsets (hv : lay.Valid) {k : Nat} {i : Instr} (hi : i ∈ lay.eprAnn k) : OffsetsOk (i, (k + 1) * lay.perRound) := by
  have key : ∀ (s : Finset Nat), (∀ x ∈ s, x < (k + 1) * lay.perRound) → ∀ (g : Gate) (as : List Arg),
      OffsetsOk ({ gate := g, targets := (relTo ((k + 1) * lay.perRound) s).map .record, args := as }, (k + 1) * lay.perRound) := by
    intro s hs g as t ht
    obtain ⟨o, ho, rfl⟩ := List.mem_map.1 ht
    exact ⟨o, rfl, relTo_range hs o ho⟩
  rcases List.mem_append.1 hi with h | h
  · obtain ⟨j, _, rfl⟩ := List.mem_map.1 h
    exact key _ (before_eprObs hv k j) _ _
  · split_ifs at h with h6
    · obtain ⟨x, hx, hi⟩ := List.mem_flatMap.1 h
      have hb := beforeO_xorO (beforeO_vHex hv .X (k := k) (by omega) hx)
        ((beforeO_vHex hv .X (k := k - 3) (by omega) hx).mono (Nat.mul_le_mul_right _ (by omega)))
      revert hi hb
      generalize xorO _ _ = o
      intro hi hb
      cases o with
      | none => simp [detI] at hi
      | some s =>
        simp only [detI, List.mem_singleton] at hi
        subst hi
        exact key s (hb s rfl) _ _
    · simp at h

/-- The annotations of the whole circuit. -/
theorem timeline_epr (hv : lay.Valid) {g : Nat → List Instr} (hg : lay.EprRounds g) (M : Int) (N : Nat) :
    timeline 0 (lay.measureObsAncParities 0 [0, 1, 2, 3] ++ (List.range N).flatMap g ++ lay.measureObsAncParities M [0, 1, 2, 3]) =
    [(.observable [-1] 0, 1), (.observable [-1] 1, 2), (.observable [-1] 2, 3), (.observable [-1] 3, 4)] ++
      ((List.range N).flatMap fun k => (lay.eprAnn k).map fun i => (i, 4 + (k + 1) * lay.perRound)) ++
      [(.observable [-1] 0, 4 + N * lay.perRound + 1), (.observable [-1] 1, 4 + N * lay.perRound + 2),
        (.observable [-1] 2, 4 + N * lay.perRound + 3), (.observable [-1] 3, 4 + N * lay.perRound + 4)] := by
  rw [timeline_append, timeline_append, mcount_append, (timeline_parities 0 0).1, (timeline_parities 0 0).2, (timeline_memory hv hg N _).1,
    (timeline_memory hv hg N 0).2, (timeline_parities M _).1]
  simp only [Nat.zero_add]

theorem weight_ann (hv : lay.Valid) {k N i : Nat} (hk : k < N) (hi : i < 4) {A R B : List (ZMod 2)} (hA : A.length = 4) (hR : R.length = N * lay.perRound) :
    (((lay.eprAnn k).map fun j => (j, 4 + (k + 1) * lay.perRound)).map (weight i (A ++ (R ++ B)))).sum = val (recAt R) (lay.eprObs k i) := by
  have hle : (k + 1) * lay.perRound ≤ R.length := by rw [hR]; exact Nat.mul_le_mul_right _ (by omega)
  have hdet : ∀ {l : List Instr}, (∀ j ∈ l, j.gate ≠ .OBSERVABLE_INCLUDE) →
      ((l.map fun j => (j, 4 + (k + 1) * lay.perRound)).map (weight i (A ++ (R ++ B)))).sum = 0 := by
    intro l h
    rw [List.map_map]
    refine sum_map_eq_zero fun j hj => ?_
    simp only [Function.comp_apply, weight]
    rw [if_neg (by simp [h j hj])]
  have hval : ∀ s : Finset Nat, (∀ x ∈ s, x < (k + 1) * lay.perRound) → val (recAt (R ++ B)) s = val (recAt R) s := by
    intro s hs
    exact Finset.sum_congr rfl fun x hx => recAt_left (lt_of_lt_of_le (hs x hx) hle)
  have hobs : ∀ j : Nat, weight i (A ++ (R ++ B)) (Instr.observable (relTo ((k + 1) * lay.perRound) (lay.eprObs k j)) j, 4 + (k + 1) * lay.perRound) =
      if j = i then val (recAt R) (lay.eprObs k j) else 0 := by
    intro j
    have hb := before_eprObs hv k j
    rw [weight]
    by_cases h : j = i
    · subst h
      rw [if_pos ⟨rfl, rfl⟩, if_pos rfl, ← hA, flipParity_shift, Instr.observable, flipParity_relTo (by rw [List.length_append]; omega) hb, hval _ hb]
      · rfl
      · intro t ht
        obtain ⟨o, ho, rfl⟩ := List.mem_map.1 ht
        exact ⟨o, rfl, relTo_range hb o ho⟩
    · rw [if_neg, if_neg h]
      rintro ⟨_, h2⟩
      simp only [Instr.observable, List.cons.injEq, Arg.lit.injEq, and_true] at h2
      exact h (by exact_mod_cast h2)
  rw [eprAnn, List.map_append, List.map_append, List.sum_append, hdet (l := if 6 ≤ k then _ else _), add_zero]
  · simp only [List.map_cons, List.map_nil, List.sum_cons, List.sum_nil, hobs]
    have hi' : i = 0 ∨ i = 1 ∨ i = 2 ∨ i = 3 := by omega
    rcases hi' with rfl | rfl | rfl | rfl <;> simp
  · intro j hj
    split_ifs at hj
    · obtain ⟨x, _, hj⟩ := List.mem_flatMap.1 hj
      rw [detI_gate hj]
      simp
    · simp at hj

/-- The value of observable `i`: its first parity, the crossing edges of every sub-round, its last parity. -/
theorem epr_observable (hv : lay.Valid) {g : Nat → List Instr} (hg : lay.EprRounds g) (M : Int) {N : Nat} {R : List (ZMod 2)} (hR : R.length = N * lay.perRound)
    (a b : Nat → ZMod 2) {i : Nat} (hi : i < 4) :
    observableValue i (lay.measureObsAncParities 0 [0, 1, 2, 3] ++ (List.range N).flatMap g ++ lay.measureObsAncParities M [0, 1, 2, 3])
      ([a 0, a 1, a 2, a 3] ++ (R ++ [b 0, b 1, b 2, b 3])) =
      some (a i + ((List.range N).map fun k => val (recAt R) (lay.eprObs k i)).sum + b i) := by
  rw [observableValue_sum, timeline_epr hv hg]
  · rw [List.map_append, List.sum_append, List.map_append, List.sum_append]
    congr 1
    have hw : ∀ (j : Nat) (n : Nat) (A B : List (ZMod 2)) (x : ZMod 2), n = A.length + 1 →
        weight i (A ++ x :: B) (Instr.observable [-1] j, n) = if j = i then x else 0 := by
      intro j n A B x hn
      rw [weight]
      by_cases h : j = i
      · subst h
        rw [if_pos ⟨rfl, rfl⟩, if_pos rfl]
        have := flipParity_last (a := A) (b := B) (x := x) (g := .OBSERVABLE_INCLUDE) (as := [.lit j]) hn
        rw [Instr.observable]
        simp only [List.map_cons, List.map_nil]
        rw [this]
        rfl
      · rw [if_neg, if_neg h]
        rintro ⟨_, h2⟩
        simp only [Instr.observable, List.cons.injEq, Arg.lit.injEq, and_true] at h2
        exact h (by exact_mod_cast h2)
    congr 1
    · congr 1
      · simp only [List.map_cons, List.map_nil, List.sum_cons, List.sum_nil]
        have w0 := hw 0 1 [] ([a 1, a 2, a 3] ++ (R ++ [b 0, b 1, b 2, b 3])) (a 0) rfl
        have w1 := hw 1 2 [a 0] ([a 2, a 3] ++ (R ++ [b 0, b 1, b 2, b 3])) (a 1) rfl
        have w2 := hw 2 3 [a 0, a 1] ([a 3] ++ (R ++ [b 0, b 1, b 2, b 3])) (a 2) rfl
        have w3 := hw 3 4 [a 0, a 1, a 2] (R ++ [b 0, b 1, b 2, b 3]) (a 3) rfl
        simp only [List.cons_append, List.nil_append] at w0 w1 w2 w3 ⊢
        rw [w0, w1, w2, w3]
        have hi' : i = 0 ∨ i = 1 ∨ i = 2 ∨ i = 3 := by omega
        rcases hi' with rfl | rfl | rfl | rfl <;> simp
      · rw [sum_flatMap]
        refine sum_map_congr fun k hk => ?_
        exact weight_ann hv (List.mem_range.1 hk) hi rfl hR
    · simp only [List.map_cons, List.map_nil, List.sum_cons, List.sum_nil]
      have w0 := hw 0 (4 + N * lay.perRound + 1) ([a 0, a 1, a 2, a 3] ++ R) [b 1, b 2, b 3] (b 0) (by simp [hR]; omega)
      have w1 := hw 1 (4 + N * lay.perRound + 2) ([a 0, a 1, a 2, a 3] ++ R ++ [b 0]) [b 2, b 3] (b 1) (by simp [hR]; omega)
      have w2 := hw 2 (4 + N * lay.perRound + 3) ([a 0, a 1, a 2, a 3] ++ R ++ [b 0, b 1]) [b 3] (b 2) (by simp [hR]; omega)
      have w3 := hw 3 (4 + N * lay.perRound + 4) ([a 0, a 1, a 2, a 3] ++ R ++ [b 0, b 1, b 2]) [] (b 3) (by simp [hR]; omega)
      simp only [List.append_assoc, List.cons_append, List.nil_append] at w0 w1 w2 w3 ⊢
      rw [w0, w1, w2, w3]
      have hi' : i = 0 ∨ i = 1 ∨ i = 2 ∨ i = 3 := by omega
      rcases hi' with rfl | rfl | rfl | rfl <;> simp
  · intro x hx
    rw [timeline_epr hv hg] at hx
    have hone : ∀ (j n : Nat), 1 ≤ n → OffsetsOk (Instr.observable [-1] j, n) := by
      intro j n hn t ht
      simp only [Instr.observable, List.map_cons, List.map_nil, List.mem_singleton] at ht
      exact ⟨-1, ht, by simp only; omega, by omega⟩
    have hlen : ([a 0, a 1, a 2, a 3] ++ (R ++ [b 0, b 1, b 2, b 3])).length = 4 + N * lay.perRound + 4 := by simp [hR]; omega
    rw [hlen]
    simp only [List.mem_append, List.mem_cons, List.not_mem_nil, or_false, List.mem_flatMap, List.mem_range, List.mem_map] at hx
    rcases hx with (h | h) | h
    · rcases h with rfl | rfl | rfl | rfl <;> exact ⟨hone _ _ (by omega), by simp only; omega⟩
    · obtain ⟨k, hk, j, hj, rfl⟩ := h
      have := eprAnn_offsets hv hj
      have h1 : (k + 1) * lay.perRound ≤ N * lay.perRound := Nat.mul_le_mul_right _ (by omega)
      refine ⟨fun t ht => ?_, by simp only; omega⟩
      obtain ⟨o, e, h2, h3⟩ := this t ht
      simp only at h2 ⊢
      exact ⟨o, e, by push_cast at h2 ⊢; omega, h3⟩
    · rcases h with rfl | rfl | rfl | rfl <;> exact ⟨hone _ _ (by omega), by simp only; omega⟩

/-- If the hexagon parities of consecutive rounds agree, no detector fires. -/
theorem epr_detectors (hv : lay.Valid) {g : Nat → List Instr} (hg : lay.EprRounds g) (M : Int) {N : Nat} {A R B : List (ZMod 2)} (hA : A.length = 4)
    (hR : R.length = N * lay.perRound)
    (hz : ∀ k : Nat, 6 ≤ k → k < N → ∀ h ∈ lay.round_hex_centers (((k : Int) - 2) % 3),
      HasVal (recAt R) (xorO (lay.vHex .X k h) (lay.vHex .X (k - 3) h)) 0) :
    ∀ v ∈ detectorValues (lay.measureObsAncParities 0 [0, 1, 2, 3] ++ (List.range N).flatMap g ++ lay.measureObsAncParities M [0, 1, 2, 3])
      (A ++ (R ++ B)), v = some 0 := by
  intro v hvv
  rw [detectorValues, timeline_epr hv hg] at hvv
  obtain ⟨x, hx, rfl⟩ := List.mem_map.1 hvv
  obtain ⟨hx, hgate⟩ := List.mem_filter.1 hx
  simp only [decide_eq_true_eq] at hgate
  simp only [List.mem_append, List.mem_cons, List.not_mem_nil, or_false, List.mem_flatMap, List.mem_range, List.mem_map] at hx
  rcases hx with (h | h) | h
  · rcases h with rfl | rfl | rfl | rfl <;> simp [Instr.observable] at hgate
  · obtain ⟨k, hk, j, hj, rfl⟩ := h
    have hle : (k + 1) * lay.perRound ≤ R.length := by rw [hR]; exact Nat.mul_le_mul_right _ (by omega)
    rw [← hA, flipParity_shift (eprAnn_offsets hv hj)]
    rcases List.mem_append.1 hj with h | h
    · obtain ⟨n, _, rfl⟩ := List.mem_map.1 h
      simp [Instr.observable] at hgate
    · split_ifs at h with h6
      · obtain ⟨x, hx, hi⟩ := List.mem_flatMap.1 h
        have hb := beforeO_xorO (beforeO_vHex hv .X (k := k) (by omega) hx)
          ((beforeO_vHex hv .X (k := k - 3) (by omega) hx).mono (Nat.mul_le_mul_right _ (by omega : k - 3 + 1 ≤ k + 1)))
        refine flipParity_detI (by rw [List.length_append]; omega) hb ?_ hi
        intro s hs
        rw [← hz k h6 hk x hx s hs]
        exact Finset.sum_congr rfl fun y hy => recAt_left (lt_of_lt_of_le (hb s hs y hy) hle)
      · simp at h
  · rcases h with rfl | rfl | rfl | rfl <;> simp [Instr.observable] at hgate

end HoneycombLayout
end Honeycomb
