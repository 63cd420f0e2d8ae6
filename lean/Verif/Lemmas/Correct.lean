import Verif.Lemmas.Linear
import Verif.Props.Detectors
import Verif.Props.Frame
import Verif.Spec.Correct

/-! # Two samples with the same detector bits -/

namespace Honeycomb
open HoneycombLayout
variable {lay : HoneycombLayout} {d : Circuit} {n m : Nat} {r s : List (ZMod 2)}

theorem addOpt_self (v : Option (ZMod 2)) (h : v.isSome) : addOpt v v = some 0 := by
  obtain ⟨x, rfl⟩ := Option.isSome_iff_exists.1 h
  revert x
  decide

theorem addOpt_ne {v w : Option (ZMod 2)} (hv : v.isSome) (hw : w.isSome) (h : v ≠ w) : addOpt v w = some 1 := by
  obtain ⟨x, rfl⟩ := Option.isSome_iff_exists.1 hv
  obtain ⟨y, rfl⟩ := Option.isSome_iff_exists.1 hw
  revert x y
  decide

theorem addOpt_zero {v w : Option (ZMod 2)} (h : addOpt v w = some 0) : v = w := by
  cases v <;> cases w <;> simp [addOpt] at h ⊢
  rename_i x y
  revert x y
  decide

theorem addOpt_one {v w : Option (ZMod 2)} (h : addOpt v w = some 1) : v ≠ w := by
  cases v <;> cases w <;> simp [addOpt] at h ⊢
  rename_i x y
  revert x y
  decide

theorem bit_inj {v w : Option (ZMod 2)} (hv : v.isSome) (hw : w.isSome) (h : decide (v = some 1) = decide (w = some 1)) : v = w := by
  obtain ⟨x, rfl⟩ := Option.isSome_iff_exists.1 hv
  obtain ⟨y, rfl⟩ := Option.isSome_iff_exists.1 hw
  revert x y
  decide

theorem fold_isSome {α : Type} (f : α → Option (ZMod 2)) : ∀ l : List α,
    (l.foldr (fun x acc => do let a ← acc; let b ← f x; return b + a) (some 0)).isSome = true ↔ ∀ x ∈ l, (f x).isSome := by
  intro l
  induction l with
  | nil => simp
  | cons x l ih =>
    rw [List.foldr_cons, List.forall_mem_cons, ← ih]
    generalize l.foldr _ _ = u
    cases u <;> cases f x <;> simp

theorem isSome_getElem? (l : List (ZMod 2)) (t : Nat) : (l[t]?).isSome = true ↔ t < l.length := by simp

theorem recordBit_isSome (h : r.length = s.length) (j : Int) : (recordBit r j).isSome = (recordBit s j).isSome := by
  unfold recordBit
  split_ifs
  · rw [Bool.eq_iff_iff, isSome_getElem?, isSome_getElem?, h]
  · rfl

theorem flipParity_isSome (h : r.length = s.length) (x : Instr × Nat) : (flipParity r x).isSome = true ↔ (flipParity s x).isSome = true := by
  unfold flipParity
  rw [fold_isSome, fold_isSome]
  simp only [recordBit_isSome h]

theorem observableValue_isSome (h : r.length = s.length) (k : Nat) (l : List Instr) :
    (observableValue k l r).isSome = true ↔ (observableValue k l s).isSome = true := by
  unfold observableValue
  rw [fold_isSome, fold_isSome]
  simp only [flipParity_isSome h]

theorem canRecord_length {l : List Instr} (h : CanRecord l r) : r.length = (measured l).length := by
  obtain ⟨F, F', -, h⟩ := h
  rw [runs_length h, actions, List.filterMap_flatMap, measured]
  simp only [results_actions]

theorem sample_defined (hv : lay.Valid) (hs : lay.Supported) (hd : lay.makeCircuit = .ok d) (h : CanSample n d.flatten r) :
    (∀ v ∈ detectorValues d.flatten r, v.isSome) ∧ (observableValue lay.obsI d.flatten r).isSome := by
  obtain ⟨s, hr⟩ := canRecord_exists d.flatten
  have hl : r.length = s.length := h.length.trans (canRecord_length hr).symm
  constructor
  · intro v hv'
    obtain ⟨x, hx, rfl⟩ := List.mem_map.1 hv'
    rw [flipParity_isSome hl]
    obtain ⟨d', hd', h18⟩ := c18_no_detector_fires lay hv hs
    obtain rfl := Except.ok.inj (hd.symm.trans hd')
    rw [h18 s hr _ (List.mem_map.2 ⟨x, hx, rfl⟩)]
    rfl
  · obtain ⟨d', hd', h19⟩ := c19_observable_not_flipped lay hv hs
    obtain rfl := Except.ok.inj (hd.symm.trans hd')
    rw [observableValue_isSome hl, show observableValue lay.obsI d.flatten s = some 0 from h19 s hr]
    rfl

/-! ## The number of observables -/

theorem obsBound_le (c : Circuit) : ∀ i ∈ c.flatten, i.obsBound ≤ c.num_observables := by
  induction c with
  | nil => simp [Circuit.flatten]
  | op j c ih =>
    intro i hi
    rw [Circuit.flatten, List.mem_cons] at hi
    rw [Circuit.num_observables]
    rcases hi with rfl | hi
    · exact le_max_left _ _
    · exact (ih i hi).trans (le_max_right _ _)
  | rep n b c ihb ihc =>
    intro i hi
    rw [Circuit.flatten, List.mem_append] at hi
    rw [Circuit.num_observables]
    rcases hi with hi | hi
    · obtain ⟨l, hl, hi⟩ := List.mem_flatten.1 hi
      obtain rfl := List.eq_of_mem_replicate hl
      exact (ihb i hi).trans (le_max_left _ _)
    · exact (ihc i hi).trans (le_max_right _ _)

theorem detectorValues_length (d : Circuit) (r : List (ZMod 2)) : (detectorValues d.flatten r).length = d.num_detectors := by
  rw [num_detectors_eq, detectorValues, List.length_map]
  generalize d.flatten = l
  suffices h : ∀ k, ((timeline k l).filter fun x => decide (x.1.gate = .DETECTOR)).length = l.countP (fun i => i.gate = .DETECTOR) from h 0
  induction l with
  | nil => intro k; rfl
  | cons i l ih =>
    intro k
    rw [timeline, List.countP_cons]
    split_ifs with hm hd hd
    · rw [List.filter_cons_of_pos (p := fun x : Instr × Nat => decide (x.1.gate = .DETECTOR)) (by simpa using hd), List.length_cons, ih]
    · rw [List.filter_cons_of_neg (p := fun x : Instr × Nat => decide (x.1.gate = .DETECTOR)) (by simpa using hd), ih, Nat.add_zero]
    · refine absurd ?_ hm
      simp only [decide_eq_true_eq] at hd
      simp [isMark, hd]
    · rw [ih, Nat.add_zero]

/-- The annotations of the timeline are the instructions. -/
theorem mem_timeline_iff (i : Instr) (hi : isMark i) : ∀ (l : List Instr) (k : Nat), i ∈ l ↔ ∃ t, (i, t) ∈ timeline k l := by
  intro l
  induction l with
  | nil => simp [timeline]
  | cons j l ih =>
    intro k
    rw [timeline]
    split_ifs with hj
    · simp only [List.mem_cons, Prod.mk.injEq, exists_or, ← ih k]
      constructor
      · rintro (rfl | h)
        · exact .inl ⟨k, rfl, rfl⟩
        · exact .inr h
      · rintro (⟨t, h, -⟩ | h)
        · exact .inl h
        · exact .inr h
    · rw [← ih, List.mem_cons, or_iff_right]
      rintro rfl
      exact hj hi

theorem only_observable (hv : lay.Valid) (hs : lay.Supported) (hd : lay.makeCircuit = .ok d) :
    (∀ x ∈ timeline 0 d.flatten, x.1.gate = .OBSERVABLE_INCLUDE → x.1.args = [.lit lay.obsI]) ∧
    ∃ x ∈ timeline 0 d.flatten, x.1.gate = .OBSERVABLE_INCLUDE := by
  obtain ⟨d', es, b, qs, i, hd', -, -, hi, h⟩ := c67_observable lay hv hs
  obtain rfl := Except.ok.inj (hd.symm.trans hd')
  rw [obs_index_ok hs.2.1] at hi
  obtain rfl := Except.ok.inj hi
  have key : ∀ {as : List (Instr × Nat)} {bs : List (Int × Set Int)} {R : Instr × Nat → Int × Set Int → Prop}, List.Forall₂ R as bs →
      ∀ x ∈ as, ∃ e, R x e := by
    intro as bs R h
    induction h with
    | nil => simp
    | cons h _ ih =>
      intro x hx
      rcases List.mem_cons.1 hx with rfl | hx
      · exact ⟨_, h⟩
      · exact ih x hx
  constructor
  · intro x hx hg
    obtain ⟨e, he, -⟩ := key h x (List.mem_filter.2 ⟨hx, by simpa using hg⟩)
    exact he
  · have hne : (timeline 0 d.flatten).filter (fun x => decide (x.1.gate = .OBSERVABLE_INCLUDE)) ≠ [] := by
      intro h0
      have := h.length_eq
      rw [h0, expectedObservable, List.length_append] at this
      simp at this
    obtain ⟨x, hx⟩ := List.exists_mem_of_ne_nil _ hne
    rw [List.mem_filter] at hx
    exact ⟨x, hx.1, by simpa using hx.2⟩

theorem other_observable (hv : lay.Valid) (hs : lay.Supported) (hd : lay.makeCircuit = .ok d) (k : Nat) (hk : k ≠ lay.obsI) (r : List (ZMod 2)) :
    observableValue k d.flatten r = some 0 := by
  rw [observableValue, List.filter_eq_nil_iff.2]
  · rfl
  intro x hx hg
  simp only [decide_eq_true_eq] at hg
  have hy := (only_observable hv hs hd).1 x hx hg.1
  rw [hg.2] at hy
  simp only [List.cons.injEq, Arg.lit.injEq, Nat.cast_inj, and_true] at hy
  exact hk hy

theorem obsI_lt (hv : lay.Valid) (hs : lay.Supported) (hd : lay.makeCircuit = .ok d) : lay.obsI < d.num_observables := by
  obtain ⟨h1, x, hx, hg⟩ := only_observable hv hs hd
  have hm : x.1 ∈ d.flatten := (mem_timeline_iff x.1 (by simp [isMark, hg]) _ 0).2 ⟨x.2, hx⟩
  refine lt_of_lt_of_le ?_ (obsBound_le d x.1 hm)
  rw [Instr.obsBound, hg, h1 x hx hg]
  simp

/-! ## Two samples -/

theorem detectionBits_length (d : Circuit) (r : List (ZMod 2)) : (detectionBits d r).length = d.num_detectors := by
  rw [detectionBits, List.length_map, detectorValues_length]

theorem observableBits_length (d : Circuit) (r : List (ZMod 2)) : (observableBits d r).length = d.num_observables := by
  simp [observableBits]

theorem map_bits_inj : ∀ {a b : List (Option (ZMod 2))}, (∀ v ∈ a, v.isSome) → (∀ v ∈ b, v.isSome) →
    a.map (fun v => decide (v = some 1)) = b.map (fun v => decide (v = some 1)) → a = b
  | [], [], _, _, _ => rfl
  | [], _ :: _, _, _, h => by simp at h
  | _ :: _, [], _, _, h => by simp at h
  | v :: a, w :: b, ha, hb, h => by
    rw [List.map_cons, List.map_cons, List.cons.injEq] at h
    rw [bit_inj (ha v List.mem_cons_self) (hb w List.mem_cons_self) h.1,
      map_bits_inj (fun v hv => ha v (List.mem_cons_of_mem _ hv)) (fun v hv => hb v (List.mem_cons_of_mem _ hv)) h.2]

theorem sameDetection (hv : lay.Valid) (hs : lay.Supported) (hd : lay.makeCircuit = .ok d) (h : CanSample n d.flatten r) (h' : CanSample m d.flatten s) :
    detectionBits d r = detectionBits d s ↔ ∀ v ∈ detectorValues d.flatten (addRec r s), v = some 0 := by
  rw [detectorValues_add]
  have hl : (detectorValues d.flatten r).length = (detectorValues d.flatten s).length := by rw [detectorValues_length, detectorValues_length]
  constructor
  · intro e v hm
    have := map_bits_inj (sample_defined hv hs hd h).1 (sample_defined hv hs hd h').1 e
    rw [← this, List.zipWith_self] at hm
    obtain ⟨x, hx, rfl⟩ := List.mem_map.1 hm
    exact addOpt_self x ((sample_defined hv hs hd h).1 x hx)
  · intro e
    rw [detectionBits, detectionBits]
    congr 1
    refine List.ext_getElem hl fun t h1 h2 => ?_
    refine addOpt_zero (e _ (List.mem_iff_getElem.2 ⟨t, by simpa using ⟨h1, h2⟩, ?_⟩))
    rw [List.getElem_zipWith]

theorem sameObservables (hv : lay.Valid) (hs : lay.Supported) (hd : lay.makeCircuit = .ok d) (h : CanSample n d.flatten r) (h' : CanSample m d.flatten s) :
    observableBits d r = observableBits d s ↔ observableValue lay.obsI d.flatten (addRec r s) = some 0 := by
  rw [observableValue_add]
  constructor
  · intro e
    have := congrArg (fun l : List Bool => l[lay.obsI]?) e
    simp only [observableBits, List.getElem?_map, List.getElem?_range (obsI_lt hv hs hd), Option.map_some, Option.some.injEq] at this
    have e' := bit_inj (sample_defined hv hs hd h).2 (sample_defined hv hs hd h').2 this
    rw [← e']
    exact addOpt_self _ (sample_defined hv hs hd h).2
  · intro e
    rw [observableBits, observableBits]
    refine List.map_congr_left fun k _ => ?_
    by_cases hk : k = lay.obsI
    · rw [hk, addOpt_zero e]
    · rw [other_observable hv hs hd k hk, other_observable hv hs hd k hk]

/-- The code's distance decides how many errors a minimum error decoder corrects. -/
theorem corrected (hv : lay.Valid) (hs : lay.Supported) (hd : lay.makeCircuit = .ok d) {guess : List Bool → List Bool} (hg : MinimumErrors d guess)
    (h : CanSample n d.flatten r)
    (hdist : ∀ m rec, m ≤ 2 * n → CanSample m d.flatten rec → (∀ v ∈ detectorValues d.flatten rec, v = some 0) →
      observableValue lay.obsI d.flatten rec = some 0) :
    guess (detectionBits d r) = observableBits d r := by
  obtain ⟨m, hm, r', h', h1, h2⟩ := hg n r h
  rw [h2, sameObservables hv hs hd h' h]
  exact hdist (m + n) _ (by omega) (h'.sum h) ((sameDetection hv hs hd h' h).1 h1)

/-- No decoder corrects both parts of an undetected flip. -/
theorem uncorrected (hv : lay.Valid) (hs : lay.Supported) (hd : lay.makeCircuit = .ok d) (guess : List Bool → List Bool) {a b : Nat}
    (h : CanSample (a + b) d.flatten r) (hdet : ∀ v ∈ detectorValues d.flatten r, v = some 0) (hobs : observableValue lay.obsI d.flatten r ≠ some 0) :
    (∃ s, CanSample a d.flatten s ∧ guess (detectionBits d s) ≠ observableBits d s) ∨
      ∃ s, CanSample b d.flatten s ∧ guess (detectionBits d s) ≠ observableBits d s := by
  obtain ⟨ra, rb, ha, hb, rfl⟩ := h.split
  have e := (sameDetection hv hs hd ha hb).2 hdet
  have e' := mt (sameObservables hv hs hd ha hb).1 hobs
  by_cases h1 : guess (detectionBits d ra) = observableBits d ra
  · exact .inr ⟨rb, hb, fun h2 => e' (by rw [← h1, ← h2, e])⟩
  · exact .inl ⟨ra, ha, h1⟩

end Honeycomb
