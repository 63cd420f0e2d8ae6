import Verif.Spec.Dem

/-!
# Lemmas on flattening of detector error models
-/

namespace Honeycomb

variable {σ : Type}

theorem iterM_eq_foldlM {β : Type} (f : σ → Except PyErr σ) (g : σ → β → Except PyErr σ) (l : List β)
    (hf : ∀ s, f s = l.foldlM g s) (n : Nat) (s : σ) :
    iterM f n s = (List.replicate n l).flatten.foldlM g s := by
  induction n generalizing s with
  | zero => rfl
  | succ n ih =>
    rw [iterM, List.replicate_succ, List.flatten_cons, List.foldlM_append, hf]
    congr 1
    funext s
    exact ih s

theorem flattenHelper_eq (h : DemHandlers σ) (m : Dem) (s : FlatState σ) :
    flattenHelper h m s = m.unroll.foldlM (fun s i => flattenInstr h i s) s := by
  induction m generalizing s with
  | nil => rfl
  | op i r ih =>
    rw [flattenHelper, Dem.unroll, List.foldlM_cons]
    congr 1
    funext s
    exact ih s
  | rep n b r ihb ihr =>
    rw [flattenHelper, Dem.unroll, List.foldlM_append,
      iterM_eq_foldlM _ (fun s i => flattenInstr h i s) b.unroll ihb]
    congr 1
    funext s
    exact ihr s

/-! ### Targets -/

theorem flattenTargets_eq (h : DemHandlers σ) (p : Rat) (off : Nat) (ts : List DemTarget) :
    ∀ (dets frames : List Nat) (s : σ),
      flattenTargets h p off ts dets frames s =
        (match ts.splitOn DemTarget.sep with
          | [] => []
          | c :: cs => DemCall.error p (dets ++ (demDets c).map (· + off)) (frames ++ demObs c) ::
              cs.map fun c => DemCall.error p ((demDets c).map (· + off)) (demObs c)).foldlM h.apply s := by
  induction ts with
  | nil =>
    intro dets frames s
    simp [flattenTargets, List.splitOn_nil, demDets, demObs, DemHandlers.apply]
  | cons t ts ih =>
    intro dets frames s
    have hne := List.splitOn_ne_nil DemTarget.sep ts
    cases t with
    | det n =>
      rw [flattenTargets, ih, List.splitOn_cons_eq_if_modifyHead, if_neg (by simp)]
      cases hs : ts.splitOn DemTarget.sep with
      | nil => exact absurd hs hne
      | cons c cs => simp [List.modifyHead, demDets, demObs]
    | obs n =>
      rw [flattenTargets, ih, List.splitOn_cons_eq_if_modifyHead, if_neg (by simp)]
      cases hs : ts.splitOn DemTarget.sep with
      | nil => exact absurd hs hne
      | cons c cs => simp [List.modifyHead, demDets, demObs]
    | sep =>
      rw [flattenTargets, List.splitOn_cons_eq_if_modifyHead, if_pos (by simp)]
      simp only [demDets, demObs, List.filterMap_nil, List.map_nil, List.append_nil, List.foldlM_cons]
      show (h.handleError p dets frames s).bind _ = (h.handleError p dets frames s).bind _
      congr 1
      funext s
      rw [ih]
      cases hs : ts.splitOn DemTarget.sep with
      | nil => exact absurd hs hne
      | cons c cs => simp [demDets, demObs]

theorem flattenTargets_start (h : DemHandlers σ) (p : Rat) (off : Nat) (ts : List DemTarget) (s : σ) :
    flattenTargets h p off ts [] [] s =
      ((ts.splitOn DemTarget.sep).map fun c =>
        DemCall.error p ((demDets c).map (· + off)) (demObs c)).foldlM h.apply s := by
  rw [flattenTargets_eq]
  cases hs : ts.splitOn DemTarget.sep with
  | nil => exact absurd hs (List.splitOn_ne_nil _ _)
  | cons c cs => simp

/-! ### Coordinates -/

/-- The coordinate offset array after some instructions. -/
def offArray (l : List DemInstr) : List Rat := (List.range 100).map fun k => (l.map fun x => x.coordShift k).sum

theorem offArray_length (l : List DemInstr) : (offArray l).length = 100 := by simp [offArray]

theorem offArray_getElem (l : List DemInstr) (k : Nat) (hk : k < (offArray l).length) :
    (offArray l)[k] = (l.map fun x => x.coordShift k).sum := by simp [offArray]

theorem absCoords_eq (l : List DemInstr) (a : List Rat) (ha : a.length ≤ 100) :
    absCoords (offArray l) a = .ok (a.mapIdx fun k x => x + (l.map fun x => x.coordShift k).sum) := by
  rw [absCoords, if_neg (by rw [offArray_length]; omega)]
  congr 1
  apply List.ext_getElem
  · simp [offArray_length]; omega
  · intro k h1 h2
    simp [offArray_getElem]

theorem addCoords_eq (l : List DemInstr) (d : Nat) (a : List Rat) (ha : a.length ≤ 100) :
    addCoords (offArray l) a = .ok (offArray (l ++ [.shift d a])) := by
  rw [addCoords, if_neg (by rw [offArray_length]; omega)]
  congr 1
  apply List.ext_getElem
  · simp [offArray_length]; omega
  · intro k h1 h2
    rw [offArray_getElem]
    by_cases hk : k < a.length
    · rw [List.getElem_append_left (by simp [offArray_length]; omega)]
      simp [offArray_getElem, DemInstr.coordShift, hk]
    · rw [List.getElem_append_right (by simp [offArray_length]; omega)]
      have hl : (List.zipWith (· + ·) ((offArray l).take a.length) a).length = a.length := by
        simp [offArray_length]; omega
      simp only [List.getElem_drop]
      have e : a.length + (k - (List.zipWith (· + ·) ((offArray l).take a.length) a).length) = k := by omega
      simp only [e, offArray_getElem]
      simp [DemInstr.coordShift, List.getD_eq_getElem?_getD, List.getElem?_eq_none (Nat.le_of_not_lt hk)]

theorem offArray_snoc (l : List DemInstr) (i : DemInstr) (hi : ∀ k, i.coordShift k = 0) :
    offArray (l ++ [i]) = offArray l := by
  simp [offArray, hi]

theorem flattenDetector_eq (h : DemHandlers σ) (off : Nat) (l : List DemInstr) (a : List Rat) (ha : a.length ≤ 100)
    (ids : List Nat) (s : σ) :
    flattenDetector h off (offArray l) a ids s =
      (ids.map fun n => DemCall.coords (n + off)
        (a.mapIdx fun k x => x + (l.map fun x => x.coordShift k).sum)).foldlM h.apply s := by
  induction ids generalizing s with
  | nil => rfl
  | cons n ids ih =>
    rw [flattenDetector, absCoords_eq l a ha, List.map_cons, List.foldlM_cons]
    show (h.handleCoords _ _ s).bind _ = (h.handleCoords _ _ s).bind _
    congr 1
    funext s
    exact ih s

/-! ### The calls of a prefix -/

theorem callsAt_append (l l' : List DemInstr) (i : Nat) (hi : i < l.length) :
    callsAt (l ++ l') i = callsAt l i := by
  have h1 : (l ++ l')[i]? = l[i]? := List.getElem?_append_left hi
  have h2 : (l ++ l').take i = l.take i := List.take_append_of_le_length (by omega)
  simp only [callsAt, h1, detOffsetAt, coordOffsetAt, h2]

theorem demCalls_snoc (l : List DemInstr) (i : DemInstr) :
    demCalls (l ++ [i]) = demCalls l ++ callsAt (l ++ [i]) l.length := by
  rw [demCalls, List.length_append, List.length_singleton, List.range_succ, List.flatMap_append]
  congr 1
  · rw [demCalls]
    apply List.flatMap_congr
    intro k hk
    exact callsAt_append l [i] k (List.mem_range.1 hk)
  · simp

/-- The state of the loop after processing an unrolled prefix. -/
def flatAfter (l : List DemInstr) (s : σ) : FlatState σ :=
  { detOffset := (l.map DemInstr.shiftOf).sum, coords := offArray l, st := s }

theorem flattenInstr_eq (h : DemHandlers σ) (l : List DemInstr) (i : DemInstr) (hi : i.coordArgs.length ≤ 100) (s : σ) :
    flattenInstr h i (flatAfter l s) =
      ((callsAt (l ++ [i]) l.length).foldlM h.apply s).map (flatAfter (l ++ [i])) := by
  have hget : (l ++ [i])[l.length]? = some i := by simp
  have htake : (l ++ [i]).take l.length = l := by simp
  cases i with
  | error p ts =>
    simp only [flattenInstr, callsAt, hget, detOffsetAt, htake]
    show (flattenTargets h p _ ts [] [] s).bind _ = _
    rw [flattenTargets_start]
    cases h1 : List.foldlM h.apply s ((ts.splitOn DemTarget.sep).map fun c =>
        DemCall.error p ((demDets c).map (· + (flatAfter l s).detOffset)) (demObs c)) with
    | error e => simp only [flatAfter] at h1; rw [h1]; rfl
    | ok v =>
      simp only [flatAfter] at h1
      rw [h1]
      simp [Except.bind, Except.map, flatAfter, DemInstr.shiftOf]
      exact (offArray_snoc l _ fun k => rfl).symm
  | shift d a =>
    simp only [flattenInstr, callsAt, hget, List.foldlM_nil, flatAfter]
    rw [addCoords_eq l d a hi]
    simp [Except.map, flatAfter, DemInstr.shiftOf, bind, Except.bind, pure, Except.pure]
  | detector a ids =>
    simp only [flattenInstr, callsAt, hget, detOffsetAt, coordOffsetAt, htake]
    show (flattenDetector h _ (offArray l) a ids s).bind _ = _
    rw [flattenDetector_eq h _ l a hi]
    cases h1 : List.foldlM h.apply s (ids.map fun n => DemCall.coords (n + (flatAfter l s).detOffset)
        (a.mapIdx fun k x => x + (l.map fun x => x.coordShift k).sum)) with
    | error e => simp only [flatAfter] at h1; rw [h1]; rfl
    | ok v =>
      simp only [flatAfter] at h1
      rw [h1]
      simp [Except.bind, Except.map, flatAfter, DemInstr.shiftOf]
      exact (offArray_snoc l _ fun k => rfl).symm
  | logicalObs ids =>
    simp [flattenInstr, callsAt, flatAfter, Except.map, DemInstr.shiftOf, pure, Except.pure]
    exact (offArray_snoc l _ fun k => rfl).symm

theorem foldlM_flatten (h : DemHandlers σ) (l : List DemInstr) (hl : ∀ i ∈ l, i.coordArgs.length ≤ 100) (s : σ) :
    l.foldlM (fun s i => flattenInstr h i s) (flatAfter [] s) =
      ((demCalls l).foldlM h.apply s).map (flatAfter l) := by
  induction l using List.reverseRecOn with
  | nil => rfl
  | append_singleton l i ih =>
    rw [List.foldlM_append, ih fun j hj => hl j (by simp [hj]), demCalls_snoc, List.foldlM_append]
    cases (demCalls l).foldlM h.apply s with
    | error e => rfl
    | ok v =>
      show (List.foldlM (fun s i => flattenInstr h i s) (flatAfter l v) [i]) = _
      rw [List.foldlM_cons, flattenInstr_eq h l i (hl i (by simp))]
      show _ = Except.map _ (List.foldlM h.apply v _)
      cases (callsAt (l ++ [i]) l.length).foldlM h.apply v <;> rfl

/-- Flattening a model performs the calls of the unrolled model. -/
theorem iterFlattenModel_eq (m : Dem) (hm : m.CoordsFit) (h : DemHandlers σ) (s : σ) :
    iterFlattenModel m h s = (demCalls m.unroll).foldlM h.apply s := by
  have h0 : ({ detOffset := 0, coords := List.replicate 100 0, st := s } : FlatState σ) = flatAfter [] s := by
    simp [flatAfter, offArray]
  rw [iterFlattenModel, h0, flattenHelper_eq, foldlM_flatten h _ hm]
  cases (demCalls m.unroll).foldlM h.apply s <;> rfl

end Honeycomb
