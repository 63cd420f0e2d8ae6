import Mathlib.Data.List.TakeWhile
import Verif.Lemmas.DemGraph

/-!
# Detector ids and the extra edges for pymatching
-/

namespace Honeycomb

theorem lt_idBound {l : List Nat} {x : Nat} (h : x ∈ l) : x < idBound l := by
  induction l with
  | nil => simp at h
  | cons a l ih =>
    simp only [idBound, List.foldr_cons]
    rcases List.mem_cons.1 h with rfl | h
    · omega
    · have := ih h
      simp only [idBound] at this
      omega

theorem mem_splitOn_sub {α : Type} [BEq α] [LawfulBEq α] (a : α) (l : List α) :
    ∀ c ∈ l.splitOn a, ∀ x ∈ c, x ∈ l := by
  induction l with
  | nil => intro c hc x hx; simp [List.splitOn_nil] at hc; subst hc; simp at hx
  | cons b l ih =>
    intro c hc x hx
    rw [List.splitOn_cons_eq_if_modifyHead] at hc
    split_ifs at hc with hb
    · rcases List.mem_cons.1 hc with rfl | hc
      · simp at hx
      · exact List.mem_cons_of_mem _ (ih c hc x hx)
    · cases hs : l.splitOn a with
      | nil => simp [hs] at hc
      | cons d ds =>
        rw [hs, List.modifyHead_cons] at hc
        rcases List.mem_cons.1 hc with rfl | hc
        · rcases List.mem_cons.1 hx with rfl | hx
          · simp
          · exact List.mem_cons_of_mem _ (ih d (by simp [hs]) x hx)
        · exact List.mem_cons_of_mem _ (ih c (by simp [hs, hc]) x hx)

/-- Detector ids reported by flattening are below the number of detectors. -/
theorem calls_ids (m : Dem) :
    (∀ p d f, DemCall.error p d f ∈ demCalls m.unroll → ∀ x ∈ d, x < m.num_detectors) ∧
      ∀ x c, DemCall.coords x c ∈ demCalls m.unroll → x < m.num_detectors := by
  have key : ∀ x i, x ∈ absDetIds m.unroll i → i < m.unroll.length → x < m.num_detectors := by
    intro x i hx hi
    exact lt_idBound (List.mem_flatMap.2 ⟨i, List.mem_range.2 hi, hx⟩)
  constructor
  · intro p d f h x hx
    obtain ⟨i, hi, h⟩ := List.mem_flatMap.1 h
    rw [List.mem_range] at hi
    apply key x i _ hi
    rw [callsAt] at h
    rw [List.getElem?_eq_getElem hi] at h
    rw [absDetIds, List.getElem?_eq_getElem hi]
    cases hins : m.unroll[i] with
    | error p' ts =>
      rw [hins] at h
      simp only [List.mem_map, DemCall.error.injEq] at h
      obtain ⟨c, hc, -, rfl, -⟩ := h
      obtain ⟨y, hy, rfl⟩ := List.mem_map.1 hx
      simp only [Option.elim, DemInstr.detIds]
      refine List.mem_map.2 ⟨y, ?_, rfl⟩
      simp only [demDets, List.mem_filterMap] at hy ⊢
      obtain ⟨t, ht, hty⟩ := hy
      exact ⟨t, mem_splitOn_sub _ _ c hc t ht, hty⟩
    | shift d a => rw [hins] at h; simp at h
    | detector a ids => rw [hins] at h; simp at h
    | logicalObs ids => rw [hins] at h; simp at h
  · intro x c h
    obtain ⟨i, hi, h⟩ := List.mem_flatMap.1 h
    rw [List.mem_range] at hi
    apply key x i _ hi
    rw [callsAt] at h
    rw [List.getElem?_eq_getElem hi] at h
    rw [absDetIds, List.getElem?_eq_getElem hi]
    cases hins : m.unroll[i] with
    | error p' ts => rw [hins] at h; simp at h
    | shift d a => rw [hins] at h; simp at h
    | detector a ids =>
      rw [hins] at h
      simp only [List.mem_map, DemCall.coords.injEq] at h
      obtain ⟨y, hy, rfl, -⟩ := h
      simp only [Option.elim, DemInstr.detIds]
      exact List.mem_map.2 ⟨y, hy, rfl⟩
    | logicalObs ids => rw [hins] at h; simp at h

theorem mechanisms_ids (m : Dem) : ∀ e ∈ m.mechanisms, ∀ x ∈ e.dets, x < m.num_detectors := by
  intro e he x hx
  obtain ⟨c, hc, hce⟩ := List.mem_filterMap.1 he
  cases c with
  | coords d c => simp at hce
  | error p d f =>
    simp only [Option.some.injEq] at hce
    subst hce
    exact (calls_ids m).1 p d f hc x hx

theorem probOdd_perm {l l' : List Rat} (h : l.Perm l') : probOdd l = probOdd l' := by
  induction h with
  | nil => rfl
  | cons a _ ih => rw [probOdd_cons, probOdd_cons, ih]
  | swap a b l => rw [probOdd_cons, probOdd_cons, probOdd_cons, probOdd_cons]; ring
  | trans _ _ ih1 ih2 => rw [ih1, ih2]

theorem agreeing_all {l : List Mechanism} (F : Finset Nat) (h : ∀ e ∈ l, e.frames.toFinset = F) :
    agreeing l = l.reverse := by
  rw [agreeing]
  cases hl : l.getLast? with
  | none => rw [List.getLast?_eq_none_iff] at hl; subst hl; rfl
  | some e =>
    simp only
    rw [List.takeWhile_eq_self_iff]
    intro x hx
    rw [decide_eq_true_eq, h x (List.mem_reverse.1 hx), h e (List.mem_of_getLast? hl)]

/-! ### Spandrels -/

theorem foldl_touch (l : List Nat) (g : NxGraph) :
    (∀ x y, (l.foldl (fun g k => g.touch k) g).edge? x y = g.edge? x y) ∧
      ∀ x, (l.foldl (fun g k => g.touch k) g).nodes.get? x =
        if x ∈ l then some ((g.nodes.get? x).getD {}) else g.nodes.get? x := by
  induction l generalizing g with
  | nil => simp
  | cons a l ih =>
    obtain ⟨h1, h2⟩ := ih (g.touch a)
    constructor
    · intro x y; rw [List.foldl_cons, h1, NxGraph.touch_edge?]
    · intro x
      rw [List.foldl_cons, h2, NxGraph.touch_nodes]
      by_cases hx : x = a
      · subst hx; by_cases hl : x ∈ l <;> simp [hl]
      · simp [hx]

/-- What the loop `for k in ...: g.add_edge(k, n, weight=...)` does when no `k` is `n`. -/
theorem foldl_addEdge (l : List Nat) (n : Nat) (hl : ∀ k ∈ l, k ≠ n) (w : ℝ) (g : NxGraph)
    (hg : ∀ k, g.edge? k n = none ∨ ∃ d, g.edge? k n = some d ∧ d = { weight := w }) :
    (∀ x y, (l.foldl (fun g k => g.addEdge k n w none none) g).edge? x y =
        if (y = n ∧ x ∈ l) ∨ (x = n ∧ y ∈ l) then some { weight := w } else g.edge? x y) ∧
      ∀ x, (l.foldl (fun g k => g.addEdge k n w none none) g).nodes.get? x =
        if x ∈ l ∨ (l ≠ [] ∧ x = n) then some ((g.nodes.get? x).getD {}) else g.nodes.get? x := by
  induction l generalizing g with
  | nil => simp
  | cons a l ih =>
    have ha : a ≠ n := hl a (by simp)
    have hE : ∀ x y, (g.addEdge a n w none none).edge? x y =
        if edgeKey x y = edgeKey a n then some { weight := w } else g.edge? x y := by
      intro x y
      rw [NxGraph.addEdge_edge?]
      by_cases hk : edgeKey x y = edgeKey a n
      · rw [if_pos hk, if_pos hk]
        rcases hg a with h | ⟨d, h, rfl⟩ <;> rw [h] <;> rfl
      · rw [if_neg hk, if_neg hk]
    obtain ⟨h1, h2⟩ := ih (fun k hk => hl k (by simp [hk])) (g.addEdge a n w none none) (by
      intro k
      rw [hE]
      by_cases hk : edgeKey k n = edgeKey a n
      · rw [if_pos hk]; exact .inr ⟨_, rfl, rfl⟩
      · rw [if_neg hk]; exact hg k)
    constructor
    · intro x y
      rw [List.foldl_cons, h1, hE]
      simp only [edgeKey_eq_iff, List.mem_cons]
      by_cases hc : (y = n ∧ x ∈ l) ∨ (x = n ∧ y ∈ l)
      · rw [if_pos hc, if_pos (by rcases hc with ⟨h, h'⟩ | ⟨h, h'⟩ <;> simp [h, h'])]
      · rw [if_neg hc]
        by_cases hk : (x = a ∧ y = n) ∨ (x = n ∧ y = a)
        · rw [if_pos hk, if_pos (by rcases hk with ⟨h, h'⟩ | ⟨h, h'⟩ <;> simp [h, h'])]
        · rw [if_neg hk, if_neg]
          rintro (⟨h, h' | h'⟩ | ⟨h, h' | h'⟩)
          · exact hk (.inl ⟨h', h⟩)
          · exact hc (.inl ⟨h, h'⟩)
          · exact hk (.inr ⟨h, h'⟩)
          · exact hc (.inr ⟨h, h'⟩)
    · intro x
      rw [List.foldl_cons, h2, NxGraph.addEdge_nodes]
      by_cases hx : x = a
      · subst hx; simp
      · by_cases hn : x = n
        · subst hn
          by_cases hll : l = [] <;> simp [hll]
        · simp [hx, hn]

/-- The graph with spandrels, for a graph all of whose nodes and edges are among `0..nd`. -/
theorem addSpandrels_eq (g : NxGraph) (nd no : Nat) (hg : ∀ x, g.edge? x (nd + 1) = none) :
    (∀ x y, (addSpandrels g nd no).edge? x y =
        if edgeKey x y = edgeKey nd (nd + 1) then some { weight := spandrelWeight, qubit_id := some (List.range no) }
        else if (y = nd + 1 ∧ x < nd) ∨ (x = nd + 1 ∧ y < nd) then some { weight := spandrelWeight }
        else g.edge? x y) ∧
      ∀ x, (addSpandrels g nd no).nodes.get? x =
        if x ≤ nd + 1 then some ((g.nodes.get? x).getD {}) else g.nodes.get? x := by
  obtain ⟨t1, t2⟩ := foldl_touch (List.range nd) g
  rw [addSpandrels]
  set g1 := (List.range nd).foldl (fun g k => g.touch k) g with hg1
  have hE2 : ∀ x y, (g1.touch (nd + 1)).edge? x y = g.edge? x y := by
    intro x y; rw [NxGraph.touch_edge?, t1]
  obtain ⟨e1, e2⟩ := foldl_addEdge (List.range (nd + 1)) (nd + 1) (by intro k hk; rw [List.mem_range] at hk; omega)
    spandrelWeight (g1.touch (nd + 1)) (by intro k; left; rw [hE2, hg])
  set g3 := (List.range (nd + 1)).foldl (fun g k => g.addEdge k (nd + 1) spandrelWeight none none) (g1.touch (nd + 1)) with hg3
  constructor
  · intro x y
    rw [NxGraph.addEdge_edge?]
    by_cases hk : edgeKey x y = edgeKey nd (nd + 1)
    · rw [if_pos hk, if_pos hk, e1 nd (nd + 1), if_pos (by simp)]
      rfl
    · rw [if_neg hk, if_neg hk, e1, hE2]
      rw [edgeKey_eq_iff] at hk
      simp only [List.mem_range]
      congr 1
      simp only [eq_iff_iff]
      constructor <;> (rintro (⟨h, h'⟩ | ⟨h, h'⟩) <;> omega)
  · intro x
    rw [NxGraph.addEdge_nodes, e2, NxGraph.touch_nodes, t2]
    simp only [List.mem_range]
    by_cases h1 : x < nd
    · have : x ≤ nd + 1 := by omega
      have : x < nd + 1 := by omega
      simp [*]
    · by_cases h2 : x = nd
      · subst h2; simp
      · by_cases h3 : x = nd + 1
        · subst h3; simp
        · have a1 : ¬x ≤ nd + 1 := by omega
          have a2 : ¬x < nd + 1 := by omega
          simp [*]

end Honeycomb
