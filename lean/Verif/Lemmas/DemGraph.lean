import Mathlib.Tactic.FieldSimp
import Verif.Lemmas.Dem
import Verif.Lemmas.Dict
import Verif.Lemmas.ProbOdd

/-!
# The matching graph of an error model
-/

namespace Honeycomb

theorem edgeKey_comm (u v : Nat) : edgeKey u v = edgeKey v u := by
  simp [edgeKey, Nat.min_comm, Nat.max_comm]

theorem edgeKey_eq_iff (a b u v : Nat) : edgeKey a b = edgeKey u v ↔ (a = u ∧ b = v) ∨ (a = v ∧ b = u) := by
  simp only [edgeKey, Prod.mk.injEq]
  omega

theorem logOdds_eq (p : Rat) (h0 : 0 < p) (h1 : p < 1) :
    logOdds p = .ok (Real.log (((1 - p) / p : Rat) : ℝ)) := by
  rw [logOdds, if_neg h0.ne', if_neg]
  exact not_le.2 (div_pos (by linarith) h0)

/-! ### The attributes of an edge as a function of the components seen so far -/

/-- The attributes written for probability `p` and frame changes `f`. -/
noncomputable def demEdge (p : Rat) (f : List Nat) : EdgeData :=
  { weight := Real.log (((1 - p) / p : Rat) : ℝ), qubit_id := some f, error_probability := some p }

/-- The end of the list of components on an edge which agree with the last one on the frame changes. -/
def agreeing (l : List Mechanism) : List Mechanism :=
  match l.getLast? with
  | none => []
  | some e => (l.reverse.takeWhile fun x => x.frames.toFinset = e.frames.toFinset)

/-- The attributes of an edge after the components `l` on it. -/
noncomputable def edgeAfter (l : List Mechanism) : Option EdgeData :=
  (l.getLast?).map fun e => demEdge (probOdd ((agreeing l).map Mechanism.p)) e.frames

theorem agreeing_snoc (l : List Mechanism) (e : Mechanism) :
    agreeing (l ++ [e]) = e :: (match l.getLast? with
      | none => []
      | some e' => if e'.frames.toFinset = e.frames.toFinset then agreeing l else []) := by
  rw [agreeing, List.getLast?_append]
  simp only [List.getLast?_singleton, Option.some_or, List.reverse_append, List.reverse_singleton, List.singleton_append]
  rw [List.takeWhile_cons_of_pos (by simp)]
  congr 1
  cases h : l.getLast? with
  | none => rw [List.getLast?_eq_none_iff] at h; subst h; rfl
  | some e' =>
    obtain ⟨l', rfl⟩ := List.getLast?_eq_some_iff.1 h
    simp only
    split_ifs with he
    · rw [agreeing, h]
      simp only [he]
    · rw [List.reverse_append, List.reverse_singleton, List.singleton_append, List.takeWhile_cons_of_neg (by simpa using he)]

theorem agreeing_subset (l : List Mechanism) : ∀ e ∈ agreeing l, e ∈ l := by
  intro e he
  rw [agreeing] at he
  cases h : l.getLast? with
  | none => simp [h] at he
  | some e' =>
    rw [h] at he
    exact List.mem_reverse.1 ((List.takeWhile_sublist _).subset he)

theorem edgeAfter_snoc (l : List Mechanism) (e : Mechanism) :
    edgeAfter (l ++ [e]) = some (match l.getLast? with
      | none => demEdge e.p e.frames
      | some e' => if e'.frames.toFinset = e.frames.toFinset
          then demEdge (e.p * (1 - probOdd ((agreeing l).map Mechanism.p))
            + probOdd ((agreeing l).map Mechanism.p) * (1 - e.p)) e.frames
          else demEdge e.p e.frames) := by
  rw [edgeAfter, agreeing_snoc, List.getLast?_append]
  simp only [List.getLast?_singleton, Option.some_or, Option.map_some]
  cases h : l.getLast? with
  | none => simp [probOdd_single]
  | some e' =>
    simp only
    split_ifs with he
    · rw [List.map_cons, probOdd_cons]
    · simp [probOdd_single]

/-! ### Graph operations -/

namespace NxGraph

theorem touch_edges (g : NxGraph) (u : Nat) : (g.touch u).edges = g.edges := by
  rw [touch]; split <;> rfl

theorem touch_nodes (g : NxGraph) (u x : Nat) :
    (g.touch u).nodes.get? x = if x = u then some ((g.nodes.get? x).getD {}) else g.nodes.get? x := by
  rw [touch]
  split
  · rename_i d h
    split_ifs with hx
    · subst hx; rw [h]; rfl
    · rfl
  · rename_i h
    simp only
    rw [PyDict.get?_set]
    by_cases hx : x = u
    · subst hx; simp [h]
    · simp [hx, Ne.symm hx]

theorem touch_edge? (g : NxGraph) (u x y : Nat) : (g.touch u).edge? x y = g.edge? x y := by
  rw [edge?, touch_edges, edge?]

theorem addCoordsNode_edge? (g : NxGraph) (u x y : Nat) (c : List Rat) :
    (g.addCoordsNode u c).edge? x y = g.edge? x y := rfl

theorem addCoordsNode_nodes (g : NxGraph) (u x : Nat) (c : List Rat) :
    (g.addCoordsNode u c).nodes.get? x =
      if x = u then some { (g.nodes.get? u).getD {} with coords := some c } else g.nodes.get? x := by
  rw [addCoordsNode, PyDict.get?_set]
  by_cases hx : x = u
  · subst hx; simp
  · simp [hx, Ne.symm hx]

theorem addEdge_edge? (g : NxGraph) (u v x y : Nat) (w : ℝ) (f : Option (List Nat)) (p : Option Rat) :
    (g.addEdge u v w f p).edge? x y =
      if edgeKey x y = edgeKey u v then
        some { weight := w, qubit_id := f <|> (g.edge? u v).bind EdgeData.qubit_id,
               error_probability := p <|> (g.edge? u v).bind EdgeData.error_probability }
      else g.edge? x y := by
  rw [addEdge]
  simp only [edge?, touch_edges]
  rw [PyDict.get?_set]
  by_cases h : edgeKey x y = edgeKey u v
  · simp [h]
  · simp [h, Ne.symm h]

theorem addEdge_nodes (g : NxGraph) (u v x : Nat) (w : ℝ) (f : Option (List Nat)) (p : Option Rat) :
    (g.addEdge u v w f p).nodes.get? x =
      if x = u ∨ x = v then some ((g.nodes.get? x).getD {}) else g.nodes.get? x := by
  rw [addEdge]
  simp only [touch_nodes]
  by_cases h2 : x = v
  · subst h2
    by_cases h1 : x = u <;> simp [h1]
  · by_cases h1 : x = u <;> simp [h1, h2]

theorem removeEdge_edge? (g : NxGraph) (u v x y : Nat) (h : edgeKey x y ≠ edgeKey u v) :
    (g.removeEdge u v).edge? x y = g.edge? x y := by
  rw [removeEdge, edge?, edge?, PyDict.get?_filter_ne _ h]

end NxGraph

/-! ### One edge -/

/-- Adding a component to an edge: the attributes of that edge become those after one more component, all others stay. -/
theorem handleEdge_ok (g : NxGraph) (l : List Mechanism) (e : Mechanism) (u v : Nat)
    (hl : ∀ x ∈ l ++ [e], 0 < x.p ∧ x.p < 1) (hg : g.edge? u v = edgeAfter l) :
    ∃ g', handleEdge e.p u v e.frames g = .ok g' ∧
      (∀ x y, g'.edge? x y = if edgeKey x y = edgeKey u v then edgeAfter (l ++ [e]) else g.edge? x y) ∧
      ∀ x, g'.nodes.get? x = if x = u ∨ x = v then some ((g.nodes.get? x).getD {}) else g.nodes.get? x := by
  obtain ⟨hp0, hp1⟩ := hl e (by simp)
  rw [handleEdge, hg]
  cases hlast : l.getLast? with
  | none =>
    have h0 : edgeAfter l = none := by rw [edgeAfter, hlast]; rfl
    rw [h0, logOdds_eq _ hp0 hp1]
    refine ⟨_, rfl, fun x y => ?_, fun x => NxGraph.addEdge_nodes ..⟩
    rw [NxGraph.addEdge_edge?, edgeAfter_snoc, hlast]
    rfl
  | some e' =>
    have h0 : edgeAfter l = some (demEdge (probOdd ((agreeing l).map Mechanism.p)) e'.frames) := by
      rw [edgeAfter, hlast]; rfl
    rw [h0]
    simp only [demEdge]
    have hq := probOdd_bounds ((agreeing l).map Mechanism.p) (by
      intro p hp
      obtain ⟨x, hx, rfl⟩ := List.mem_map.1 hp
      exact hl x (by simp [agreeing_subset l x hx]))
    by_cases hf : e'.frames.toFinset = e.frames.toFinset
    · rw [if_pos hf]
      have hb := probOdd_bounds (e.p :: (agreeing l).map Mechanism.p) (by
        intro p hp
        rcases List.mem_cons.1 hp with rfl | hp
        · exact ⟨hp0, hp1⟩
        · obtain ⟨x, hx, rfl⟩ := List.mem_map.1 hp
          exact hl x (by simp [agreeing_subset l x hx]))
      rw [probOdd_cons] at hb
      rw [logOdds_eq _ (hb.2.2 (by simp)) hb.2.1]
      refine ⟨_, rfl, fun x y => ?_, fun x => NxGraph.addEdge_nodes ..⟩
      rw [NxGraph.addEdge_edge?, edgeAfter_snoc, hlast]
      simp only [if_pos hf]
      by_cases hk : edgeKey x y = edgeKey u v
      · rw [if_pos hk, if_pos hk]; rfl
      · rw [if_neg hk, if_neg hk, NxGraph.removeEdge_edge? _ _ _ _ _ hk]
    · rw [if_neg hf, logOdds_eq _ hp0 hp1]
      refine ⟨_, rfl, fun x y => ?_, fun x => NxGraph.addEdge_nodes ..⟩
      rw [NxGraph.addEdge_edge?, edgeAfter_snoc, hlast]
      simp only [if_neg hf]
      rfl

/-! ### All calls -/

/-- The error components among calls. -/
def callMechanisms (cs : List DemCall) : List Mechanism :=
  cs.filterMap fun | .error p d f => some ⟨p, d, f⟩ | _ => none

/-- The coordinates reported for a detector. -/
def callCoords (cs : List DemCall) (x : Nat) : List (List Rat) :=
  cs.filterMap fun | .coords d c => if d = x then some c else none | _ => none

/-- The components of non-zero probability that connect `u` and `v`. -/
def callBetween (b : Nat) (cs : List DemCall) (u v : Nat) : List Mechanism :=
  (callMechanisms cs).filter fun e => e.p ≠ 0 ∧ e.connects b u v

/-- The nodes a component adds. -/
def Mechanism.ends (e : Mechanism) (b : Nat) : List Nat :=
  if e.p = 0 then [] else match e.dets with
    | [] => []
    | [a] => [a, b]
    | l => l

/-- The nodes present after some calls. -/
def callNode (b : Nat) (cs : List DemCall) (x : Nat) : Prop :=
  x = b ∨ callCoords cs x ≠ [] ∨ ∃ e ∈ callMechanisms cs, x ∈ e.ends b

theorem connects_pair (e : Mechanism) (b x y u v : Nat) (h : e.dets = [x, y]) :
    e.connects b u v ↔ edgeKey u v = edgeKey x y := by
  rw [edgeKey_eq_iff]
  simp only [Mechanism.connects, h, List.cons.injEq, and_true, reduceCtorEq, and_false, false_and, or_false]
  constructor
  · rintro (⟨rfl, rfl⟩ | ⟨rfl, rfl⟩) <;> simp
  · rintro (⟨rfl, rfl⟩ | ⟨rfl, rfl⟩) <;> simp

theorem connects_single (e : Mechanism) (b x u v : Nat) (h : e.dets = [x]) :
    e.connects b u v ↔ edgeKey u v = edgeKey x b := by
  rw [edgeKey_eq_iff]
  simp only [Mechanism.connects, h, List.cons.injEq, and_true, reduceCtorEq, and_false, false_or]
  constructor
  · rintro (⟨rfl, rfl⟩ | ⟨rfl, rfl⟩) <;> simp
  · rintro (⟨rfl, rfl⟩ | ⟨rfl, rfl⟩) <;> simp

theorem not_connects (e : Mechanism) (b u v : Nat) (h : e.dets.length = 0 ∨ 2 < e.dets.length) :
    ¬e.connects b u v := by
  intro hc
  rcases hc with hc | hc | ⟨hc, -⟩ | ⟨hc, -⟩ <;> rw [hc] at h <;> simp at h

theorem callBetween_snoc_error (b : Nat) (cs : List DemCall) (e : Mechanism) (u v : Nat) :
    callBetween b (cs ++ [.error e.p e.dets e.frames]) u v =
      callBetween b cs u v ++ (if e.p ≠ 0 ∧ e.connects b u v then [e] else []) := by
  simp only [callBetween, callMechanisms, List.filterMap_append, List.filter_append]
  congr 1
  simp only [List.filterMap_cons, List.filterMap_nil]
  by_cases h : e.p ≠ 0 ∧ e.connects b u v
  · rw [if_pos h, List.filter_cons_of_pos (by simpa using h)]; rfl
  · rw [if_neg h, List.filter_cons_of_neg (by simpa using h)]; rfl

/-- The handlers of the graph construction. -/
noncomputable def graphHandlers (b : Nat) : DemHandlers NxGraph :=
  { handleError := handleError b, handleCoords := handleDetectorCoords }

/-- What is known about the graph after some calls. -/
structure GraphAfter (b : Nat) (cs : List DemCall) (g : NxGraph) : Prop where
  edges : ∀ u v, g.edge? u v = edgeAfter (callBetween b cs u v)
  nodes : ∀ x, (g.nodes.get? x).isSome = true ↔ callNode b cs x
  boundary : ∀ x d, g.nodes.get? x = some d → (d.isBoundary = true ↔ x = b)
  coords : ∀ x d, g.nodes.get? x = some d →
    d.coords = ((callCoords cs x).getLast? <|> if x = b then some [-1, -1, -1] else none)

theorem GraphAfter.start (b : Nat) : GraphAfter b [] (startGraph b) where
  edges u v := rfl
  nodes x := by
    simp only [startGraph, PyDict.get?, callNode, callCoords, callMechanisms]
    by_cases h : b = x
    · simp [h]
    · simp [h, Ne.symm h]
  boundary x d h := by
    simp only [startGraph, PyDict.get?] at h
    split_ifs at h with hb
    cases h
    simp [hb]
  coords x d h := by
    simp only [startGraph, PyDict.get?] at h
    split_ifs at h with hb
    cases h
    simp [hb, callCoords]

theorem callCoords_snoc_error (cs : List DemCall) (p : Rat) (d f : List Nat) (x : Nat) :
    callCoords (cs ++ [.error p d f]) x = callCoords cs x := by
  simp [callCoords]

theorem callNode_snoc_error (b : Nat) (cs : List DemCall) (e : Mechanism) (x : Nat) :
    callNode b (cs ++ [.error e.p e.dets e.frames]) x ↔ callNode b cs x ∨ x ∈ e.ends b := by
  simp only [callNode, callCoords_snoc_error, callMechanisms, List.filterMap_append, List.mem_append,
    List.filterMap_cons, List.filterMap_nil, List.mem_singleton]
  constructor
  · rintro (h | h | ⟨e', h | h, hx⟩)
    · exact .inl (.inl h)
    · exact .inl (.inr (.inl h))
    · exact .inl (.inr (.inr ⟨e', h, hx⟩))
    · subst h; exact .inr hx
  · rintro ((h | h | ⟨e', h, hx⟩) | h)
    · exact .inl h
    · exact .inr (.inl h)
    · exact .inr (.inr ⟨e', .inl h, hx⟩)
    · exact .inr (.inr ⟨e, .inr rfl, h⟩)

/-- Adding an edge keeps the node facts. -/
theorem GraphAfter.addNodes {b : Nat} {cs : List DemCall} {g g' : NxGraph} (hg : GraphAfter b cs g) (e : Mechanism)
    (u v : Nat) (hends : ∀ x, x ∈ e.ends b ↔ x = u ∨ x = v)
    (hn : ∀ x, g'.nodes.get? x = if x = u ∨ x = v then some ((g.nodes.get? x).getD {}) else g.nodes.get? x)
    (hedges : ∀ u v, g'.edge? u v = edgeAfter (callBetween b (cs ++ [.error e.p e.dets e.frames]) u v)) :
    GraphAfter b (cs ++ [.error e.p e.dets e.frames]) g' where
  edges := hedges
  nodes x := by
    rw [callNode_snoc_error, hends, hn, ← hg.nodes]
    by_cases h : x = u ∨ x = v <;> simp [h]
  boundary x d h := by
    rw [hn] at h
    by_cases hx : x = u ∨ x = v
    · rw [if_pos hx] at h
      cases hd : g.nodes.get? x with
      | none =>
        rw [hd] at h
        simp only [Option.getD_none, Option.some.injEq] at h
        subst h
        have : ¬callNode b cs x := by rw [← hg.nodes, hd]; simp
        simp only [Bool.false_eq_true, false_iff]
        intro hxb
        exact this (.inl hxb)
      | some d' =>
        rw [hd] at h
        cases h
        exact hg.boundary x _ hd
    · rw [if_neg hx] at h
      exact hg.boundary x d h
  coords x d h := by
    rw [callCoords_snoc_error]
    rw [hn] at h
    by_cases hx : x = u ∨ x = v
    · rw [if_pos hx] at h
      cases hd : g.nodes.get? x with
      | none =>
        rw [hd] at h
        simp only [Option.getD_none, Option.some.injEq] at h
        subst h
        have : ¬callNode b cs x := by rw [← hg.nodes, hd]; simp
        have h1 : x ≠ b := fun e => this (.inl e)
        have h2 : callCoords cs x = [] := by
          by_contra hc
          exact this (.inr (.inl hc))
        simp [h1, h2]
      | some d' =>
        rw [hd] at h
        cases h
        exact hg.coords x _ hd
    · rw [if_neg hx] at h
      exact hg.coords x d h

theorem GraphAfter.same {b : Nat} {cs : List DemCall} {g : NxGraph} (hg : GraphAfter b cs g) (e : Mechanism)
    (hends : e.ends b = []) (hc : ∀ u v, ¬(e.p ≠ 0 ∧ e.connects b u v)) :
    GraphAfter b (cs ++ [.error e.p e.dets e.frames]) g where
  edges u v := by rw [callBetween_snoc_error, if_neg (hc u v), List.append_nil]; exact hg.edges u v
  nodes x := by rw [callNode_snoc_error, hends, hg.nodes]; simp
  boundary := hg.boundary
  coords x d h := by rw [callCoords_snoc_error]; exact hg.coords x d h

theorem GraphAfter.addCoordsNode {b : Nat} {cs : List DemCall} {g : NxGraph} (hg : GraphAfter b cs g) (x : Nat) (c : List Rat) :
    GraphAfter b (cs ++ [.coords x c]) (g.addCoordsNode x c) where
  edges u v := by
    rw [NxGraph.addCoordsNode_edge?, hg.edges]
    congr 1
    simp [callBetween, callMechanisms]
  nodes y := by
    have hm : callMechanisms (cs ++ [.coords x c]) = callMechanisms cs := by simp [callMechanisms]
    rw [NxGraph.addCoordsNode_nodes, callNode, hm]
    by_cases h : y = x
    · subst h
      simp [callCoords]
    · have : callCoords (cs ++ [.coords x c]) y = callCoords cs y := by simp [callCoords, Ne.symm h]
      rw [if_neg h, this]
      exact hg.nodes y
  boundary y d h := by
    rw [NxGraph.addCoordsNode_nodes] at h
    by_cases hy : y = x
    · subst hy
      rw [if_pos rfl] at h
      cases hd : g.nodes.get? y with
      | none =>
        rw [hd] at h
        cases h
        have : ¬callNode b cs y := by rw [← hg.nodes, hd]; simp
        simp only [Option.getD_none, Bool.false_eq_true, false_iff]
        intro hxb
        exact this (.inl hxb)
      | some d' =>
        rw [hd] at h
        cases h
        exact hg.boundary y d' hd
    · rw [if_neg hy] at h
      exact hg.boundary y d h
  coords y d h := by
    rw [NxGraph.addCoordsNode_nodes] at h
    by_cases hy : y = x
    · subst hy
      rw [if_pos rfl] at h
      cases h
      simp [callCoords]
    · rw [if_neg hy] at h
      have : callCoords (cs ++ [.coords x c]) y = callCoords cs y := by simp [callCoords, Ne.symm hy]
      rw [this]
      exact hg.coords y d h

/-- One more call: either the graph stays described, or the call is an error with too many detectors. -/
theorem GraphAfter.step {b : Nat} {cs : List DemCall} {g : NxGraph} (hg : GraphAfter b cs g) (c : DemCall)
    (hp : ∀ e ∈ callMechanisms (cs ++ [c]), 0 ≤ e.p ∧ e.p < 1) :
    (∃ g', (graphHandlers b).apply g c = .ok g' ∧ GraphAfter b (cs ++ [c]) g' ∧
        ∀ p d f, c = .error p d f → p = 0 ∨ d.length ≤ 2) ∨
      ((graphHandlers b).apply g c = .error .notImplemented ∧ ∃ p d f, c = .error p d f ∧ p ≠ 0 ∧ 2 < d.length) := by
  cases c with
  | coords x c =>
    exact .inl ⟨_, rfl, hg.addCoordsNode x c, fun p d f h => by cases h⟩
  | error p dets frames =>
    obtain ⟨e, he⟩ : ∃ e : Mechanism, e = ⟨p, dets, frames⟩ := ⟨_, rfl⟩
    show (∃ g', handleError b p dets frames g = .ok g' ∧ _) ∨ (handleError b p dets frames g = _ ∧ _)
    unfold handleError
    by_cases h0 : p = 0
    · refine .inl ⟨g, by rw [if_pos h0], hg.same ⟨p, dets, frames⟩ ?_ ?_, fun p' d' f' h => by cases h; exact .inl h0⟩
      · simp [Mechanism.ends, h0]
      · intro u v h; exact h.1 h0
    · rw [if_neg h0]
      have hmem : ∀ u v, ∀ x ∈ callBetween b cs u v ++ [e], 0 < x.p ∧ x.p < 1 := by
        intro u v x hx
        rcases List.mem_append.1 hx with hx | hx
        · have hx' := List.mem_filter.1 hx
          have hnz : x.p ≠ 0 := (of_decide_eq_true hx'.2).1
          have := hp x (by simp only [callMechanisms, List.filterMap_append]; exact List.mem_append_left _ hx'.1)
          exact ⟨lt_of_le_of_ne this.1 (Ne.symm hnz), this.2⟩
        · rw [List.mem_singleton] at hx
          subst hx
          have := hp x (by simp [callMechanisms, he])
          exact ⟨lt_of_le_of_ne this.1 (Ne.symm (by rw [he]; exact h0)), this.2⟩
      have key : ∀ u v, (∀ x y, e.connects b x y ↔ edgeKey x y = edgeKey u v) → (∀ x, x ∈ e.ends b ↔ x = u ∨ x = v) →
          ∃ g', handleEdge p u v frames g = .ok g' ∧ GraphAfter b (cs ++ [.error p dets frames]) g' := by
        intro u v hc hends
        subst he
        obtain ⟨g', hok, hedges, hnodes⟩ := handleEdge_ok g (callBetween b cs u v) ⟨p, dets, frames⟩ u v (hmem u v) (hg.edges u v)
        refine ⟨g', hok, hg.addNodes ⟨p, dets, frames⟩ u v hends hnodes fun x y => ?_⟩
        rw [hedges, callBetween_snoc_error]
        by_cases hk : edgeKey x y = edgeKey u v
        · rw [if_pos hk, if_pos ⟨h0, (hc x y).2 hk⟩]
          congr 2
          have : ∀ m : Mechanism, m.connects b x y ↔ m.connects b u v := by
            intro m
            rcases (edgeKey_eq_iff x y u v).1 hk with ⟨rfl, rfl⟩ | ⟨rfl, rfl⟩
            · rfl
            · simp only [Mechanism.connects]; tauto
          simp only [callBetween, this]
        · rw [if_neg hk, if_neg fun h => hk ((hc x y).1 h.2), List.append_nil]
          exact hg.edges x y
      rcases dets with _ | ⟨a, _ | ⟨c, _ | ⟨d, l⟩⟩⟩
      · refine .inl ⟨g, rfl, hg.same ⟨p, [], frames⟩ ?_ ?_, fun p' d' f' h => by cases h; exact .inr (by simp)⟩
        · simp [Mechanism.ends]
        · intro u v h; exact not_connects _ _ _ _ (.inl rfl) h.2
      · obtain ⟨g', h1, h2⟩ := key a b (fun x y => connects_single e b a x y (by rw [he]))
          (fun x => by simp [he, Mechanism.ends, h0])
        exact .inl ⟨g', h1, h2, fun p' d' f' h => by cases h; exact .inr (by simp)⟩
      · obtain ⟨g', h1, h2⟩ := key a c (fun x y => connects_pair e b a c x y (by rw [he]))
          (fun x => by simp [he, Mechanism.ends, h0])
        exact .inl ⟨g', h1, h2, fun p' d' f' h => by cases h; exact .inr (by simp)⟩
      · exact .inr ⟨rfl, p, _, frames, rfl, h0, by simp⟩

/-- All calls. -/
theorem graphCalls (b : Nat) (cs : List DemCall) (hp : ∀ e ∈ callMechanisms cs, 0 ≤ e.p ∧ e.p < 1) :
    (∃ g, cs.foldlM (graphHandlers b).apply (startGraph b) = .ok g ∧ GraphAfter b cs g ∧
        ∀ e ∈ callMechanisms cs, e.p = 0 ∨ e.dets.length ≤ 2) ∨
      (cs.foldlM (graphHandlers b).apply (startGraph b) = .error .notImplemented ∧
        ∃ e ∈ callMechanisms cs, e.p ≠ 0 ∧ 2 < e.dets.length) := by
  induction cs using List.reverseRecOn with
  | nil => exact .inl ⟨_, rfl, GraphAfter.start b, by simp [callMechanisms]⟩
  | append_singleton cs c ih =>
    have hmono : ∀ e ∈ callMechanisms cs, e ∈ callMechanisms (cs ++ [c]) := by
      intro e he
      simp only [callMechanisms, List.filterMap_append]
      exact List.mem_append_left _ he
    rw [List.foldlM_append]
    rcases ih fun e he => hp e (hmono e he) with ⟨g, h1, h2, h3⟩ | ⟨h1, e, he, h2⟩
    · rw [h1]
      have hfold : ((Except.ok g : Except PyErr NxGraph) >>= fun s => List.foldlM (graphHandlers b).apply s [c])
          = (graphHandlers b).apply g c := by
        show List.foldlM (graphHandlers b).apply g [c] = _
        rw [List.foldlM_cons]
        cases (graphHandlers b).apply g c <;> rfl
      rw [hfold]
      rcases h2.step c hp with ⟨g', h4, h5, h6⟩ | ⟨h4, p, d, f, rfl, h5, h6⟩
      · refine .inl ⟨g', h4, h5, fun e he => ?_⟩
        simp only [callMechanisms, List.filterMap_append, List.mem_append] at he
        rcases he with he | he
        · exact h3 e he
        · cases c with
          | coords x c => simp at he
          | error p d f =>
            simp only [List.filterMap_cons, List.filterMap_nil, List.mem_singleton] at he
            subst he
            exact h6 p d f rfl
      · exact .inr ⟨h4, ⟨p, d, f⟩, by simp [callMechanisms], h5, h6⟩
    · rw [h1]
      exact .inr ⟨rfl, e, hmono e he, h2⟩

end Honeycomb
