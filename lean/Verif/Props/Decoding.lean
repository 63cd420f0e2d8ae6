import Mathlib.Logic.Relation
import Mathlib.Data.Finset.Card
import Verif.Lemmas.DemIds
import Verif.Lemmas.Text
import Verif.Spec.Decode

/-!
# Properties of `src/decoding.py` (C34-C39)
-/

namespace Honeycomb

/-! ## C34: flattening equals unrolling -/

/-- C34. For every model, however deeply its repeat blocks are nested, and for every pair of handlers (which may raise),
`iter_flatten_model` performs exactly the calls due for the unrolled model, in order. -/
theorem c34_flatten {σ : Type} (m : Dem) (hm : m.CoordsFit) (h : DemHandlers σ) (s : σ) :
    iterFlattenModel m h s = (demCalls m.unroll).foldlM h.apply s :=
  iterFlattenModel_eq m hm h s

/-- A model with nested repeat blocks, a decomposed error and shifted coordinates. -/
def exampleDem : Dem :=
  .op (.error (1 / 10) [.det 0, .obs 2, .sep, .det 1, .det 0]) <|
  .rep 2 (.rep 2 (.op (.error (1 / 5) [.det 0, .det 1]) (.op (.shift 1 [0, 1]) .nil)) (.op (.shift 3 [5]) .nil)) <|
  .op (.detector [1, 2, 3] [0]) .nil

/-- A handler that lists the calls. -/
def listCalls : DemHandlers (List DemCall) where
  handleError p d f s := .ok (s ++ [.error p d f])
  handleCoords d c s := .ok (s ++ [.coords d c])

example : exampleDem.CoordsFit := by
  intro i hi
  simp [exampleDem, Dem.unroll] at hi
  rcases hi with rfl | rfl | rfl | rfl | rfl | rfl | rfl | rfl | rfl | rfl | rfl | rfl <;> simp [DemInstr.coordArgs]

example : iterFlattenModel exampleDem listCalls [] = .ok [
    .error (1 / 10) [0] [2], .error (1 / 10) [1, 0] [],
    .error (1 / 5) [0, 1] [], .error (1 / 5) [1, 2] [],
    .error (1 / 5) [5, 6] [], .error (1 / 5) [6, 7] [],
    .coords 10 [11, 6, 3]] := by with_unfolding_all rfl

/-- The 100-entry offset array is a real limit: a longer coordinate list makes the function raise. -/
example : iterFlattenModel (.op (.shift 0 (List.replicate 101 1)) .nil) listCalls [] = .error .valueError := by rfl

/-! ## C35: the matching graph -/

/-- C35. If all probabilities are below 1 and no component of non-zero probability has more than two detectors, then a graph is
returned; it has an edge between two nodes exactly when some component of non-zero probability connects them; and when the
components on an edge agree on the logical frame changes, the edge carries those frame changes, the probability that an odd
number of the components fire, and the log odds of that probability as its weight. -/
theorem c35_graph (m : Dem) (hm : m.CoordsFit) (hp : ∀ e ∈ m.mechanisms, 0 ≤ e.p ∧ e.p < 1)
    (h2 : ∀ e ∈ m.mechanisms, e.p ≠ 0 → e.dets.length ≤ 2) :
    ∃ g, demToNxGraph m = .ok g ∧
      (∀ u v, (∃ d, g.edge? u v = some d) ↔ m.between u v ≠ []) ∧
      (∀ u v F, m.between u v ≠ [] → (∀ e ∈ m.between u v, e.frames.toFinset = F) →
        ∃ d f P, g.edge? u v = some d ∧ d.qubit_id = some f ∧ f.toFinset = F ∧
          P = probOdd ((m.between u v).map Mechanism.p) ∧ 0 < P ∧ P < 1 ∧
          d.error_probability = some P ∧ d.weight = Real.log ((1 - P) / P)) := by
  rcases graphCalls m.num_detectors (demCalls m.unroll) hp with ⟨g, h, hg, -⟩ | ⟨-, e, he, h0, h3⟩
  · refine ⟨g, ?_, fun u v => ?_, fun u v F hne hF => ?_⟩
    · rw [demToNxGraph, c34_flatten m hm]; exact h
    · rw [hg.edges]
      show (∃ d, edgeAfter (m.between u v) = some d) ↔ _
      rw [edgeAfter]
      cases hl : (m.between u v).getLast? with
      | none => rw [List.getLast?_eq_none_iff] at hl; simp [hl]
      | some e =>
        have : m.between u v ≠ [] := by intro h0; rw [h0] at hl; simp at hl
        simp [this]
    · have hE : g.edge? u v = edgeAfter (m.between u v) := hg.edges u v
      cases hl : (m.between u v).getLast? with
      | none => rw [List.getLast?_eq_none_iff] at hl; exact absurd hl hne
      | some e =>
        have hb := probOdd_bounds ((m.between u v).map Mechanism.p) (by
          intro p hp'
          obtain ⟨x, hx, rfl⟩ := List.mem_map.1 hp'
          have hx' := List.mem_filter.1 hx
          have := hp x hx'.1
          exact ⟨lt_of_le_of_ne this.1 (Ne.symm (of_decide_eq_true hx'.2).1), this.2⟩)
        rw [edgeAfter, hl, agreeing_all F hF, List.map_reverse,
          probOdd_perm (List.reverse_perm _)] at hE
        refine ⟨_, e.frames, _, hE, rfl, hF e (List.mem_of_getLast? hl), rfl, hb.2.2 (by simpa using hne), hb.2.1, rfl, ?_⟩
        simp [demEdge]
  · exact absurd (h2 e he h0) (by omega)

/-- C35, the nodes: the boundary node, the detectors with coordinates and the detectors of the errors of non-zero probability.
Only the boundary node is marked as boundary; a detector carries the coordinates reported last. -/
theorem c35_nodes (m : Dem) (hm : m.CoordsFit) (hp : ∀ e ∈ m.mechanisms, 0 ≤ e.p ∧ e.p < 1)
    (h2 : ∀ e ∈ m.mechanisms, e.p ≠ 0 → e.dets.length ≤ 2) :
    ∃ g, demToNxGraph m = .ok g ∧
      (∀ x, (∃ d, g.nodes.get? x = some d) ↔
        x = m.num_detectors ∨ (∃ c, DemCall.coords x c ∈ demCalls m.unroll) ∨
          ∃ e ∈ m.mechanisms, e.p ≠ 0 ∧ x ∈ e.dets) ∧
      ∀ x d, g.nodes.get? x = some d → (d.isBoundary = true ↔ x = m.num_detectors) ∧
        (x ≠ m.num_detectors → d.coords = ((demCalls m.unroll).filterMap fun
          | .coords y c => if y = x then some c else none
          | _ => none).getLast?) := by
  rcases graphCalls m.num_detectors (demCalls m.unroll) hp with ⟨g, h, hg, -⟩ | ⟨-, e, he, h0, h3⟩
  · refine ⟨g, ?_, fun x => ?_, fun x d hd => ⟨hg.boundary x d hd, fun hx => ?_⟩⟩
    · rw [demToNxGraph, c34_flatten m hm]; exact h
    · rw [← Option.isSome_iff_exists, hg.nodes, callNode]
      have hc : callCoords (demCalls m.unroll) x ≠ [] ↔ ∃ c, DemCall.coords x c ∈ demCalls m.unroll := by
        rw [List.ne_nil_iff_exists_cons]
        constructor
        · rintro ⟨c, l, hcl⟩
          have : c ∈ callCoords (demCalls m.unroll) x := by rw [hcl]; simp
          obtain ⟨y, hy, hyc⟩ := List.mem_filterMap.1 this
          cases y with
          | error p d f => simp at hyc
          | coords y c' =>
            simp only [Option.ite_none_right_eq_some, Option.some.injEq] at hyc
            obtain ⟨rfl, rfl⟩ := hyc
            exact ⟨_, hy⟩
        · rintro ⟨c, hc⟩
          have : c ∈ callCoords (demCalls m.unroll) x := List.mem_filterMap.2 ⟨_, hc, by simp⟩
          cases hl : callCoords (demCalls m.unroll) x with
          | nil => rw [hl] at this; simp at this
          | cons a l => exact ⟨a, l, rfl⟩
      rw [hc]
      constructor
      · rintro (h | h | ⟨e, he, hx⟩)
        · exact .inl h
        · exact .inr (.inl h)
        · by_cases h0 : e.p = 0
          · simp [Mechanism.ends, h0] at hx
          · simp only [Mechanism.ends, h0, if_false] at hx
            by_cases hb : x = m.num_detectors
            · exact .inl hb
            · refine .inr (.inr ⟨e, he, h0, ?_⟩)
              split at hx
              · simp at hx
              · rename_i a hda
                rw [hda]
                simpa [hb] using hx
              · exact hx
      · rintro (h | h | ⟨e, he, h0, hx⟩)
        · exact .inl h
        · exact .inr (.inl h)
        · refine .inr (.inr ⟨e, he, ?_⟩)
          simp only [Mechanism.ends, h0, if_false]
          split
          · rename_i hd; rw [hd] at hx; exact hx
          · rename_i a hd; rw [hd] at hx; simp at hx; simp [hx]
          · exact hx
    · rw [hg.coords x d hd, if_neg hx]
      simp [callCoords]
      rfl
  · exact absurd (h2 e he h0) (by omega)

/-- C35. A component of non-zero probability with more than two detectors makes the function raise NotImplementedError. -/
theorem c35_raises (m : Dem) (hm : m.CoordsFit) (hp : ∀ e ∈ m.mechanisms, 0 ≤ e.p ∧ e.p < 1)
    (h : ∃ e ∈ m.mechanisms, e.p ≠ 0 ∧ 2 < e.dets.length) : demToNxGraph m = .error .notImplemented := by
  rcases graphCalls m.num_detectors (demCalls m.unroll) hp with ⟨g, -, -, h2⟩ | ⟨h', -⟩
  · obtain ⟨e, he, h0, h3⟩ := h
    rcases h2 e he with h4 | h4
    · exact absurd h4 h0
    · omega
  · rw [demToNxGraph, c34_flatten m hm]; exact h'

/-- The probability formula is the expected one: for two events, one or the other but not both. -/
example (p q : Rat) : probOdd [p, q] = p * (1 - q) + q * (1 - p) := by
  rw [probOdd_cons, probOdd_single]

/-- Two errors on the same edge, one of them given in the other order of detectors, and a boundary error. -/
def exampleDem2 : Dem :=
  .op (.error (1 / 10) [.det 0, .det 1, .obs 0]) <|
  .op (.error (1 / 5) [.det 1, .det 0, .obs 0]) <|
  .op (.error (1 / 4) [.det 1]) .nil

example : exampleDem2.mechanisms = [⟨1 / 10, [0, 1], [0]⟩, ⟨1 / 5, [1, 0], [0]⟩, ⟨1 / 4, [1], []⟩] := by rfl
example : exampleDem2.num_detectors = 2 := by rfl
example : exampleDem2.between 0 1 = [⟨1 / 10, [0, 1], [0]⟩, ⟨1 / 5, [1, 0], [0]⟩] := by with_unfolding_all rfl
example : exampleDem2.between 2 1 = [⟨1 / 4, [1], []⟩] := by with_unfolding_all rfl
example : (∀ e ∈ exampleDem2.mechanisms, 0 ≤ e.p ∧ e.p < 1) ∧
    (∀ e ∈ exampleDem2.mechanisms, e.p ≠ 0 → e.dets.length ≤ 2) := by
  rw [show exampleDem2.mechanisms = [⟨1 / 10, [0, 1], [0]⟩, ⟨1 / 5, [1, 0], [0]⟩, ⟨1 / 4, [1], []⟩] from rfl]
  constructor
  · intro e he
    simp at he
    rcases he with rfl | rfl | rfl <;> norm_num
  · intro e he
    simp at he
    rcases he with rfl | rfl | rfl <;> simp

/-- An error of probability 1 (`error(1) D0`) is not handled: the weight is `math.log(0)`, a ValueError. -/
theorem c35_certain_error_raises (d : Nat) :
    demToNxGraph (.op (.error 1 [.det d]) .nil) = .error .valueError := by
  rw [demToNxGraph, c34_flatten _ (by intro i hi; simp [Dem.unroll] at hi; subst hi; simp [DemInstr.coordArgs])]
  have : demCalls (Dem.op (.error 1 [.det d]) .nil).unroll = [.error 1 [d] []] := by
    simp [Dem.unroll, demCalls, callsAt, List.range_succ, List.splitOn_cons_eq_if_modifyHead, demDets, demObs, detOffsetAt,
      List.splitOn_nil]
  rw [this]
  simp [DemHandlers.apply, handleError, handleEdge, startGraph, NxGraph.edge?, PyDict.get?, logOdds, bind, Except.bind]

/-! ## C36: conflicting frame changes -/

/-- C36 is false of the code: of two errors on the same edge with different frame changes the **second** one is kept, because
`add_edge` overwrites the attributes of an existing edge. -/
theorem c36_first_kept_false :
    ∃ m : Dem, ∃ g d, demToNxGraph m = .ok g ∧ m.mechanisms = [⟨1 / 10, [0, 1], []⟩, ⟨1 / 5, [0, 1], [0]⟩] ∧
      g.edge? 0 1 = some d ∧ d.qubit_id = some [0] ∧ d.error_probability = some (1 / 5) := by
  let m : Dem := .op (.error (1 / 10) [.det 0, .det 1]) (.op (.error (1 / 5) [.det 0, .det 1, .obs 0]) .nil)
  have hmech : m.mechanisms = [⟨1 / 10, [0, 1], []⟩, ⟨1 / 5, [0, 1], [0]⟩] := rfl
  have hp : ∀ e ∈ m.mechanisms, 0 ≤ e.p ∧ e.p < 1 := by
    rw [hmech]; intro e he; simp at he
    rcases he with rfl | rfl <;> norm_num
  rcases graphCalls m.num_detectors (demCalls m.unroll) hp with ⟨g, h, hg, -⟩ | ⟨-, e, he, h0, h3⟩
  · refine ⟨m, g, demEdge (1 / 5) [0], ?_, hmech, ?_, rfl, rfl⟩
    · rw [demToNxGraph, c34_flatten m (by
        intro i hi; simp [m, Dem.unroll] at hi; rcases hi with rfl | rfl <;> simp [DemInstr.coordArgs])]
      exact h
    · rw [hg.edges]
      have : callBetween m.num_detectors (demCalls m.unroll) 0 1 = [⟨1 / 10, [0, 1], []⟩] ++ [⟨1 / 5, [0, 1], [0]⟩] := by
        with_unfolding_all rfl
      rw [this, edgeAfter_snoc]
      simp
  · have : e ∈ m.mechanisms := he
    rw [hmech] at this
    simp at this
    rcases this with rfl | rfl <;> simp at h3

/-- C36, what the code guarantees instead (partial: the property asks for the first error to be kept): the edge carries the frame
changes of the **last** component on it, and the parity probability of the components at the end of the list that agree with it
on the frame changes. -/
theorem c36_kept_partial (m : Dem) (hm : m.CoordsFit) (hp : ∀ e ∈ m.mechanisms, 0 ≤ e.p ∧ e.p < 1)
    (h2 : ∀ e ∈ m.mechanisms, e.p ≠ 0 → e.dets.length ≤ 2) :
    ∃ g, demToNxGraph m = .ok g ∧ ∀ u v e, (m.between u v).getLast? = some e →
      ∃ d, g.edge? u v = some d ∧ d.qubit_id = some e.frames ∧
        d.error_probability = some (probOdd
          (((m.between u v).reverse.takeWhile fun x => x.frames.toFinset = e.frames.toFinset).map Mechanism.p)) := by
  rcases graphCalls m.num_detectors (demCalls m.unroll) hp with ⟨g, h, hg, -⟩ | ⟨-, e, he, h0, h3⟩
  · refine ⟨g, ?_, fun u v e hl => ?_⟩
    · rw [demToNxGraph, c34_flatten m hm]; exact h
    · have hE : g.edge? u v = edgeAfter (m.between u v) := hg.edges u v
      rw [edgeAfter, hl, agreeing, hl] at hE
      exact ⟨_, hE, rfl, rfl⟩
  · exact absurd (h2 e he h0) (by omega)

/-! ## C63: what happens to conflicting frame changes -/

/-- C63. For every pair of nodes with at least one component of non-zero probability the edge carries the frame changes of
the last such component `e`, the probability `P` that an odd number of the components in the trailing run of components
agreeing with `e` on the frame changes fire, and the log odds of `P` as its weight. (`pre` are the components before that run:
if there are any, the last of them disagrees with `e`; they have no influence on the edge.) -/
theorem c63_last_kept (m : Dem) (hm : m.CoordsFit) (hp : ∀ e ∈ m.mechanisms, 0 ≤ e.p ∧ e.p < 1)
    (h2 : ∀ e ∈ m.mechanisms, e.p ≠ 0 → e.dets.length ≤ 2) :
    ∃ g, demToNxGraph m = .ok g ∧ ∀ (u v : Nat) (pre run : List Mechanism) (e : Mechanism),
      m.between u v = pre ++ run ++ [e] →
      (∀ x ∈ run, x.frames.toFinset = e.frames.toFinset) →
      (∀ x, pre.getLast? = some x → x.frames.toFinset ≠ e.frames.toFinset) →
      ∃ d P, g.edge? u v = some d ∧ d.qubit_id = some e.frames ∧
        P = probOdd ((run ++ [e]).map Mechanism.p) ∧ d.error_probability = some P ∧ d.weight = Real.log ((1 - P) / P) := by
  rcases graphCalls m.num_detectors (demCalls m.unroll) hp with ⟨g, h, hg, -⟩ | ⟨-, e, he, h0, h3⟩
  · refine ⟨g, ?_, fun u v pre run e hb hrun hpre => ?_⟩
    · rw [demToNxGraph, c34_flatten m hm]; exact h
    · have hE : g.edge? u v = edgeAfter (m.between u v) := hg.edges u v
      have hl : (m.between u v).getLast? = some e := by rw [hb]; simp
      have hag : agreeing (m.between u v) = (run ++ [e]).reverse := by
        rw [agreeing, hl]
        show List.takeWhile _ _ = _
        rw [hb, List.append_assoc, List.reverse_append, List.takeWhile_append_of_pos (by
          intro x hx
          simp only [List.mem_reverse, List.mem_append, List.mem_singleton] at hx
          rcases hx with hx | rfl
          · simpa using hrun x hx
          · simp)]
        cases hr : pre.reverse with
        | nil => simp
        | cons x t =>
          have : pre.getLast? = some x := by rw [List.getLast?_eq_head?_reverse, hr]; rfl
          rw [List.takeWhile_cons_of_neg (by simpa using hpre x this), List.append_nil]
      rw [edgeAfter, hl, hag, List.map_reverse, probOdd_perm (List.reverse_perm _)] at hE
      exact ⟨_, _, hE, rfl, rfl, rfl, by simp [demEdge]⟩
  · exact absurd (h2 e he h0) (by omega)

/-- Three errors on one edge; the first disagrees with the other two about observable 0. -/
def exampleDem3 : Dem :=
  .op (.error (1 / 10) [.det 0, .det 1]) <|
  .op (.error (1 / 5) [.det 1, .det 0, .obs 0]) <|
  .op (.error (1 / 4) [.det 0, .det 1, .obs 0]) .nil

example : exampleDem3.between 0 1 = [⟨1 / 10, [0, 1], []⟩] ++ [⟨1 / 5, [1, 0], [0]⟩] ++ [⟨1 / 4, [0, 1], [0]⟩] := by
  with_unfolding_all rfl

/-! ## C37: the graph handed to pymatching -/

/-- C37. The nodes of the graph are exactly `0..num_detectors+1`, it is connected, every edge between two of the nodes
`0..num_detectors` (detectors and boundary) is the one of the matching graph, every observable index occurs in the frame
changes of some edge, and only node `num_detectors` is marked as boundary. -/
theorem c37_pymatching_graph (m : Dem) (hm : m.CoordsFit) (hp : ∀ e ∈ m.mechanisms, 0 ≤ e.p ∧ e.p < 1)
    (h2 : ∀ e ∈ m.mechanisms, e.p ≠ 0 → e.dets.length ≤ 2) :
    ∃ g g', demToNxGraph m = .ok g ∧ demToPymatchingGraph m = .ok g' ∧
      (∀ x, (∃ d, g'.nodes.get? x = some d) ↔ x ≤ m.num_detectors + 1) ∧
      (∀ x d, g'.nodes.get? x = some d → (d.isBoundary = true ↔ x = m.num_detectors)) ∧
      (∀ u v, u ≤ m.num_detectors + 1 → v ≤ m.num_detectors + 1 → Relation.ReflTransGen g'.Adj u v) ∧
      (∀ u v, u ≤ m.num_detectors → v ≤ m.num_detectors → g'.edge? u v = g.edge? u v) ∧
      (∀ k, k < m.num_observables → ∃ u v d f, g'.edge? u v = some d ∧ d.qubit_id = some f ∧ k ∈ f) := by
  rcases graphCalls m.num_detectors (demCalls m.unroll) hp with ⟨g, h, hg, -⟩ | ⟨-, e, he, h0, h3⟩
  · have hok : demToNxGraph m = .ok g := by rw [demToNxGraph, c34_flatten m hm]; exact h
    have hids : ∀ x, callNode m.num_detectors (demCalls m.unroll) x → x ≤ m.num_detectors := by
      intro x hx
      rcases hx with hx | hx | ⟨e, he, hx⟩
      · omega
      · obtain ⟨c, l, hcl⟩ := List.ne_nil_iff_exists_cons.1 hx
        have : c ∈ callCoords (demCalls m.unroll) x := by rw [hcl]; simp
        obtain ⟨y, hy, hyc⟩ := List.mem_filterMap.1 this
        cases y with
        | error p d f => simp at hyc
        | coords y c' =>
          simp only [Option.ite_none_right_eq_some, Option.some.injEq] at hyc
          obtain ⟨rfl, rfl⟩ := hyc
          exact ((calls_ids m).2 _ _ hy).le
      · have := mechanisms_ids m e he
        rw [Mechanism.ends] at hx
        split_ifs at hx
        · simp at hx
        · split at hx
          · simp at hx
          · rename_i a hd
            simp only [List.mem_cons, List.not_mem_nil, or_false] at hx
            rcases hx with rfl | rfl
            · exact (this x (by rw [hd]; simp)).le
            · exact le_refl _
          · exact (this x hx).le
    have hfar : ∀ x, g.edge? x (m.num_detectors + 1) = none := by
      intro x
      rw [hg.edges]
      have : callBetween m.num_detectors (demCalls m.unroll) x (m.num_detectors + 1) = [] := by
        rw [callBetween, List.filter_eq_nil_iff]
        intro e he hc
        have hc := (of_decide_eq_true hc).2
        have hlt := mechanisms_ids m e he
        rcases hc with hc | hc | ⟨hc, h'⟩ | ⟨hc, -⟩
        · have := hlt (m.num_detectors + 1) (by rw [hc]; simp); omega
        · have := hlt (m.num_detectors + 1) (by rw [hc]; simp); omega
        · omega
        · have := hlt (m.num_detectors + 1) (by rw [hc]; simp); omega
      rw [this]; rfl
    obtain ⟨hE, hN⟩ := addSpandrels_eq g m.num_detectors m.num_observables hfar
    refine ⟨g, addSpandrels g m.num_detectors m.num_observables, hok, by rw [demToPymatchingGraph, hok]; rfl, ?_, ?_, ?_, ?_, ?_⟩
    · intro x
      rw [hN]
      by_cases hx : x ≤ m.num_detectors + 1
      · simp [hx]
      · simp only [hx, if_false, iff_false]
        rintro ⟨d, hd⟩
        have := hids x ((hg.nodes x).1 (by rw [hd]; rfl))
        omega
    · intro x d hd
      rw [hN] at hd
      by_cases hx : x ≤ m.num_detectors + 1
      · rw [if_pos hx] at hd
        cases hd' : g.nodes.get? x with
        | none =>
          rw [hd'] at hd
          cases hd
          simp only [Option.getD_none, Bool.false_eq_true, false_iff]
          rintro rfl
          have := (hg.nodes m.num_detectors).2 (.inl rfl)
          rw [hd'] at this
          simp at this
        | some d' =>
          rw [hd'] at hd
          cases hd
          exact hg.boundary x _ hd'
      · rw [if_neg hx] at hd
        exact hg.boundary x d hd
    · have hub : ∀ u, u ≤ m.num_detectors →
          (addSpandrels g m.num_detectors m.num_observables).Adj u (m.num_detectors + 1) ∧
            (addSpandrels g m.num_detectors m.num_observables).Adj (m.num_detectors + 1) u := by
        intro u hu
        have : ∀ x y, (x = u ∧ y = m.num_detectors + 1) ∨ (x = m.num_detectors + 1 ∧ y = u) →
            (addSpandrels g m.num_detectors m.num_observables).Adj x y := by
          intro x y hxy
          rw [NxGraph.Adj, hE]
          split_ifs with h1 h2
          · exact ⟨_, rfl⟩
          · exact ⟨_, rfl⟩
          · exfalso
            rw [edgeKey_eq_iff] at h1
            omega
        exact ⟨this _ _ (.inl ⟨rfl, rfl⟩), this _ _ (.inr ⟨rfl, rfl⟩)⟩
      have hto : ∀ u, u ≤ m.num_detectors + 1 →
          Relation.ReflTransGen (addSpandrels g m.num_detectors m.num_observables).Adj u (m.num_detectors + 1) ∧
          Relation.ReflTransGen (addSpandrels g m.num_detectors m.num_observables).Adj (m.num_detectors + 1) u := by
        intro u hu
        by_cases h' : u = m.num_detectors + 1
        · rw [h']; exact ⟨.refl, .refl⟩
        · obtain ⟨a, b⟩ := hub u (by omega)
          exact ⟨.single a, .single b⟩
      intro u v hu hv
      exact (hto u hu).1.trans (hto v hv).2
    · intro u v hu hv
      rw [hE, if_neg (by rw [edgeKey_eq_iff]; omega), if_neg (by omega)]
    · intro k hk
      exact ⟨m.num_detectors, m.num_detectors + 1, _, _, by rw [hE, if_pos rfl], rfl, by simpa using hk⟩
  · exact absurd (h2 e he h0) (by omega)

/-- `num_detectors` is what it should be on a model with a repeat block: here the largest id is 10. -/
example : exampleDem.num_detectors = 11 := by rfl
example : exampleDem.num_observables = 3 := by rfl

/-- The syndrome handed to pymatching for a shot: its detector bits, then 0 for the boundary node. -/
theorem c37_syndrome (row : List Bool) : expandedDet row row.length = row ++ [false] := by
  rw [expandedDet, npResize, List.range_succ, List.map_append, List.set_append_right _ _ (by simp)]
  congr 1
  · apply List.ext_getElem (by simp)
    intro i h1 h2
    simp [List.getD_eq_getElem?_getD, Nat.mod_eq_of_lt h2, List.getElem?_eq_getElem h2]
  · simp

example : expandedDet [true, false, true] 3 = [true, false, true, false] := by rfl
example : expandedDet [] 0 = [false] := by rfl

/-- C37. Every shot is decoded separately, from its own detector bits. -/
theorem c37_decode (c : CircuitInfo) (dets : BitMatrix) (matching : List Bool → List Bool)
    (hd : ∀ r ∈ dets, r.length = c.num_detectors) :
    decodeUsingPymatching c dets false matching = .ok (dets.map fun row => matching (row ++ [false])) ∧
      decodeUsingPymatching c dets true matching = .error .notImplemented := by
  have hshape : hasShape dets dets.length c.num_detectors = true := by
    simp only [hasShape, beq_self_eq_true, Bool.true_and, List.all_eq_true, beq_iff_eq]
    exact hd
  constructor
  · simp only [decodeUsingPymatching, Bool.false_eq_true, if_false, hshape, Bool.not_true]
    congr 1
    refine List.map_congr_left fun r hr => ?_
    rw [← hd r hr, c37_syndrome]
  · simp [decodeUsingPymatching]

/-! ## C38: counting correct shots -/

/-- Number of equal rows of two matrices. -/
theorem count_zipWith (a : BitMatrix) : ∀ b : BitMatrix, a.length = b.length →
    (List.zipWith (fun p o => decide (p = o)) a b).count true =
      ((Finset.range b.length).filter fun k => a.getD k [] = b.getD k []).card := by
  induction a with
  | nil =>
    intro b hb
    cases b with
    | nil => rfl
    | cons y b => simp at hb
  | cons x a ih =>
    intro b hb
    cases b with
    | nil => simp at hb
    | cons y b =>
      have hsplit : ((Finset.range (b.length + 1)).filter fun k => (x :: a).getD k [] = (y :: b).getD k []) =
          (if x = y then {0} else ∅) ∪
            ((Finset.range b.length).filter fun k => a.getD k [] = b.getD k []).map (addRightEmbedding 1) := by
        ext k
        cases k with
        | zero => by_cases h : x = y <;> simp [h]
        | succ k => by_cases h : x = y <;> simp [h]
      rw [List.zipWith_cons_cons, List.count_cons, ih b (by simpa using hb), List.length_cons, hsplit,
        Finset.card_union_of_disjoint, Finset.card_map]
      · by_cases h : x = y <;> simp [h, add_comm]
      · by_cases h : x = y <;> simp [h]

/-- C38. When the sampler returns rows of `num_detectors + num_observables` bits and the decoder, given the first `num_detectors` bits
of each row, returns one row of `num_observables` bits per shot, the result is the number of shots whose prediction equals
the observable bits of the shot. -/
theorem c38_counts (c : CircuitInfo) (model : Option CircuitInfo) (decoder : String) (flags : Bool × Bool)
    (samples preds : BitMatrix) (decode : Bool → Bool → BitMatrix → Except PyErr BitMatrix)
    (hflags : decoderFlags decoder = .ok flags) (hmodel : model = none ∨ model = some c)
    (hs : ∀ r ∈ samples, r.length = c.num_detectors + c.num_observables)
    (hd : decode flags.1 flags.2 (samples.map (List.take c.num_detectors)) = .ok preds)
    (hp : preds.length = samples.length ∧ ∀ r ∈ preds, r.length = c.num_observables) :
    sampleDecodeCountCorrect c model decoder samples decode =
      .ok ((Finset.range samples.length).filter fun k =>
        (preds.getD k []) = (samples.getD k []).drop c.num_detectors).card := by
  have hdets : (if c.num_observables = 0 then samples else samples.map (dropLastN c.num_observables)) =
      samples.map (List.take c.num_detectors) := by
    split_ifs with h0
    · rw [← List.map_id samples, List.map_map]
      refine List.map_congr_left fun r hr => ?_
      simp [List.take_of_length_le (show r.length ≤ c.num_detectors by rw [hs r hr, h0]; omega)]
    · refine List.map_congr_left fun r hr => ?_
      rw [dropLastN, hs r hr]
      congr 1
      omega
  have hobs : (if c.num_observables = 0 then samples.map (fun _ => []) else samples.map (takeLastN c.num_observables)) =
      samples.map (List.drop c.num_detectors) := by
    split_ifs with h0
    · refine List.map_congr_left fun r hr => ?_
      rw [List.drop_of_length_le (by rw [hs r hr, h0]; omega)]
    · refine List.map_congr_left fun r hr => ?_
      rw [takeLastN, hs r hr]
      congr 1
      omega
  obtain ⟨f1, f2⟩ := flags
  have s1 : hasShape (samples.map (List.drop c.num_detectors)) samples.length c.num_observables = true := by
    simp only [hasShape, List.length_map, beq_self_eq_true, Bool.true_and, List.all_map, List.all_eq_true, Function.comp]
    intro r hr
    simp [hs r hr]
  have s2 : hasShape (samples.map (List.take c.num_detectors)) samples.length c.num_detectors = true := by
    simp only [hasShape, List.length_map, beq_self_eq_true, Bool.true_and, List.all_map, List.all_eq_true, Function.comp]
    intro r hr
    simp [hs r hr]
  have s3 : hasShape preds samples.length c.num_observables = true := by
    simp only [hasShape, hp.1, beq_self_eq_true, Bool.true_and, List.all_eq_true, beq_iff_eq]
    exact hp.2
  have key : (List.zipWith (fun p o => decide (p = o)) preds (samples.map (List.drop c.num_detectors))).count true =
      ((Finset.range samples.length).filter fun k =>
        (preds.getD k []) = (samples.getD k []).drop c.num_detectors).card := by
    rw [count_zipWith _ _ (by simp [hp.1]), List.length_map]
    congr 1
    apply Finset.filter_congr
    intro k hk
    rw [Finset.mem_range] at hk
    simp [List.getD_eq_getElem?_getD, List.getElem?_eq_getElem hk]
  rw [← key]
  rcases hmodel with rfl | rfl <;>
    simp only [sampleDecodeCountCorrect, hflags, hdets, hobs, bind, Except.bind, List.length_map, ne_eq, not_true_eq_false,
      if_false, s1, s2, Bool.not_true, Bool.false_eq_true, hd, s3, and_self, if_true]

/-- C38. Whatever the sampler and the decoder return, a returned count is at most the number of shots. -/
theorem c38_bound (c : CircuitInfo) (model : Option CircuitInfo) (decoder : String) (samples : BitMatrix)
    (decode : Bool → Bool → BitMatrix → Except PyErr BitMatrix) (n : Nat)
    (h : sampleDecodeCountCorrect c model decoder samples decode = .ok n) : n ≤ samples.length := by
  have hfin : ∀ (a b : BitMatrix), b.length = samples.length →
      (List.zipWith (fun p o => decide (p = o)) a b).count true ≤ samples.length := by
    intro a b hb
    refine le_trans List.count_le_length ?_
    rw [List.length_zipWith, hb]
    exact min_le_right _ _
  obtain ⟨obs, hobs⟩ : ∃ o, o = if c.num_observables = 0 then samples.map (fun _ => [])
      else samples.map (takeLastN c.num_observables) := ⟨_, rfl⟩
  have hlen : obs.length = samples.length := by rw [hobs]; split_ifs <;> simp
  simp only [sampleDecodeCountCorrect, bind, Except.bind, ← hobs] at h
  have fin : ∀ {q : Prop} [Decidable q] {r : Prop} [Decidable r] {t : Prop} [Decidable t] {e : Except PyErr BitMatrix},
      (if q then .error .assertion else if r then .error .assertion else if t then .error .assertion else
        e.bind fun v => if (!hasShape v obs.length c.num_observables) = true then .error .assertion
            else (.ok ((List.zipWith (fun p o => decide (p = o)) v obs).count true) : Except PyErr Nat)) = .ok n → n ≤ samples.length := by
    intro q _ r _ t _ e h
    by_cases hq : q
    · simp [hq] at h
    by_cases hr : r
    · simp [hr, hq] at h
    by_cases ht : t
    · simp [hr, hq, ht] at h
    rw [if_neg hq, if_neg hr, if_neg ht] at h
    cases e with
    | error er => simp [Except.bind] at h
    | ok v =>
      simp only [Except.bind] at h
      split_ifs at h
      cases h
      exact hfin _ _ hlen
  cases hf : decoderFlags decoder with
  | error e => rw [hf] at h; simp at h
  | ok v =>
    rw [hf] at h
    cases model with
    | none => exact fin h
    | some m =>
      simp only at h
      by_cases hm : m.num_detectors = c.num_detectors ∧ m.num_observables = c.num_observables
      · rw [if_pos hm] at h
        exact fin h
      · rw [if_neg hm] at h
        simp at h

/-- C38. An unknown decoder name raises NotImplementedError. -/
theorem c38_unknown_decoder (c : CircuitInfo) (model : Option CircuitInfo) (decoder : String) (samples : BitMatrix)
    (decode : Bool → Bool → BitMatrix → Except PyErr BitMatrix)
    (h : decoder ∉ ["pymatching", "internal", "internal_correlated"]) :
    sampleDecodeCountCorrect c model decoder samples decode = .error .notImplemented := by
  simp only [List.mem_cons, List.not_mem_nil, or_false, not_or] at h
  simp [sampleDecodeCountCorrect, decoderFlags, h, bind, Except.bind]

/-- C38. A model circuit with another number of detectors or observables is rejected. -/
theorem c38_model_mismatch (c m : CircuitInfo) (decoder : String) (samples : BitMatrix)
    (decode : Bool → Bool → BitMatrix → Except PyErr BitMatrix)
    (hd : decoder ∈ ["pymatching", "internal", "internal_correlated"])
    (h : m.num_detectors ≠ c.num_detectors ∨ m.num_observables ≠ c.num_observables) :
    sampleDecodeCountCorrect c (some m) decoder samples decode = .error .assertion := by
  have hn : ¬ (m.num_detectors = c.num_detectors ∧ m.num_observables = c.num_observables) := by tauto
  simp only [List.mem_cons, List.not_mem_nil, or_false] at hd
  rcases hd with rfl | rfl | rfl <;>
    simp [sampleDecodeCountCorrect, decoderFlags, bind, Except.bind, hn]

/-- C38. Which decoder a name selects: only "internal_correlated" asks for correlated decoding. -/
theorem c38_flags : decoderFlags "pymatching" = .ok (false, false) ∧ decoderFlags "internal" = .ok (true, false) ∧
    decoderFlags "internal_correlated" = .ok (true, true) := by
  simp [decoderFlags]

/-- Three shots of two detectors and one observable, the decoder guesses 1 whenever the first detector fires. -/
example : sampleDecodeCountCorrect ⟨2, 1⟩ none "pymatching"
    [[true, false, true], [true, true, false], [false, false, false]]
    (fun _ _ d => .ok (d.map fun r => [r.getD 0 false])) = .ok 2 := by rfl

/-- No observables: every shot counts as correct. -/
example : sampleDecodeCountCorrect ⟨2, 0⟩ none "internal" [[true, false], [true, true]]
    (fun _ _ d => .ok (d.map fun _ => [])) = .ok 2 := by rfl

/-! ## C39: the files exchanged with the internal decoder -/

/-- C39. The dets file determines the sample matrix (among matrices with the same number of columns). -/
theorem c39_dets_file (n : Nat) (m m' : BitMatrix) (hm : ∀ r ∈ m, r.length = n) (hm' : ∀ r ∈ m', r.length = n)
    (h : detsFile m = detsFile m') : m = m' :=
  detsFile_inj n m m' hm hm' h

/-- C39. Reading a prediction file succeeds exactly when the file starts with the lines of a prediction matrix of the right shape, and
returns that matrix. In particular a file with another character, a short line or a missing line makes the function raise. -/
theorem c39_predictions (shots no : Nat) (f : List Char) (m : BitMatrix) :
    readPredictions shots no f = .ok m ↔
      m.length = shots ∧ (∀ r ∈ m, r.length = no) ∧ predictionFile m <+: f := by
  induction shots generalizing f m with
  | zero =>
    simp only [readPredictions, Except.ok.injEq, List.length_eq_zero_iff]
    constructor
    · rintro rfl; simp [predictionFile]
    · rintro ⟨rfl, -, -⟩; rfl
  | succ k ih =>
    constructor
    · intro h
      rw [readPredictions] at h
      cases hr : readRow no f with
      | error e => rw [hr] at h; simp [bind, Except.bind] at h
      | ok v =>
        obtain ⟨r, g⟩ := v
        rw [hr] at h
        simp only [bind, Except.bind] at h
        cases g with
        | nil => simp at h
        | cons c g =>
          by_cases hc : c = '\n'
          · subst hc
            simp only at h
            cases hrest : readPredictions k no g with
            | error e => rw [hrest] at h; simp at h
            | ok m' =>
              rw [hrest] at h
              simp only [Except.ok.injEq] at h
              subst h
              obtain ⟨h1, h2, h3⟩ := (ih g m').1 hrest
              obtain ⟨h4, h5⟩ := readRow_ok no f r '\n' g hr
              refine ⟨by simp [h1], ?_, ?_⟩
              · intro x hx
                rcases List.mem_cons.1 hx with rfl | hx
                · exact h4
                · exact h2 x hx
              · rw [h5, predictionFile, List.flatMap_cons]
                obtain ⟨t, ht⟩ := h3
                exact ⟨t, by rw [← ht]; simp [predictionFile, encodeRow]⟩
          · split at h
            · rename_i heq; simp at heq; exact absurd heq.1 hc
            · simp at h
    · rintro ⟨h1, h2, t, ht⟩
      cases m with
      | nil => simp at h1
      | cons r m' =>
        have hlen := h2 r (by simp)
        rw [predictionFile, List.flatMap_cons] at ht
        have : f = encodeRow r ++ '\n' :: (predictionFile m' ++ t) := by
          rw [← ht]; simp [predictionFile, encodeRow]
        rw [readPredictions, this, ← hlen, readRow_append]
        simp only [bind, Except.bind, hlen]
        rw [(ih (predictionFile m' ++ t) m').2 ⟨by simpa using h1, fun x hx => h2 x (by simp [hx]), t, rfl⟩]

/-- C39. End to end: if the internal decoder writes the lines of a prediction matrix of the right shape, that matrix is returned. -/
theorem c39_internal (c : CircuitInfo) (dets : BitMatrix) (correlated : Bool) (pathExists : String → Bool) (tmp : String)
    (run : String → List Char → Option (List Char)) (m : BitMatrix)
    (hd : ∀ r ∈ dets, r.length = c.num_detectors)
    (hpath : ∃ d ∈ ["./", "src/", "../"], pathExists (d ++ "internal_decoder.binary") = true)
    (hm : m.length = dets.length ∧ ∀ r ∈ m, r.length = c.num_observables)
    (hrun : ∀ cmd, run cmd (detsFile dets) = some (predictionFile m)) :
    decodeUsingInternal c dets correlated pathExists tmp run = .ok m := by
  have hshape : hasShape dets dets.length c.num_detectors = true := by
    simp only [hasShape, beq_self_eq_true, Bool.true_and, List.all_eq_true, beq_iff_eq]
    exact hd
  rw [decodeUsingInternal, hshape]
  cases hp : internalDecoderPath pathExists with
  | none =>
    rw [internalDecoderPath, List.find?_eq_none] at hp
    obtain ⟨d, hd1, hd2⟩ := hpath
    exact absurd hd2 (hp _ (List.mem_map.2 ⟨d, hd1, rfl⟩))
  | some p =>
    simp only [Bool.not_true, Bool.false_eq_true, if_false, hrun]
    exact (c39_predictions _ _ _ _).2 ⟨hm.1, hm.2, List.prefix_refl _⟩

example : String.ofList (detsFile [[true, false, true], [false, false, false]]) = "shot D0 D2\nshot\n" := by rfl
example : readPredictions 2 2 "01\n11\n".toList = .ok [[false, true], [true, true]] := by rfl
example : readPredictions 2 2 "01\n1".toList = .error .assertion := by rfl
example : readPredictions 1 1 "2\n".toList = .error .assertion := by rfl

end Honeycomb
