import Verif.Lemmas.Gates
import Verif.Spec.Steps

/-! # Which qubits the operations of each time step act on -/

namespace Honeycomb
open HoneycombLayout

theorem timeSteps_ne_nil (l : List Instr) : timeSteps l ≠ [] := by
  cases l with
  | nil => simp [timeSteps]
  | cons i l =>
    rw [timeSteps]
    split_ifs
    · simp
    · split <;> simp

theorem timeSteps_append_tick (a b : List Instr) : timeSteps (a ++ [.tick] ++ b) = timeSteps a ++ timeSteps b := by
  induction a with
  | nil => simp [timeSteps, Instr.tick]
  | cons i a ih =>
    simp only [List.cons_append, timeSteps]
    split_ifs with h
    · rw [ih, List.cons_append]
    · rw [ih]
      obtain ⟨s, ss, e⟩ := List.exists_cons_of_ne_nil (timeSteps_ne_nil a)
      rw [e]; rfl

theorem timeSteps_noTick {l : List Instr} (h : ∀ i ∈ l, i.gate ≠ .TICK) : timeSteps l = [l] := by
  induction l with
  | nil => rfl
  | cons i l ih =>
    rw [timeSteps, if_neg (h i List.mem_cons_self), ih fun j hj => h j (List.mem_cons_of_mem _ hj)]

theorem actedOn_append (a b : List Instr) : actedOn (a ++ b) = actedOn a ++ actedOn b := by
  simp [actedOn]

theorem actedOn_on {g : Gate} (h : kind g ≠ .annotation) (qs : List Nat) : actedOn [.on g qs] = qs := by
  simp only [actedOn, Instr.on, Instr.qubits, List.filter_cons, List.filter_nil, h, ne_eq, not_false_eq_true, decide_true, if_true,
    List.flatMap_cons, List.flatMap_nil, List.append_nil, List.filterMap_map]
  induction qs with
  | nil => rfl
  | cons q qs ih => simp_all [Target.qubit?]

theorem actedOn_annotations {l : List Instr} (h : ∀ i ∈ l, kind i.gate = .annotation) : actedOn l = [] := by
  rw [actedOn, List.filter_eq_nil_iff.2]
  · rfl
  · intro i hi; simp [h i hi]

theorem actedOn_marks {l : List Instr} (h : ∀ i ∈ l, isMark i = true) : actedOn l = [] :=
  actedOn_annotations fun i hi => by
    rcases (isMark_iff i).1 (h i hi) with h | h | h <;> simp [h, kind]

namespace HoneycombLayout
variable {lay : HoneycombLayout}

/-- The class of a qubit position: first half of the data qubits, second half, or centers of the three edge
colours. -/
def ptClass (lay : HoneycombLayout) (q : Pt) : Nat :=
  if q ∈ lay.data_qubit_coords then (if dataQubitParity q then 1 else 0)
  else if q ∈ (lay.round_edges 0).map Edge.center then 2
  else if q ∈ (lay.round_edges 1).map Edge.center then 3
  else 4

/-- The class of the centers of sub-round `k`. -/
def cc (k : Int) : Nat := 2 + (k % 3).toNat

/-- `l` has no duplicates and only contains indices of qubits in the classes `cs`. -/
def Covers (lay : HoneycombLayout) (cs : List Nat) (l : List Nat) : Prop :=
  l.Nodup ∧ ∀ i ∈ l, ∃ q ∈ qubitOrder lay, lay.idx q = i ∧ lay.ptClass q ∈ cs

theorem Covers.append (hv : lay.Valid) {cs ds : List Nat} {a b : List Nat} (ha : lay.Covers cs a) (hb : lay.Covers ds b)
    (h : List.Disjoint cs ds) : lay.Covers (cs ++ ds) (a ++ b) := by
  refine ⟨List.Nodup.append ha.1 hb.1 ?_, ?_⟩
  · intro i h1 h2
    obtain ⟨q, hq, e, hc⟩ := ha.2 i h1
    obtain ⟨q', hq', e', hc'⟩ := hb.2 i h2
    have := idx_inj hv hq hq' (e.trans e'.symm)
    subst this
    exact h hc hc'
  · intro i hi
    rcases List.mem_append.1 hi with hi | hi
    · obtain ⟨q, hq, e, hc⟩ := ha.2 i hi
      exact ⟨q, hq, e, List.mem_append_left _ hc⟩
    · obtain ⟨q, hq, e, hc⟩ := hb.2 i hi
      exact ⟨q, hq, e, List.mem_append_right _ hc⟩

theorem Covers.perm {cs ds : List Nat} {a b : List Nat} (ha : lay.Covers cs a) (h : a.Perm b) (hc : cs ⊆ ds) : lay.Covers ds b :=
  ⟨h.nodup_iff.1 ha.1, fun i hi => by
    obtain ⟨q, hq, e, hc'⟩ := ha.2 i (h.mem_iff.2 hi)
    exact ⟨q, hq, e, hc hc'⟩⟩

theorem covers_map (hv : lay.Valid) {cs : List Nat} {l : List Pt} (hn : l.Nodup) (h : ∀ q ∈ l, q ∈ qubitOrder lay ∧ lay.ptClass q ∈ cs) :
    lay.Covers cs (l.map lay.idx) := by
  refine ⟨List.Nodup.map_on (fun a ha b hb e => idx_inj hv (h a ha).1 (h b hb).1 e) hn, ?_⟩
  intro i hi
  obtain ⟨q, hq, rfl⟩ := List.mem_map.1 hi
  exact ⟨q, (h q hq).1, rfl, (h q hq).2⟩

theorem center_class (hv : lay.Valid) {k : Int} {e : Edge} (he : e ∈ lay.round_edges k) :
    e.center ∈ qubitOrder lay ∧ lay.ptClass e.center = cc k := by
  have ha := round_edges_subset_all he
  have hm : e.center ∈ lay.measure_qubit_coords := mem_measure_qubit_coords.2 ⟨e, ha, rfl⟩
  have hd : e.center ∉ lay.data_qubit_coords := fun h => center_not_data hv ha ((mem_data_qubit_coords hv).1 h)
  have hin : ∀ r : Int, e.center ∈ (lay.round_edges r).map Edge.center ↔ r % 3 = k % 3 := by
    intro r
    constructor
    · intro h
      obtain ⟨e', he', hc⟩ := List.mem_map.1 h
      have := edge_center_inj hv (round_edges_subset_all he') ha hc
      subst this
      exact round_edges_disjoint hv he' he
    · intro h
      exact List.mem_map.2 ⟨e, by rwa [round_edges_congr lay (r' := k) h], rfl⟩
  refine ⟨List.mem_append_right _ hm, ?_⟩
  rw [ptClass, if_neg hd, cc]
  simp only [hin]
  have : k % 3 = 0 ∨ k % 3 = 1 ∨ k % 3 = 2 := by omega
  rcases this with h | h | h <;> simp [h]

theorem data_class {q : Pt} (hq : q ∈ lay.data_qubit_coords) :
    q ∈ qubitOrder lay ∧ lay.ptClass q = if dataQubitParity q then 1 else 0 :=
  ⟨List.mem_append_left _ hq, by rw [ptClass, if_pos hq]⟩

theorem covers_centers (hv : lay.Valid) (k : Int) : lay.Covers [cc k] ((lay.round_edges k).map fun e => lay.idx e.center) := by
  have : ((lay.round_edges k).map fun e => lay.idx e.center) = ((lay.round_edges k).map Edge.center).map lay.idx := by simp
  rw [this]
  refine covers_map hv (List.Nodup.map_on (fun a ha b hb e =>
    edge_center_inj hv (round_edges_subset_all ha) (round_edges_subset_all hb) e) (nodup_round_edges hv k)) ?_
  intro q hq
  obtain ⟨e, he, rfl⟩ := List.mem_map.1 hq
  have := center_class hv he
  exact ⟨this.1, by simp [this.2]⟩

theorem left_inj (hv : lay.Valid) {k : Int} {a b : Edge} (ha : a ∈ lay.round_edges k) (hb : b ∈ lay.round_edges k)
    (h : a.left = b.left) : a = b := unique_edge hv ha hb (q := a.left) (Or.inl rfl) (Or.inl h.symm)

theorem right_inj (hv : lay.Valid) {k : Int} {a b : Edge} (ha : a ∈ lay.round_edges k) (hb : b ∈ lay.round_edges k)
    (h : a.right = b.right) : a = b := unique_edge hv ha hb (q := a.right) (Or.inr rfl) (Or.inr h.symm)

theorem covers_lefts (hv : lay.Valid) (k : Int) : lay.Covers [0] ((lay.round_edges k).map fun e => lay.idx e.left) := by
  have : ((lay.round_edges k).map fun e => lay.idx e.left) = ((lay.round_edges k).map Edge.left).map lay.idx := by simp
  rw [this]
  refine covers_map hv (List.Nodup.map_on (fun a ha b hb e => left_inj hv ha hb e) (nodup_round_edges hv k)) ?_
  intro q hq
  obtain ⟨e, he, rfl⟩ := List.mem_map.1 hq
  have ha := round_edges_subset_all he
  have := data_class (edge_ends_data hv ha).1
  exact ⟨this.1, by simp [this.2, (edge_parity hv ha).1]⟩

theorem covers_rights (hv : lay.Valid) (k : Int) : lay.Covers [1] ((lay.round_edges k).map fun e => lay.idx e.right) := by
  have : ((lay.round_edges k).map fun e => lay.idx e.right) = ((lay.round_edges k).map Edge.right).map lay.idx := by simp
  rw [this]
  refine covers_map hv (List.Nodup.map_on (fun a ha b hb e => right_inj hv ha hb e) (nodup_round_edges hv k)) ?_
  intro q hq
  obtain ⟨e, he, rfl⟩ := List.mem_map.1 hq
  have ha := round_edges_subset_all he
  have := data_class (edge_ends_data hv ha).2
  exact ⟨this.1, by simp [this.2, (edge_parity hv ha).2]⟩

theorem perm_pairs {α : Type} (l : List α) (f g : α → Nat) : (l.map f ++ l.map g).Perm (l.flatMap fun e => [f e, g e]) := by
  induction l with
  | nil => simp
  | cons a l ih =>
    simp only [List.map_cons, List.cons_append, List.flatMap_cons, List.nil_append]
    exact (List.perm_middle.trans (ih.cons _)).cons _

theorem cc_ne (k : Int) : cc k ≠ 0 ∧ cc k ≠ 1 := by constructor <;> simp only [cc] <;> omega

theorem cc_inj {k j : Int} (h : k % 3 ≠ j % 3) : cc k ≠ cc j := by simp only [cc]; omega

theorem covers_left (hv : lay.Valid) (k : Int) : lay.Covers [0, cc k] (lay.leftTargets (lay.round_edges k)) :=
  ((covers_lefts hv k).append hv (covers_centers hv k) (by simp [(cc_ne k).1])).perm (perm_pairs _ _ _) (by simp)

theorem covers_right (hv : lay.Valid) (k : Int) : lay.Covers [1, cc k] (lay.rightTargets (lay.round_edges k)) :=
  ((covers_rights hv k).append hv (covers_centers hv k) (by simp [(cc_ne k).2])).perm (perm_pairs _ _ _) (by simp)

theorem covers_ends (hv : lay.Valid) (k : Int) :
    lay.Covers [0, 1] ((lay.round_edges k).flatMap fun e => [lay.idx e.left, lay.idx e.right]) :=
  ((covers_lefts hv k).append hv (covers_rights hv k) (by simp)).perm (perm_pairs _ _ _) (by simp)

theorem covers_1st (hv : lay.Valid) : lay.Covers [0] lay.data_qubit_indices_1st := by
  refine covers_map hv ((nodup_data_qubit_coords lay).filter _) ?_
  intro q hq
  have hq := List.mem_filter.1 hq
  have := data_class hq.1
  exact ⟨this.1, by have h := hq.2; simp [this.2]; simpa using h⟩

theorem covers_2nd (hv : lay.Valid) : lay.Covers [1] lay.data_qubit_indices_2nd := by
  refine covers_map hv ((nodup_data_qubit_coords lay).filter _) ?_
  intro q hq
  have hq := List.mem_filter.1 hq
  have := data_class hq.1
  exact ⟨this.1, by have h := hq.2; simp [this.2]; simpa using h⟩

theorem covers_data (hv : lay.Valid) : lay.Covers [0, 1] lay.data_qubit_indices := by
  refine covers_map hv (nodup_data_qubit_coords lay) ?_
  intro q hq
  have := data_class hq
  exact ⟨this.1, by rw [this.2]; split_ifs <;> simp⟩

theorem measure_class (hv : lay.Valid) {q : Pt} (hq : q ∈ lay.measure_qubit_coords) :
    q ∈ qubitOrder lay ∧ lay.ptClass q ∈ [2, 3, 4] := by
  obtain ⟨e, he, rfl⟩ := mem_measure_qubit_coords.1 hq
  rw [mem_all_edges_iff_round] at he
  rcases he with h | h | h <;> have := center_class hv h <;> exact ⟨this.1, by simp [this.2, cc]⟩

theorem covers_measure (hv : lay.Valid) : lay.Covers [2, 3, 4] lay.measure_qubit_indices :=
  covers_map hv (nodup_measure_qubit_coords lay) fun _ hq => measure_class hv hq

theorem covers_qubitOrder (hv : lay.Valid) : lay.Covers [0, 1, 2, 3, 4] ((qubitOrder lay).map lay.idx) := by
  refine covers_map hv (nodup_qubitOrder hv) ?_
  intro q hq
  refine ⟨hq, ?_⟩
  rcases List.mem_append.1 hq with h | h
  · rw [(data_class h).2]; split_ifs <;> simp
  · have := (measure_class hv h).2; simp at this ⊢; tauto

theorem used_eq (hv : lay.Valid) : lay.used_qubit_coords = if lay.isEM3 then lay.data_qubit_coords else qubitOrder lay := by
  rw [used_qubit_coords]
  split_ifs
  · rfl
  · rw [q2i_eq hv, PyDict.keys, List.zipIdx_map_fst]

/-- The classes of the qubits a style uses. -/
def usedClasses (lay : HoneycombLayout) : List Nat := if lay.isEM3 then [0, 1] else [0, 1, 2, 3, 4]

theorem covers_used (hv : lay.Valid) : lay.Covers lay.usedClasses lay.used_qubit_indices := by
  rw [used_qubit_indices, used_eq hv, usedClasses]
  split_ifs
  · exact covers_data hv
  · exact covers_qubitOrder hv

/-- No qubit is used twice in a time step, and only qubits of the style's classes are used. -/
def StepsFree (lay : HoneycombLayout) (l : List Instr) : Prop := ∀ s ∈ timeSteps l, lay.Covers lay.usedClasses (actedOn s)

theorem StepsFree.tick {a b : List Instr} (ha : lay.StepsFree a) (hb : lay.StepsFree b) : lay.StepsFree (a ++ [.tick] ++ b) := by
  intro s hs
  rw [timeSteps_append_tick] at hs
  rcases List.mem_append.1 hs with h | h
  · exact ha s h
  · exact hb s h

/-- A block of time steps, the last of which is ended by a `TICK`. -/
def Block (lay : HoneycombLayout) (l : List Instr) : Prop := ∃ a, l = a ++ [.tick] ∧ lay.StepsFree a

theorem Block.append {a b : List Instr} (ha : lay.Block a) (hb : lay.StepsFree b) : lay.StepsFree (a ++ b) := by
  obtain ⟨a, rfl, h⟩ := ha
  exact h.tick hb

theorem Block.append' {a b : List Instr} (ha : lay.Block a) (hb : lay.Block b) : lay.Block (a ++ b) := by
  obtain ⟨b, rfl, h⟩ := hb
  exact ⟨a ++ b, by rw [List.append_assoc], ha.append h⟩

theorem stepsFree_of {l : List Instr} (ht : ∀ i ∈ l, i.gate ≠ .TICK) (h : lay.Covers lay.usedClasses (actedOn l)) : lay.StepsFree l := by
  intro s hs
  rw [timeSteps_noTick ht, List.mem_singleton] at hs
  subst hs; exact h

theorem block_of {l : List Instr} (ht : ∀ i ∈ l, i.gate ≠ .TICK) (h : lay.Covers lay.usedClasses (actedOn l)) :
    lay.Block (l ++ [.tick]) := ⟨l, rfl, stepsFree_of ht h⟩

theorem covers_nil (cs : List Nat) : lay.Covers cs [] := ⟨List.nodup_nil, by simp⟩

theorem stepsFree_nil : lay.StepsFree [] := stepsFree_of (by simp) (covers_nil _)

theorem blocks_append {α : Type} {l : List α} {f : α → List Instr} (h : ∀ a ∈ l, lay.Block (f a)) {b : List Instr}
    (hb : lay.StepsFree b) : lay.StepsFree (l.flatMap f ++ b) := by
  induction l with
  | nil => simpa using hb
  | cons a l ih =>
    rw [List.flatMap_cons, List.append_assoc]
    exact (h a List.mem_cons_self).append (ih fun x hx => h x (List.mem_cons_of_mem _ hx))

theorem Covers.mono {cs ds : List Nat} {a : List Nat} (ha : lay.Covers cs a) (h : cs ⊆ ds) : lay.Covers ds a :=
  ha.perm (List.Perm.refl _) h

/-! ## The blocks of a generated circuit -/

/-- Membership of the literal classes in the used ones. -/
theorem usedClasses_all (h : lay.isEM3 = false) : lay.usedClasses = [0, 1, 2, 3, 4] := by simp [usedClasses, h]

theorem cc_mem (k : Int) : cc k ∈ [2, 3, 4] := by simp only [cc, List.mem_cons, List.not_mem_nil, or_false]; omega

theorem used_01 : [0, 1] ⊆ lay.usedClasses := by rw [usedClasses]; split_ifs <;> simp

theorem used_sub (h : lay.isEM3 = false) {cs : List Nat} (hc : ∀ c ∈ cs, c < 5) : cs ⊆ lay.usedClasses := by
  rw [usedClasses_all h]
  intro c hcs
  have := hc c hcs
  simp; omega

theorem cc_lt (k : Int) : cc k < 5 := by simp only [cc]; omega

theorem actedOn_tickless_marks_append {a b : List Instr} (h : ∀ i ∈ b, isMark i = true) : actedOn (a ++ b) = actedOn a := by
  rw [actedOn_append, actedOn_marks h, List.append_nil]

theorem mark_noTick {l : List Instr} (h : ∀ i ∈ l, isMark i = true) : ∀ i ∈ l, i.gate ≠ .TICK := by
  intro i hi
  rcases (isMark_iff i).1 (h i hi) with h | h | h <;> simp [h]

theorem on_noTick {g : Gate} {qs : List Nat} (h : g ≠ .TICK) : ∀ i ∈ [Instr.on g qs], i.gate ≠ .TICK := by
  intro i hi; rw [List.mem_singleton] at hi; subst hi; exact h

theorem noTick_append {a b : List Instr} (ha : ∀ i ∈ a, i.gate ≠ .TICK) (hb : ∀ i ∈ b, i.gate ≠ .TICK) :
    ∀ i ∈ a ++ b, i.gate ≠ .TICK := by
  intro i hi
  rcases List.mem_append.1 hi with h | h
  · exact ha i h
  · exact hb i h

/-- Disjointness of literal lists of qubit classes. -/
macro "disj" : tactic => `(tactic| (
  intro x hx hx'
  simp only [List.mem_cons, List.mem_append, List.not_mem_nil, or_false, cc] at hx hx'
  omega))

/-- A piece of a time step: no `TICK`, acting on the given qubit classes. -/
structure Piece (lay : HoneycombLayout) (cs : List Nat) (l : List Instr) : Prop where
  noTick : ∀ i ∈ l, i.gate ≠ .TICK
  covers : lay.Covers cs (actedOn l)

theorem Piece.append (hv : lay.Valid) {cs ds : List Nat} {a b : List Instr} (ha : lay.Piece cs a) (hb : lay.Piece ds b)
    (h : List.Disjoint cs ds) : lay.Piece (cs ++ ds) (a ++ b) :=
  ⟨noTick_append ha.noTick hb.noTick, by rw [actedOn_append]; exact ha.covers.append hv hb.covers h⟩

theorem Piece.marks {cs : List Nat} {a b : List Instr} (ha : lay.Piece cs a) (hb : ∀ i ∈ b, isMark i = true) : lay.Piece cs (a ++ b) :=
  ⟨noTick_append ha.noTick (mark_noTick hb), by rw [actedOn_tickless_marks_append hb]; exact ha.covers⟩

theorem Piece.block {cs : List Nat} {a : List Instr} (ha : lay.Piece cs a) (h : cs ⊆ lay.usedClasses) : lay.Block (a ++ [.tick]) :=
  block_of ha.noTick (ha.covers.mono h)

theorem Piece.free {cs : List Nat} {a : List Instr} (ha : lay.Piece cs a) (h : cs ⊆ lay.usedClasses) : lay.StepsFree a :=
  stepsFree_of ha.noTick (ha.covers.mono h)

theorem piece_on {g : Gate} {cs qs : List Nat} (hg : kind g ≠ .annotation) (h : lay.Covers cs qs) : lay.Piece cs [.on g qs] :=
  ⟨on_noTick (by rintro rfl; simp [kind] at hg), by rw [actedOn_on hg]; exact h⟩

theorem piece_nil : lay.Piece [] [] := ⟨by simp, covers_nil _⟩

theorem piece_marks {l : List Instr} (h : ∀ i ∈ l, isMark i = true) : lay.Piece [] l :=
  ⟨mark_noTick h, by rw [actedOn_marks h]; exact covers_nil _⟩

theorem Piece.mono {cs ds : List Nat} {a : List Instr} (ha : lay.Piece cs a) (h : cs ⊆ ds) : lay.Piece ds a :=
  ⟨ha.noTick, ha.covers.mono h⟩

theorem piece_md (hv : lay.Valid) (he : lay.isEM3 = false) (k : Nat) : lay.Piece [cc k] (lay.emitMD k) := by
  refine Piece.marks ?_ (emitAnn_marks k)
  rw [emitMeas, he]
  exact piece_on (by decide) (covers_centers hv k)

theorem block_basisChange (hv : lay.Valid) (b : Basis) : lay.basisChange b = [] ∨ lay.Block (lay.basisChange b) := by
  rw [basisChange]
  split_ifs
  · exact Or.inr ((piece_on (g := toZGate b) (by cases b <;> decide) (covers_data hv)).block used_01)
  · exact Or.inl rfl

theorem basisChange_append (hv : lay.Valid) (b : Basis) {l : List Instr} (h : lay.StepsFree l) : lay.StepsFree (lay.basisChange b ++ l) := by
  rcases block_basisChange hv b with e | e
  · rw [e]; exact h
  · exact e.append h

theorem piece_cycle (hv : lay.Valid) : lay.Piece [0, 1] (lay.cycleData true true) := piece_on (by decide) (covers_data hv)

theorem piece_cycle1 (hv : lay.Valid) : lay.Piece [0] (lay.cycleData true false) := piece_on (by decide) (covers_1st hv)

theorem piece_cycle2 (hv : lay.Valid) : lay.Piece [1] (lay.cycleData false true) := piece_on (by decide) (covers_2nd hv)

theorem piece_resets (hv : lay.Valid) (k : Int) : lay.Piece [cc k] (lay.subRoundResets k) := piece_on (by decide) (covers_centers hv k)

theorem piece_left (hv : lay.Valid) {g : Gate} (hg : kind g ≠ .annotation) (k : Int) :
    lay.Piece [0, cc k] [.on g (lay.leftTargets (lay.round_edges k))] := piece_on hg (covers_left hv k)

theorem piece_right (hv : lay.Valid) {g : Gate} (hg : kind g ≠ .annotation) (k : Int) :
    lay.Piece [1, cc k] [.on g (lay.rightTargets (lay.round_edges k))] := piece_on hg (covers_right hv k)

theorem cc_ne_of {k j : Int} (h : k % 3 ≠ j % 3) : ¬ cc k = cc j := cc_inj h

theorem sd6_sub (he : lay.isEM3 = false) {cs : List Nat} (h : cs.all (fun c => decide (c < 5)) = true) : cs ⊆ lay.usedClasses :=
  used_sub he fun c hc => by simpa using List.all_eq_true.1 h c hc

theorem block_sd6Emit (hv : lay.Valid) (he : lay.isEM3 = false) (k : Nat) : lay.Block (lay.sd6Emit k) := by
  rw [sd6Emit]
  have b1 : lay.Block ((lay.subRound2qOps (k + 1)).1 ++ (lay.subRound2qOps k).2 ++ [.tick]) := by
    refine Piece.block ((piece_left hv (by decide) _).append hv (piece_right hv (by decide) _) ?_)
      (sd6_sub he (by simp [cc_lt]))
    disj
  have b2 : lay.Block (lay.subRoundResets (k + 2) ++ lay.cycleData true true ++ lay.emitMD k ++ [.tick]) := by
    refine Piece.block (((piece_resets hv _).append hv (piece_cycle hv) ?_).append hv (piece_md hv he k) ?_)
      (sd6_sub he (by simp [cc_lt]))
    · disj
    · disj
  have := b1.append' b2
  simpa [List.append_assoc] using this

theorem realign_free (hv : lay.Valid) (he : lay.isEM3 = false) {cs : List Nat} {a b : List Instr} (ha : lay.Piece cs a) (hc : cs ⊆ [2, 3, 4])
    (hb : lay.StepsFree b) : lay.StepsFree (a ++ lay.sd6Realign ++ b) := by
  have hp : ∀ c : List Instr, lay.Piece [0, 1] c → lay.StepsFree (a ++ (c ++ [.tick]) ++ b) := by
    intro c hc'
    have := (ha.append hv hc' (by
      intro x hx hx'
      have := hc hx
      simp at this hx'; omega)).block (h := used_sub he (by
        intro c hcs
        rcases List.mem_append.1 hcs with h | h
        · have := hc h; simp at this; omega
        · simp at h; omega))
    have := this.append hb
    simpa [List.append_assoc] using this
  rw [sd6Realign]
  refine hp _ ?_
  split_ifs
  · exact piece_on (by decide) (covers_data hv)
  · exact piece_on (by decide) (covers_data hv)
  · exact piece_nil.mono (by simp)

theorem free_sd6All (hv : lay.Valid) (he : lay.isEM3 = false) {N : Nat} (hN : 1 ≤ N) {b : List Instr} (hb : lay.StepsFree b) :
    lay.StepsFree (lay.sd6All N ++ b) := by
  rw [sd6All]
  split_ifs with h1
  · have b1 := ((piece_resets hv 0).append hv (piece_cycle hv) (by disj)).block (sd6_sub he (by simp [cc_lt]))
    have b2 := (piece_left hv (g := .CX) (by decide) 0).block (sd6_sub he (by simp [cc_lt]))
    have b3 := (piece_right hv (g := .CX) (by decide) 0).block (sd6_sub he (by simp [cc_lt]))
    have b4 := realign_free hv he (piece_md hv he 0) (by simp [cc]) hb
    have := b1.append (b2.append (b3.append b4))
    simpa [List.append_assoc, subRound2qOps] using this
  · have s1 := ((piece_resets hv 0).append hv (piece_cycle1 hv) (by disj)).block (sd6_sub he (by simp [cc_lt]))
    have s2 := (piece_left hv (g := .CX) (by decide) 0).block (sd6_sub he (by simp [cc_lt]))
    have s3 := ((piece_resets hv 1).append hv (piece_cycle hv) (by disj)).block (sd6_sub he (by simp [cc_lt]))
    have e1 := ((piece_left hv (g := .CX) (by decide) ((N : Int) - 1)).append hv (piece_right hv (g := .CX) (by decide) ((N : Int) - 2))
      (by disj)).block (sd6_sub he (by simp [cc_lt]))
    have e2 := (piece_md hv he (N - 2)).block (sd6_sub he (by simp [cc_lt]))
    have e3 := (piece_cycle2 hv).block (sd6_sub he (by simp))
    have e4 := (piece_right hv (g := .CX) (by decide) ((N : Int) - 1)).block (sd6_sub he (by simp [cc_lt]))
    have e5 := realign_free hv he (piece_md hv he (N - 1)) (by intro x hx; rw [List.mem_singleton] at hx; subst hx; exact cc_mem _) hb
    have := s1.append (s2.append (s3.append (blocks_append (l := List.range (N - 2)) (fun k _ => block_sd6Emit hv he k)
      (e1.append (e2.append (e3.append (e4.append e5)))))))
    simpa [List.append_assoc, subRound2qOps, sd6Start, sd6EndEmit] using this

theorem block_pc3Emit (hv : lay.Valid) (he : lay.isEM3 = false) (N k : Nat) : lay.Block (lay.pc3Emit N k) := by
  have hb : ∀ b, kind (basisCX b) ≠ .annotation := by intro b; cases b <;> decide
  have p1 : lay.Piece [0, cc k] (if k < N then [.on (basisCX (sub_round_edge_basis k)) (lay.leftTargets (lay.round_edges k))] else []) := by
    split_ifs
    · exact piece_left hv (hb _) _
    · exact piece_nil.mono (by simp)
  have p2 : lay.Piece [1, cc ((k : Int) - 1)] (if 1 ≤ k ∧ k - 1 < N then
    [.on (basisCX (sub_round_edge_basis ((k : Int) - 1))) (lay.rightTargets (lay.round_edges ((k : Int) - 1)))] else []) := by
    split_ifs
    · exact piece_right hv (hb _) _
    · exact piece_nil.mono (by simp)
  have p3 : lay.Piece [cc ((k : Int) - 2)] (if 2 ≤ k then lay.emitMD (k - 2) else lay.subRoundResets ((k : Int) - 2)) := by
    split_ifs with h
    · have := piece_md hv he (k - 2)
      rwa [show ((k - 2 : Nat) : Int) = (k : Int) - 2 by omega] at this
    · exact piece_resets hv _
  rw [pc3Emit]
  refine Piece.block ((p1.append hv p2 ?_).append hv p3 ?_) (sd6_sub he (by simp [cc_lt]))
  · disj
  · disj

theorem qubits_pairs (l : List Edge) (b : Basis) :
    actedOn [{ gate := .MPP, targets := l.flatMap fun e => [.pauli b (lay.idx e.left), .comb, .pauli b (lay.idx e.right)] }] =
      l.flatMap fun e => [lay.idx e.left, lay.idx e.right] := by
  simp only [actedOn, Instr.qubits, kind, List.filter_cons, List.filter_nil, ne_eq, reduceCtorEq, not_false_eq_true, decide_true, if_true,
    List.flatMap_cons, List.flatMap_nil, List.append_nil]
  induction l with
  | nil => rfl
  | cons e l ih =>
    rw [List.flatMap_cons, List.filterMap_append, ih, List.flatMap_cons]
    rfl

theorem block_em3Emit (hv : lay.Valid) (he : lay.isEM3 = true) (k : Nat) : lay.Block (lay.em3Emit k) := by
  rw [em3Emit, emitMD, emitMeas, if_pos he, List.nil_append]
  refine Piece.block (cs := [0, 1]) (Piece.marks ⟨?_, ?_⟩ (emitAnn_marks k)) used_01
  · intro i hi; rw [List.mem_singleton] at hi; subst hi; simp
  · rw [qubits_pairs]; exact covers_ends hv k

theorem block_si1000Layer (hv : lay.Valid) (he : lay.isEM3 = false) (k : Int) : lay.Block (lay.si1000Layer k) := by
  have b1 := ((piece_on (g := .C_ZYX) (by decide) (covers_2nd hv)).append hv (piece_left hv (g := .CZ) (by decide) k)
    (by disj)).block (sd6_sub he (by simp [cc_lt]))
  have p : lay.Piece [0] (if k < 2 then [.on .C_ZYX lay.data_qubit_indices_1st] else []) := by
    split_ifs
    · exact piece_on (by decide) (covers_1st hv)
    · exact piece_nil.mono (by simp)
  have b2 := (p.append hv (piece_right hv (g := .CZ) (by decide) k) (by disj)).block (sd6_sub he (by simp [cc_lt]))
  have := b1.append' b2
  rw [si1000Layer]
  simpa [List.append_assoc] using this

theorem piece_three (hv : lay.Valid) (he : lay.isEM3 = false) (j : Nat) :
    lay.Piece [2, 3, 4] ((List.range 3).flatMap fun i => lay.emitMD (3 * j + i)) := by
  have e : ((List.range 3).flatMap fun i => lay.emitMD (3 * j + i)) = lay.emitMD (3 * j) ++ lay.emitMD (3 * j + 1) ++ lay.emitMD (3 * j + 2) := by
    simp [List.range_succ]
  rw [e]
  have d1 : cc ((3 * j : Nat) : Int) = 2 := by simp only [cc]; omega
  have d2 : cc ((3 * j + 1 : Nat) : Int) = 3 := by simp only [cc]; omega
  have d3 : cc ((3 * j + 2 : Nat) : Int) = 4 := by simp only [cc]; omega
  exact ((piece_md hv he _).append hv (piece_md hv he _) (by disj)).append hv (piece_md hv he _) (by disj) |>.mono
    (by rw [d1, d2, d3]; simp)

theorem block_si1000Emit (hv : lay.Valid) (he : lay.isEM3 = false) (j : Nat) : lay.Block (lay.si1000Emit j) := by
  have b0 : (if 0 < j then [Instr.on .R lay.measure_qubit_indices, Instr.tick] else []) = [] ∨
      lay.Block (if 0 < j then [Instr.on .R lay.measure_qubit_indices, .tick] else []) := by
    split_ifs
    · exact Or.inr ((piece_on (g := .R) (by decide) (covers_measure hv)).block (sd6_sub he (by simp)))
    · exact Or.inl rfl
  have b1 := ((piece_on (g := .C_ZYX) (by decide) (covers_1st hv)).append hv (piece_on (g := .H) (by decide) (covers_measure hv))
    (by simp)).block (sd6_sub he (by simp))
  have b2 : lay.Block ((pyRange 3).flatMap lay.si1000Layer) := by
    have e : (pyRange 3).flatMap lay.si1000Layer = lay.si1000Layer 0 ++ lay.si1000Layer 1 ++ lay.si1000Layer 2 := by
      simp [pyRange, List.range_succ]
    rw [e]
    exact ((block_si1000Layer hv he 0).append' (block_si1000Layer hv he 1)).append' (block_si1000Layer hv he 2)
  have b3 := (piece_on (g := .H) (by decide) (covers_measure hv)).block (lay := lay) (sd6_sub he (by simp))
  have b4 := (piece_three hv he j).block (sd6_sub he (by simp))
  have := b1.append' (b2.append' (b3.append' b4))
  rw [si1000Emit]
  rcases b0 with e | e
  · rw [e]; simpa [List.append_assoc] using this
  · have := e.append' this
    simpa [List.append_assoc] using this

theorem free_allRounds (hv : lay.Valid) (hs : lay.Supported) {N : Nat} (hN : 1 ≤ N) {b : List Instr} (hb : lay.StepsFree b)
    (hb' : ∀ l, (∀ i ∈ l, isMark i = true) → lay.StepsFree (l ++ b)) : lay.StepsFree (lay.allRounds N ++ b) := by
  rcases supported_style hs with ⟨h, he⟩ | ⟨h, he⟩ | ⟨hn1, hn2, he⟩ | ⟨h, he⟩
  · rw [allRounds, if_pos h]
    exact free_sd6All hv (by simpa using he) hN hb
  · rw [allRounds, if_neg (by rw [h]; decide), if_pos h, pc3All, List.append_assoc]
    exact blocks_append (fun k _ => block_pc3Emit hv (by simpa using he) N k)
      (hb' _ fun i hi => (isMark_iff i).2 (Or.inr (Or.inl (pc3ObsEmit_gate hi))))
  · rw [allRounds, if_neg hn1, if_neg hn2, if_pos he]
    exact blocks_append (fun k _ => block_em3Emit hv he k) hb
  · rw [allRounds, if_neg (by rw [h]; decide), if_neg (by rw [h]; decide), if_neg (by simp [he])]
    exact blocks_append (fun k _ => block_si1000Emit hv (by simpa using he) k) hb

theorem free_closed (hv : lay.Valid) (hs : lay.Supported) {N : Nat} (hN : 1 ≤ N) : lay.StepsFree (lay.closedCircuit N) := by
  have pf : lay.Piece [0, 1] ([.on .M lay.data_qubit_indices] ++ lay.emitFinal N N) :=
    (piece_on (by decide) (covers_data hv)).marks fun i hi => (isMark_iff i).2 ((emitFinal_gate hi).imp_right Or.inl)
  have h1 : lay.StepsFree (lay.basisChange (lay.obsAt N).1 ++ ([.on .M lay.data_qubit_indices] ++ lay.emitFinal N N)) :=
    basisChange_append hv _ (pf.free used_01)
  have h1' : ∀ l, (∀ i ∈ l, isMark i = true) →
      lay.StepsFree (l ++ (lay.basisChange (lay.obsAt N).1 ++ ([.on .M lay.data_qubit_indices] ++ lay.emitFinal N N))) := by
    intro l hl
    have pm := piece_marks (lay := lay) hl
    rw [basisChange]
    split_ifs
    · have := ((pm.append hv (piece_on (g := toZGate (lay.obsAt N).1) (by cases (lay.obsAt N).1 <;> decide) (covers_data hv))
        (by simp)).block (by simpa using used_01)).append (pf.free used_01)
      simpa [List.append_assoc] using this
    · have := (pm.append hv pf (by simp)).free (by simpa using used_01)
      simpa [List.append_assoc] using this
  have h2 := basisChange_append hv (lay.obsAt 0).1 (free_allRounds hv hs hN h1 h1')
  have pq : lay.Piece [] lay.qubitCoordOps := by
    have hq : ∀ i ∈ lay.qubitCoordOps, i.gate = .QUBIT_COORDS := by
      intro i hi
      obtain ⟨q, _, rfl⟩ := List.mem_map.1 hi
      rfl
    exact ⟨fun i hi => by simp [hq i hi], by
      rw [actedOn_annotations fun i hi => by simp [hq i hi, kind]]; exact covers_nil _⟩
  have h3 := ((pq.append hv (piece_on (g := .R) (by decide) (covers_used hv)) (by simp)).block (by simp)).append h2
  rw [closedCircuit]
  simpa [List.append_assoc] using h3

end HoneycombLayout
end Honeycomb
