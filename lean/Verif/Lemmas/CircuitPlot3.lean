import Verif.Lemmas.CircuitPlot2
import Verif.Props.Diagram

/-!
# What `plot_circuit` passes to `diagram_3d`
-/

namespace Honeycomb
open PyDict

/-- Where qubit `q` is. -/
def posOf (coords : List (Nat × Nat × Nat)) (q : Nat) : Nat × Nat := (PyDict.get? coords q).getD (0, 0)

/-- The letters of a level, at their positions. -/
def placed (coords : List (Nat × Nat × Nat)) (L : List (Nat × Char)) : PyDict Cx Char := L.map fun e => (cx (posOf coords e.1), e.2)

/-- The links of a level, at their positions. -/
def linked (coords : List (Nat × Nat × Nat)) (K : List (Nat × Nat)) : List (Cx × Cx) :=
  K.map fun e => (cx (posOf coords e.1), cx (posOf coords e.2))

/-- The state of `plot_circuit` after some levels. -/
def plotted (coords : List (Nat × Nat × Nat)) (A : List (PyDict Cx Char)) (B : List (List (Cx × Cx))) (L : List (Nat × Char))
    (K : List (Nat × Nat)) : PlotState where
  i2q := coords.map fun c => ((c.1 : Int), cx c.2)
  seen_coords := coords.map fun c => cx c.2
  levels := A
  connectors := B
  cur_level := placed coords L
  cur_connectors := linked coords K

variable {coords : List (Nat × Nat × Nat)}

/-- The qubits are different and at different positions. -/
structure GoodCoords (coords : List (Nat × Nat × Nat)) : Prop where
  qubits : (coords.map Prod.fst).Nodup
  places : (coords.map Prod.snd).Nodup

theorem posOf_eq (h : GoodCoords coords) {q : Nat} {p : Nat × Nat} (hm : (q, p) ∈ coords) : posOf coords q = p := by
  rw [posOf, get?_of_mem h.qubits hm]; rfl

theorem posOf_mem {q : Nat} (hq : q ∈ coords.map Prod.fst) : (q, posOf coords q) ∈ coords := by
  obtain ⟨p, hp⟩ := Option.isSome_iff_exists.1 ((get?_isSome_iff coords q).2 hq)
  rw [posOf, hp]
  exact mem_of_get? hp

theorem snd_inj {l : List (Nat × Nat × Nat)} (h : (l.map Prod.snd).Nodup) {q q' : Nat} {p : Nat × Nat} (h1 : (q, p) ∈ l) (h2 : (q', p) ∈ l) :
    q = q' := by
  have := List.inj_on_of_nodup_map h h1 h2 rfl
  exact congrArg Prod.fst this

theorem posOf_inj (h : GoodCoords coords) {q q' : Nat} (hq : q ∈ coords.map Prod.fst) (hq' : q' ∈ coords.map Prod.fst)
    (e : posOf coords q = posOf coords q') : q = q' := by
  have h1 := posOf_mem hq
  have h2 := posOf_mem hq'
  rw [← e] at h2
  exact snd_inj h.places h1 h2

theorem at_plotted (h : GoodCoords coords) {A B L K} {q : Nat} (hq : q ∈ coords.map Prod.fst) :
    (plotted coords A B L K).at (q : Int) = .ok (cx (posOf coords q)) := by
  have hn : ((coords.map fun c => ((c.1 : Int), cx c.2)).map Prod.fst).Nodup := by
    rw [List.map_map]
    have : (Prod.fst ∘ fun c : Nat × Nat × Nat => ((c.1 : Int), cx c.2)) = (fun i : Nat => (i : Int)) ∘ Prod.fst := rfl
    rw [this, ← List.map_map]
    exact h.qubits.map fun a b hab => by exact_mod_cast hab
  have hm : ((q : Int), cx (posOf coords q)) ∈ (coords.map fun c => ((c.1 : Int), cx c.2)) :=
    List.mem_map.2 ⟨_, posOf_mem hq, rfl⟩
  rw [PlotState.at, plotted, get?_of_mem hn hm]

theorem set_fresh {κ ν : Type} [DecidableEq κ] (d : PyDict κ ν) (k : κ) (v : ν) (h : k ∉ d.map Prod.fst) : d.set k v = d ++ [(k, v)] := by
  induction d with
  | nil => rfl
  | cons e d ih =>
    obtain ⟨k', v'⟩ := e
    rw [List.map_cons, List.mem_cons, not_or] at h
    rw [PyDict.set, if_neg (Ne.symm h.1), ih h.2]
    rfl

theorem mark_plotted (h : GoodCoords coords) {A B L K} {q : Nat} (c : Char) (hL : ∀ e ∈ L, e.1 ∈ coords.map Prod.fst)
    (hq : q ∈ coords.map Prod.fst) (hn : q ∉ L.map Prod.fst) :
    (plotted coords A B L K).mark (cx (posOf coords q)) c = .ok (plotted coords A B (L ++ [(q, c)]) K) := by
  have hfresh : cx (posOf coords q) ∉ (placed coords L).map Prod.fst := by
    rw [placed, List.map_map, List.mem_map]
    rintro ⟨e, he, h1⟩
    have := posOf_inj h (hL e he) hq (cx_inj.1 h1)
    exact hn (this ▸ List.mem_map_of_mem (f := Prod.fst) he)
  have hk : cx (posOf coords q) ∉ (plotted coords A B L K).cur_level.keys := hfresh
  rw [PlotState.mark, if_neg hk]
  simp only [plotted, Except.ok.injEq, PlotState.mk.injEq, true_and, and_true]
  rw [set_fresh _ _ _ hfresh, placed, placed, List.map_append]
  rfl

/-- Letters can be added to a level: the qubits have coordinates and no other letters. -/
structure Fits (coords : List (Nat × Nat × Nat)) (L : List (Nat × Char)) : Prop where
  declared : ∀ e ∈ L, e.1 ∈ coords.map Prod.fst
  nodup : (L.map Prod.fst).Nodup

theorem Fits.left {L L' : List (Nat × Char)} (h : Fits coords (L ++ L')) : Fits coords L :=
  ⟨fun e he => h.declared e (List.mem_append_left _ he), by
    have := h.nodup
    rw [List.map_append] at this
    exact this.of_append_left⟩

theorem Fits.head {L L' : List (Nat × Char)} {q : Nat} {c : Char} (h : Fits coords (L ++ (q, c) :: L')) :
    (∀ e ∈ L, e.1 ∈ coords.map Prod.fst) ∧ q ∈ coords.map Prod.fst ∧ q ∉ L.map Prod.fst := by
  refine ⟨h.left.declared, h.declared (q, c) (by simp), fun hm => ?_⟩
  have := h.nodup
  rw [List.map_append, List.nodup_append] at this
  exact this.2.2 q hm q (by simp) rfl

theorem plot1_all (h : GoodCoords coords) {A B K} (c : Char) : ∀ (qs : List Nat) (L : List (Nat × Char)),
    Fits coords (L ++ qs.map fun q => (q, c)) →
    (qs.map Target.q).foldlM (PlotState.plot1 c) (plotted coords A B L K) =
      .ok (plotted coords A B (L ++ qs.map fun q => (q, c)) K) := by
  intro qs
  induction qs with
  | nil => intro L _; simp [pure, Except.pure]
  | cons q qs ih =>
    intro L hf
    rw [List.map_cons] at hf
    obtain ⟨h1, h2, h3⟩ := hf.head
    rw [List.map_cons, List.foldlM_cons]
    have e : PlotState.plot1 c (plotted coords A B L K) (Target.q q) = .ok (plotted coords A B (L ++ [(q, c)]) K) := by
      rw [PlotState.plot1]
      simp only [Target.value, at_plotted h h2, bind, Except.bind]
      exact mark_plotted h c h1 h2 h3
    rw [e]
    have := ih (L ++ [(q, c)]) (by rw [List.append_assoc]; exact hf)
    simp only [bind, Except.bind]
    rw [this, List.append_assoc]
    rfl

theorem link_plotted (A B L K) (q1 q2 : Nat) : { plotted coords A B L K with
      cur_connectors := (plotted coords A B L K).cur_connectors ++ [(cx (posOf coords q1), cx (posOf coords q2))] } =
    plotted coords A B L (K ++ [(q1, q2)]) := by
  simp [plotted, linked]

theorem plot2_all (h : GoodCoords coords) {A B} (c1 c2 : Char) : ∀ (qs : List (Nat × Nat)) (L : List (Nat × Char)) (K : List (Nat × Nat)),
    Fits coords (L ++ qs.flatMap fun q => [(q.1, c1), (q.2, c2)]) →
    (plotted coords A B L K).plot2 c1 c2 (qs.flatMap fun q => [Target.q q.1, .q q.2]) =
      .ok (plotted coords A B (L ++ qs.flatMap fun q => [(q.1, c1), (q.2, c2)]) (K ++ qs)) := by
  intro qs
  induction qs with
  | nil => intro L K _; simp [PlotState.plot2]
  | cons q qs ih =>
    intro L K hf
    obtain ⟨q1, q2⟩ := q
    have e1 : ((q1, q2) :: qs).flatMap (fun q => [(q.1, c1), (q.2, c2)]) = (q1, c1) :: (q2, c2) :: qs.flatMap fun q => [(q.1, c1), (q.2, c2)] := rfl
    rw [e1] at hf ⊢
    obtain ⟨h1, h2, h3⟩ := hf.head
    have hf' : Fits coords ((L ++ [(q1, c1)]) ++ (q2, c2) :: qs.flatMap fun q => [(q.1, c1), (q.2, c2)]) := by
      rw [List.append_assoc]; exact hf
    obtain ⟨h4, h5, h6⟩ := hf'.head
    have e2 : ((q1, q2) :: qs).flatMap (fun q => [Target.q q.1, Target.q q.2]) = .q q1 :: .q q2 :: qs.flatMap fun q => [Target.q q.1, .q q.2] := rfl
    rw [e2, PlotState.plot2]
    simp only [Target.value, at_plotted h h2, at_plotted h h5, bind, Except.bind, mark_plotted h c1 h1 h2 h3, mark_plotted h c2 h4 h5 h6]
    rw [link_plotted, ih _ _ (by simpa using hf')]
    simp

theorem groups_fold (ps : List ((Basis × Nat) × (Basis × Nat))) : ∀ G : List (List Target),
    (ps.flatMap fun p => [Target.pauli p.1.1 p.1.2, .comb, .pauli p.2.1 p.2.2]).foldlM plotGroupStep ([] :: G) =
      .ok ([] :: ((ps.map fun p => [Target.pauli p.1.1 p.1.2, Target.pauli p.2.1 p.2.2]).reverse ++ G)) := by
  induction ps with
  | nil => intro G; simp [pure, Except.pure]
  | cons p ps ih =>
    intro G
    have e : (p :: ps).flatMap (fun p => [Target.pauli p.1.1 p.1.2, .comb, .pauli p.2.1 p.2.2]) =
      .pauli p.1.1 p.1.2 :: .comb :: .pauli p.2.1 p.2.2 :: ps.flatMap fun p => [Target.pauli p.1.1 p.1.2, .comb, .pauli p.2.1 p.2.2] := rfl
    rw [e]
    simp only [List.foldlM_cons, plotGroupStep, bind, Except.bind, List.nil_append]
    rw [show ([Target.pauli p.1.1 p.1.2] ++ [Target.pauli p.2.1 p.2.2]) = [Target.pauli p.1.1 p.1.2, Target.pauli p.2.1 p.2.2] from rfl, ih]
    simp

theorem groupsOf_products (ps : List ((Basis × Nat) × (Basis × Nat))) :
    plotGroupsOf (ps.flatMap fun p => [Target.pauli p.1.1 p.1.2, .comb, .pauli p.2.1 p.2.2]) =
      .ok (ps.map fun p => [Target.pauli p.1.1 p.1.2, Target.pauli p.2.1 p.2.2]) := by
  rw [plotGroupsOf, groups_fold]
  simp [bind, Except.bind, pure, Except.pure]

theorem plotFactor_plotted (h : GoodCoords coords) {A B L K} {q : Nat} (b : Basis) (hL : ∀ e ∈ L, e.1 ∈ coords.map Prod.fst)
    (hq : q ∈ coords.map Prod.fst) (hn : q ∉ L.map Prod.fst) :
    (plotted coords A B L K).plotFactor (.pauli b q) = .ok (plotted coords A B (L ++ [(q, letterOf b)]) K) := by
  rw [PlotState.plotFactor]
  simp only [Target.value, at_plotted h hq, bind, Except.bind]
  cases b <;> exact mark_plotted h _ hL hq hn

theorem products_all (h : GoodCoords coords) {A B} : ∀ (ps : List ((Basis × Nat) × (Basis × Nat))) (L : List (Nat × Char))
    (K : List (Nat × Nat)), Fits coords (L ++ ps.flatMap fun p => [(p.1.2, letterOf p.1.1), (p.2.2, letterOf p.2.1)]) →
    (ps.map fun p => [Target.pauli p.1.1 p.1.2, Target.pauli p.2.1 p.2.2]).foldlM PlotState.plotProduct (plotted coords A B L K) =
      .ok (plotted coords A B (L ++ ps.flatMap fun p => [(p.1.2, letterOf p.1.1), (p.2.2, letterOf p.2.1)])
        (K ++ ps.map fun p => (p.1.2, p.2.2))) := by
  intro ps
  induction ps with
  | nil => intro L K _; simp [pure, Except.pure]
  | cons p ps ih =>
    intro L K hf
    obtain ⟨⟨b1, q1⟩, ⟨b2, q2⟩⟩ := p
    have e1 : (((b1, q1), (b2, q2)) :: ps).flatMap (fun p => [(p.1.2, letterOf p.1.1), (p.2.2, letterOf p.2.1)]) =
      (q1, letterOf b1) :: (q2, letterOf b2) :: ps.flatMap fun p => [(p.1.2, letterOf p.1.1), (p.2.2, letterOf p.2.1)] := rfl
    rw [e1] at hf ⊢
    obtain ⟨h1, h2, h3⟩ := hf.head
    have hf' : Fits coords ((L ++ [(q1, letterOf b1)]) ++ (q2, letterOf b2) ::
        ps.flatMap fun p => [(p.1.2, letterOf p.1.1), (p.2.2, letterOf p.2.1)]) := by
      rw [List.append_assoc]; exact hf
    obtain ⟨h4, h5, h6⟩ := hf'.head
    rw [List.map_cons, List.foldlM_cons]
    have e : (plotted coords A B L K).plotProduct [Target.pauli b1 q1, Target.pauli b2 q2] =
        .ok (plotted coords A B (L ++ [(q1, letterOf b1)] ++ [(q2, letterOf b2)]) (K ++ [(q1, q2)])) := by
      rw [PlotState.plotProduct]
      simp only [List.foldlM_cons, List.foldlM_nil, plotFactor_plotted h b1 h1 h2 h3, plotFactor_plotted h b2 h4 h5 h6, bind, Except.bind,
        pure, Except.pure, Target.value, at_plotted h h2, at_plotted h h5, List.length_cons, List.length_nil]
      rw [link_plotted]
      rfl
    simp only [bind, Except.bind]
    rw [e]
    simp only
    rw [ih _ _ (by simpa using hf')]
    simp

/-- An instruction that is drawn adds its letters and its links to the level. -/
theorem step_draws (h : GoodCoords coords) {A B L K} {op : Instr} {d : Drawing} (hd : Draws op d) (ht : d ≠ .tick)
    (hf : Fits coords (L ++ d.letters)) :
    (plotted coords A B L K).step op = .ok (plotted coords A B (L ++ d.letters) (K ++ d.links)) := by
  cases hd with
  | @single g c hl qs args =>
    have e : (plotted coords A B L K).step ⟨g, qs.map .q, args⟩ = (qs.map Target.q).foldlM (PlotState.plot1 c) (plotted coords A B L K) := by
      cases g <;> simp only [letter1, Option.some.injEq, reduceCtorEq] at hl <;> subst hl <;> rfl
    rw [e, plot1_all h c qs L hf]
    simp [Drawing.letters, Drawing.links]
  | @pairs g c1 c2 hl qs args =>
    have e : (plotted coords A B L K).step ⟨g, qs.flatMap fun q => [.q q.1, .q q.2], args⟩ =
        (plotted coords A B L K).plot2 c1 c2 (qs.flatMap fun q => [Target.q q.1, .q q.2]) := by
      cases g <;> simp only [letter2, Option.some.injEq, reduceCtorEq, Prod.mk.injEq] at hl <;> obtain ⟨rfl, rfl⟩ := hl <;> rfl
    rw [e, plot2_all h c1 c2 qs L K hf]
    rfl
  | products ps args =>
    have e : (plotted coords A B L K).step ⟨.MPP, ps.flatMap fun p => [.pauli p.1.1 p.1.2, .comb, .pauli p.2.1 p.2.2], args⟩ =
        (plotGroupsOf (ps.flatMap fun p => [Target.pauli p.1.1 p.1.2, .comb, .pauli p.2.1 p.2.2])).bind fun gs =>
          gs.foldlM PlotState.plotProduct (plotted coords A B L K) := rfl
    rw [e, groupsOf_products]
    exact products_all h ps L K hf
  | tick ts args => exact absurd rfl ht
  | @nothing g hg ts args =>
    have e : (plotted coords A B L K).step ⟨g, ts, args⟩ = .ok (plotted coords A B L K) := by
      simp only [List.mem_cons, List.not_mem_nil, or_false] at hg
      rcases hg with rfl | rfl | rfl | rfl | rfl | rfl <;> rfl
    rw [e]
    simp [Drawing.letters, Drawing.links]

theorem step_tick (A B L K) (ts : List Target) (args : List Arg) :
    (plotted coords A B L K).step ⟨.TICK, ts, args⟩ =
      .ok (plotted coords (A ++ [placed coords L]) (B ++ [linked coords K]) [] []) := rfl

theorem splitLevels_ne (ds : List Drawing) : splitLevels ds ≠ [] := by
  induction ds with
  | nil => simp [splitLevels]
  | cons d ds ih =>
    cases d <;> simp only [splitLevels] <;> first | exact List.cons_ne_nil _ _ | (split <;> exact List.cons_ne_nil _ _)

theorem splitLevels_cons {d : Drawing} (hd : d ≠ .tick) {ds : List Drawing} {l : List Drawing} {ls : List (List Drawing)}
    (h : splitLevels ds = l :: ls) : splitLevels (d :: ds) = (d :: l) :: ls := by
  cases d <;> first | exact absurd rfl hd | simp only [splitLevels, h]

/-- The state after drawing instructions, in terms of the levels. -/
theorem fold_draws (h : GoodCoords coords) {rest : List Instr} {ds : List Drawing} (hd : List.Forall₂ Draws rest ds) :
    ∀ (A : List (PyDict Cx Char)) (B : List (List (Cx × Cx))) (L : List (Nat × Char)) (K : List (Nat × Nat)) (l : List Drawing)
      (ls : List (List Drawing)), splitLevels ds = l :: ls → Fits coords (L ++ lettersOf l) → (∀ l' ∈ ls, Fits coords (lettersOf l')) →
    ∃ (full : List (List (Nat × Char) × List (Nat × Nat))) (lastL : List (Nat × Char)) (lastK : List (Nat × Nat)),
      full ++ [(lastL, lastK)] = (L ++ lettersOf l, K ++ linksOf l) :: ls.map (fun l => (lettersOf l, linksOf l)) ∧
      rest.foldlM PlotState.step (plotted coords A B L K) =
        .ok (plotted coords (A ++ full.map fun e => placed coords e.1) (B ++ full.map fun e => linked coords e.2) lastL lastK) := by
  induction hd with
  | nil =>
    intro A B L K l ls hs hf _
    simp only [splitLevels, List.cons.injEq] at hs
    obtain ⟨rfl, rfl⟩ := hs
    exact ⟨[], L, K, by simp [lettersOf, linksOf], by simp [pure, Except.pure]⟩
  | @cons op d rest ds hop hds ih =>
    intro A B L K l ls hs hf hls
    by_cases ht : d = .tick
    · subst ht
      cases hop with
      | tick ts args =>
      obtain ⟨l', ls', hs'⟩ := List.exists_cons_of_ne_nil (splitLevels_ne ds)
      simp only [splitLevels, List.cons.injEq] at hs
      obtain ⟨rfl, rfl⟩ := hs
      rw [hs'] at hls
      obtain ⟨full, lastL, lastK, e1, e2⟩ := ih (A ++ [placed coords L]) (B ++ [linked coords K]) [] [] l' ls' hs'
        (by simpa using hls l' List.mem_cons_self) (fun x hx => hls x (List.mem_cons_of_mem _ hx))
      refine ⟨(L, K) :: full, lastL, lastK, ?_, ?_⟩
      · rw [List.cons_append, e1, hs']
        simp [lettersOf, linksOf]
      · rw [List.foldlM_cons, step_tick]
        simp only [bind, Except.bind]
        rw [e2]
        simp
    · obtain ⟨l', ls', hs'⟩ := List.exists_cons_of_ne_nil (splitLevels_ne ds)
      rw [splitLevels_cons ht hs', List.cons.injEq] at hs
      obtain ⟨rfl, rfl⟩ := hs
      have el : lettersOf (d :: l') = d.letters ++ lettersOf l' := rfl
      have ek : linksOf (d :: l') = d.links ++ linksOf l' := rfl
      rw [el, ← List.append_assoc] at hf
      obtain ⟨full, lastL, lastK, e1, e2⟩ := ih A B (L ++ d.letters) (K ++ d.links) l' ls' hs' hf hls
      refine ⟨full, lastL, lastK, ?_, ?_⟩
      · rw [e1, el, ek, List.append_assoc, List.append_assoc]
      · rw [List.foldlM_cons, step_draws h hop ht hf.left]
        simp only [bind, Except.bind]
        exact e2

/-- The coordinates come first. -/
theorem fold_coords : ∀ (pre coords : List (Nat × Nat × Nat)), GoodCoords (pre ++ coords) →
    (coords.map coordsInstr).foldlM PlotState.step (plotted pre [] [] [] []) = .ok (plotted (pre ++ coords) [] [] [] []) := by
  intro pre coords
  induction coords generalizing pre with
  | nil => intro _; simp [pure, Except.pure]
  | cons c coords ih =>
    intro h
    obtain ⟨q, x, y⟩ := c
    have e : (pre ++ (q, x, y) :: coords) = (pre ++ [(q, x, y)]) ++ coords := by simp
    rw [List.map_cons, List.foldlM_cons]
    have hp : ((x : Rat), 2 * ((y : Rat) / 2)) = cx (x, y) := by
      rw [cx]; congr 1; ring
    have hq : (q : Int) ∉ ((plotted pre [] [] [] []).i2q).keys := by
      have := h.qubits
      rw [List.map_append, List.nodup_append] at this
      intro hm
      obtain ⟨e, he, h1⟩ := List.mem_map.1 hm
      obtain ⟨c', hc', rfl⟩ := List.mem_map.1 he
      refine this.2.2 c'.1 (List.mem_map_of_mem (f := Prod.fst) hc') q (by simp) ?_
      simp only at h1
      exact_mod_cast h1
    have hx : cx (x, y) ∉ (plotted pre [] [] [] []).seen_coords := by
      have := h.places
      rw [List.map_append, List.nodup_append] at this
      intro hm
      obtain ⟨c', hc', h1⟩ := List.mem_map.1 hm
      exact this.2.2 c'.2 (List.mem_map_of_mem (f := Prod.snd) hc') (x, y) (by simp) (cx_inj.1 h1)
    have e1 : (plotted pre [] [] [] []).step (coordsInstr (q, x, y)) = .ok (plotted (pre ++ [(q, x, y)]) [] [] [] []) := by
      have e2 : (plotted pre [] [] [] []).step (coordsInstr (q, x, y)) =
        ([Target.q q].foldlM (PlotState.addCoords [.lit x, .lit ((y : Rat) / 2)]) (plotted pre [] [] [] [])) := rfl
      rw [e2]
      simp only [List.foldlM_cons, List.foldlM_nil, PlotState.addCoords, hp, Target.value]
      rw [if_neg hq, if_neg hx]
      simp only [bind, Except.bind, pure, Except.pure, Except.ok.injEq]
      rw [set_fresh _ _ _ hq]
      simp [plotted, placed, linked]
    rw [e1]
    simp only [bind, Except.bind]
    rw [ih (pre ++ [(q, x, y)]) (by rw [← e]; exact h), e]

theorem lettersOf_getLast (ds : List Drawing) {full : List (List (Nat × Char) × List (Nat × Nat))} {lastL lastK}
    (h : full ++ [(lastL, lastK)] = (splitLevels ds).map fun l => (lettersOf l, linksOf l)) :
    lettersOf ((splitLevels ds).getLast?.getD []) = lastL := by
  have := congrArg List.getLast? h
  rw [List.getLast?_append, List.getLast?_map] at this
  cases hl : (splitLevels ds).getLast? with
  | none => rw [hl] at this; simp at this
  | some l =>
    rw [hl] at this
    simp only [List.getLast?_singleton, Option.some_or, Option.map_some, Option.some.injEq, Prod.mk.injEq] at this
    rw [this.1]
    rfl

/-- The levels and links that `plot_circuit` collects. -/
theorem collected (h : GoodCoords coords) {rest : List Instr} {ds : List Drawing} (hd : List.Forall₂ Draws rest ds)
    (hf : ∀ l ∈ splitLevels ds, Fits coords (lettersOf l)) :
    ∃ s, (coords.map coordsInstr ++ rest).foldlM PlotState.step {} = .ok s ∧
      s.finish.levels = (shownLevels ds).map (fun l => placed coords (lettersOf l)) ∧
      s.finish.connectors = (shownLevels ds).map (fun l => linked coords (linksOf l)) ∧
      s.finish.i2q.values = coords.map fun c => cx c.2 := by
  have e0 : ({} : PlotState) = plotted [] [] [] [] [] := rfl
  obtain ⟨l, ls, hs⟩ := List.exists_cons_of_ne_nil (splitLevels_ne ds)
  rw [hs] at hf
  obtain ⟨full, lastL, lastK, e1, e2⟩ := fold_draws h hd [] [] [] [] l ls hs (hf l List.mem_cons_self)
    (fun x hx => hf x (List.mem_cons_of_mem _ hx))
  have e1' : full ++ [(lastL, lastK)] = (splitLevels ds).map fun l => (lettersOf l, linksOf l) := by
    rw [e1, hs]; rfl
  have hdrop : full = (splitLevels ds).dropLast.map fun l => (lettersOf l, linksOf l) := by
    have := congrArg List.dropLast e1'
    rw [List.dropLast_concat] at this
    rw [this, List.map_dropLast]
  have hlast := lettersOf_getLast ds e1'
  refine ⟨plotted coords ([] ++ full.map fun e => placed coords e.1) ([] ++ full.map fun e => linked coords e.2) lastL lastK, ?_, ?_⟩
  · rw [List.foldlM_append, e0, fold_coords [] coords (by simpa using h)]
    simp only [bind, Except.bind, List.nil_append]
    exact e2
  · have hi : ∀ A B L K, (plotted coords A B L K).finish.i2q.values = coords.map fun c => cx c.2 := by
      intro A B L K
      have : (plotted coords A B L K).finish.i2q = coords.map fun c => ((c.1 : Int), cx c.2) := by
        rw [PlotState.finish]; split_ifs <;> rfl
      rw [this, PyDict.values, List.map_map]
      rfl
    refine ⟨?_, ?_, hi _ _ _ _⟩
    all_goals
      rw [PlotState.finish, shownLevels]
      simp only [hlast]
      by_cases hz : lastL = []
      · rw [if_pos hz, if_pos (by subst hz; rfl)]
        simp only [plotted, List.nil_append, hdrop, List.map_map]
        rfl
      · have : (plotted coords ([] ++ full.map fun e => placed coords e.1) ([] ++ full.map fun e => linked coords e.2) lastL lastK).cur_level.isEmpty
            = false := by
          cases lastL with
          | nil => exact absurd rfl hz
          | cons a l => rfl
        rw [if_neg hz, this, if_neg (by simp)]
        simp only [plotted, List.nil_append]
        first
          | (have := congrArg (List.map fun e : List (Nat × Char) × List (Nat × Nat) => placed coords e.1) e1'
             rw [List.map_append, List.map_map] at this
             exact this)
          | (have := congrArg (List.map fun e : List (Nat × Char) × List (Nat × Nat) => linked coords e.2) e1'
             rw [List.map_append, List.map_map] at this
             exact this)

end Honeycomb
