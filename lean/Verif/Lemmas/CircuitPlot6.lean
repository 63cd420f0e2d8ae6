import Verif.Lemmas.CircuitPlot5
import Verif.Lemmas.Gates
import Verif.Lemmas.Steps
import Verif.Props.CircuitPlot
import Verif.Spec.ExperimentPlot
import Verif.Lemmas.Damage

/-!
# Diagrams of the generated circuits: lemmas
-/

namespace Honeycomb

theorem exists_drawings {l : List Instr} (h : ∀ i ∈ l, ∃ d, Draws i d) : ∃ ds, List.Forall₂ Draws l ds := by
  induction l with
  | nil => exact ⟨[], .nil⟩
  | cons i l ih =>
    obtain ⟨d, hd⟩ := h i (by simp)
    obtain ⟨ds, hds⟩ := ih fun j hj => h j (by simp [hj])
    exact ⟨d :: ds, .cons hd hds⟩

theorem Draws.tick_iff {i : Instr} {d : Drawing} (h : Draws i d) : i.gate = .TICK ↔ d = .tick := by
  cases h with
  | single h => constructor
                · rintro rfl; simp [letter1] at h
                · intro h; cases h
  | pairs h => constructor
               · rintro rfl; simp [letter2] at h
               · intro h; cases h
  | products => simp
  | tick => simp
  | nothing h => constructor
                 · rintro rfl; simp at h
                 · intro h; cases h

theorem timeSteps_cons {i : Instr} (h : i.gate ≠ .TICK) {l : List Instr} {s ss} (e : timeSteps l = s :: ss) :
    timeSteps (i :: l) = (i :: s) :: ss := by
  simp only [timeSteps, if_neg h, e]

theorem timeSteps_ne (l : List Instr) : ∃ s ss, timeSteps l = s :: ss := by
  induction l with
  | nil => exact ⟨_, _, rfl⟩
  | cons i l ih =>
    obtain ⟨s, ss, e⟩ := ih
    by_cases h : i.gate = .TICK
    · exact ⟨[], timeSteps l, by simp only [timeSteps, if_pos h]⟩
    · exact ⟨_, _, timeSteps_cons h e⟩

/-- The levels of a diagram are the time steps. -/
theorem levels_steps {l : List Instr} {ds : List Drawing} (h : List.Forall₂ Draws l ds) :
    List.Forall₂ (List.Forall₂ Draws) (timeSteps l) (splitLevels ds) := by
  induction h with
  | nil => exact .cons .nil .nil
  | @cons i d l ds hid _ ih =>
    by_cases ht : i.gate = .TICK
    · rw [hid.tick_iff.1 ht]
      simp only [timeSteps, if_pos ht, splitLevels]
      exact .cons .nil ih
    · have hd : d ≠ .tick := fun e => ht (hid.tick_iff.2 e)
      obtain ⟨s, ss, e⟩ := timeSteps_ne l
      rw [e] at ih
      cases hl : splitLevels ds with
      | nil => rw [hl] at ih; cases ih
      | cons l' ls =>
        rw [hl] at ih
        rw [timeSteps_cons ht e, splitLevels_cons hd hl]
        cases ih with
        | cons a b => exact .cons (.cons hid a) b

theorem letters_acted {i : Instr} {d : Drawing} (h : Draws i d) : (d.letters.map Prod.fst).Sublist (actedOn [i]) := by
  cases h with
  | @single g c h qs args =>
    have hk : kind g ≠ .annotation := by intro hk; cases g <;> simp [letter1, kind] at h hk
    simp [Drawing.letters, actedOn, hk, Instr.qubits, Target.qubit?, Function.comp_def]
  | @pairs g c1 c2 h qs args =>
    have hk : kind g ≠ .annotation := by intro hk; cases g <;> simp [letter2, kind] at h hk
    have : ∀ qs : List (Nat × Nat), (qs.flatMap fun q => [Target.q q.1, .q q.2]).filterMap Target.qubit? = qs.flatMap fun q => [q.1, q.2] := by
      intro qs
      induction qs with
      | nil => rfl
      | cons q qs ih => rw [List.flatMap_cons, List.filterMap_append, ih, List.flatMap_cons]; rfl
    have e : (qs.flatMap fun q => [(q.1, c1), (q.2, c2)]).map Prod.fst = qs.flatMap fun q => [q.1, q.2] := by
      simp [List.map_flatMap]
    simp only [Drawing.letters, actedOn, List.filter_cons, hk, ne_eq, not_false_eq_true, decide_true, if_true, List.filter_nil, List.flatMap_cons,
      List.flatMap_nil, List.append_nil, Instr.qubits, this, e]
    exact List.Sublist.refl _
  | products ps args =>
    have : ∀ ps : List ((Basis × Nat) × (Basis × Nat)), (ps.flatMap fun p => [Target.pauli p.1.1 p.1.2, .comb, .pauli p.2.1 p.2.2]).filterMap
        Target.qubit? = ps.flatMap fun p => [p.1.2, p.2.2] := by
      intro ps
      induction ps with
      | nil => rfl
      | cons q qs ih => rw [List.flatMap_cons, List.filterMap_append, ih, List.flatMap_cons]; rfl
    have e : (ps.flatMap fun p => [(p.1.2, letterOf p.1.1), (p.2.2, letterOf p.2.1)]).map Prod.fst = ps.flatMap fun p => [p.1.2, p.2.2] := by
      simp [List.map_flatMap]
    simp only [Drawing.letters, actedOn, List.filter_cons, kind, ne_eq, reduceCtorEq, not_false_eq_true, decide_true, if_true, List.filter_nil,
      List.flatMap_cons, List.flatMap_nil, List.append_nil, Instr.qubits, this, e]
    exact List.Sublist.refl _
  | tick => exact List.nil_sublist _
  | nothing => exact List.nil_sublist _

theorem lettersOf_acted {s : List Instr} {l : List Drawing} (h : List.Forall₂ Draws s l) :
    ((lettersOf l).map Prod.fst).Sublist (actedOn s) := by
  induction h with
  | nil => exact List.nil_sublist _
  | @cons i d s l hid _ ih =>
    rw [show actedOn (i :: s) = actedOn [i] ++ actedOn s from actedOn_append [i] s, lettersOf, List.flatMap_cons, List.map_append]
    exact (letters_acted hid).append ih

theorem actedOn_sublist {a b : List Instr} (h : a.Sublist b) : (actedOn a).Sublist (actedOn b) := by
  induction h with
  | slnil => exact List.Sublist.refl _
  | @cons l1 l2 i _ ih =>
    rw [show actedOn (i :: l2) = actedOn [i] ++ actedOn l2 from actedOn_append [i] l2]
    exact ih.trans (List.sublist_append_right _ _)
  | @cons_cons l1 l2 i _ ih =>
    rw [show actedOn (i :: l2) = actedOn [i] ++ actedOn l2 from actedOn_append [i] l2,
      show actedOn (i :: l1) = actedOn [i] ++ actedOn l1 from actedOn_append [i] l1]
    exact (List.Sublist.refl _).append ih

/-! ## Time steps of a part of a circuit -/

theorem steps_prefix (b c : List Instr) : ∃ s ss t ts, timeSteps b = s :: ss ∧ timeSteps (b ++ c) = t :: ts ∧ s.Sublist t ∧
    ∀ s' ∈ ss, ∃ t' ∈ ts, s'.Sublist t' := by
  induction b with
  | nil =>
    obtain ⟨t, ts, e⟩ := timeSteps_ne c
    exact ⟨[], [], t, ts, rfl, e, List.nil_sublist _, by simp⟩
  | cons i b ih =>
    obtain ⟨s, ss, t, ts, e1, e2, h1, h2⟩ := ih
    by_cases h : i.gate = .TICK
    · refine ⟨[], s :: ss, [], t :: ts, by simp only [timeSteps, if_pos h, e1], by simp only [List.cons_append, timeSteps, if_pos h, e2],
        List.Sublist.refl _, ?_⟩
      intro s' hs'
      rcases List.mem_cons.1 hs' with rfl | hs'
      · exact ⟨t, by simp, h1⟩
      · obtain ⟨t', ht', h3⟩ := h2 s' hs'
        exact ⟨t', by simp [ht'], h3⟩
    · exact ⟨i :: s, ss, i :: t, ts, timeSteps_cons h e1, timeSteps_cons (l := b ++ c) h e2, h1.cons₂ i, h2⟩

theorem steps_suffix (a b : List Instr) : ∀ s ∈ timeSteps b, ∃ t ∈ timeSteps (a ++ b), s.Sublist t := by
  induction a with
  | nil => exact fun s hs => ⟨s, hs, List.Sublist.refl _⟩
  | cons i a ih =>
    intro s hs
    obtain ⟨t, ht, h⟩ := ih s hs
    by_cases hi : i.gate = .TICK
    · exact ⟨t, by simp only [List.cons_append, timeSteps, if_pos hi, List.mem_cons, ht, or_true], h⟩
    · obtain ⟨u, us, e⟩ := timeSteps_ne (a ++ b)
      rw [List.cons_append, timeSteps_cons hi e]
      rw [e] at ht
      rcases List.mem_cons.1 ht with rfl | ht
      · exact ⟨i :: t, by simp, h.trans (List.sublist_cons_self _ _)⟩
      · exact ⟨t, by simp [ht], h⟩

theorem steps_infix (a b c : List Instr) : ∀ s ∈ timeSteps b, ∃ t ∈ timeSteps (a ++ b ++ c), s.Sublist t := by
  intro s hs
  have h1 : ∃ t ∈ timeSteps (b ++ c), s.Sublist t := by
    obtain ⟨s0, ss, t, ts, e1, e2, h1, h2⟩ := steps_prefix b c
    rw [e1] at hs
    rw [e2]
    rcases List.mem_cons.1 hs with rfl | hs
    · exact ⟨t, by simp, h1⟩
    · obtain ⟨t', ht', h3⟩ := h2 s hs
      exact ⟨t', by simp [ht'], h3⟩
  obtain ⟨t, ht, h⟩ := h1
  obtain ⟨u, hu, h'⟩ := steps_suffix a (b ++ c) t ht
  exact ⟨u, by rwa [List.append_assoc], h.trans h'⟩

/-! ## Ticks and levels -/

theorem levels_of_tick {ds : List Drawing} (h : Drawing.tick ∈ ds) : 2 ≤ (splitLevels ds).length := by
  induction ds with
  | nil => simp at h
  | cons d ds ih =>
    obtain ⟨l, ls, e⟩ := List.exists_cons_of_ne_nil (splitLevels_ne ds)
    by_cases hd : d = .tick
    · subst hd
      simp [splitLevels, e]
    · rcases List.mem_cons.1 h with h | h
      · exact absurd h.symm hd
      · have := ih h
        rw [splitLevels_cons hd e]
        rw [e] at this
        simpa using this

theorem shown_of_tick {ds : List Drawing} (h : Drawing.tick ∈ ds) : shownLevels ds ≠ [] := by
  have h2 := levels_of_tick h
  intro e
  have : (shownLevels ds).length = 0 := by rw [e]; rfl
  unfold shownLevels at this
  dsimp only at this
  split_ifs at this
  · rw [List.length_dropLast] at this; omega
  · omega

theorem tick_drawn {l : List Instr} {ds : List Drawing} (h : List.Forall₂ Draws l ds) (ht : Instr.tick ∈ l) : Drawing.tick ∈ ds := by
  induction h with
  | nil => simp at ht
  | @cons i d l ds hid _ ih =>
    rcases List.mem_cons.1 ht with ht | ht
    · subst ht
      rw [hid.tick_iff.1 rfl]
      simp
    · simp [ih ht]

namespace HoneycombLayout
variable {lay : HoneycombLayout}

/-! ## Coordinates -/

theorem edge_place (hv : lay.Valid) {k : Int} {e : Edge} (he : e ∈ lay.round_edges k) :
    (0 ≤ e.center.x ∧ e.center.x % 2 = 0 ∧ 0 ≤ e.center.y) ∧
      ((e.left.x = e.center.x ∧ e.right.x = e.center.x) ∨ (e.left.y = e.center.y ∧ e.right.y = e.center.y)) := by
  obtain ⟨h, t, hx, _, rfl⟩ := (mem_round_edges hv).1 he
  have ho := onT_shp (Valid.tw_pos hv) (Valid.th_pos hv) h t.c
  obtain ⟨_, g1, g2, g3⟩ := hx
  obtain ⟨i, j, e1, e2⟩ := shp_spec lay.tile_width lay.tile_height h t.c
  refine ⟨⟨ho.1, ?_, ho.2.2.1⟩, ?_⟩
  · simp only [edgeT]
    rw [e1]
    cases t <;> simp only [ETy.c] <;> omega
  · cases t
    · exact Or.inl ⟨rfl, rfl⟩
    · exact Or.inl ⟨rfl, rfl⟩
    · exact Or.inr ⟨rfl, rfl⟩

theorem used_place (hv : lay.Valid) {q : Pt} (hq : q ∈ lay.used_qubit_coords) : 0 ≤ q.x ∧ q.x % 2 = 0 ∧ 0 ≤ q.y := by
  have hd : ∀ {q}, q ∈ lay.data_qubit_coords → 0 ≤ q.x ∧ q.x % 2 = 0 ∧ 0 ≤ q.y := by
    intro q hq
    obtain ⟨⟨h1, h2, h3, h4⟩, h5, h6⟩ := (mem_data_qubit_coords hv).1 hq
    exact ⟨h1, by omega, h3⟩
  rw [used_eq hv] at hq
  split_ifs at hq
  · exact hd hq
  · rcases List.mem_append.1 hq with hq | hq
    · exact hd hq
    · simp only [measure_qubit_coords, sortedComplex, mem_sorted, mem_pySet, List.mem_map] at hq
      obtain ⟨e, he, rfl⟩ := hq
      simp only [all_edges, List.mem_append] at he
      rcases he with (he | he) | he <;> exact (edge_place hv he).1

theorem coords_instrs (hv : lay.Valid) : lay.diagramCoords.map coordsInstr = lay.qubitCoordOps := by
  rw [diagramCoords, qubitCoordOps, List.map_map]
  refine List.map_congr_left fun q hq => ?_
  obtain ⟨h1, h2, h3⟩ := used_place hv hq
  have e1 : ((q.x / 2).toNat : Int) = q.x / 2 := Int.toNat_of_nonneg (by omega)
  have e2 : ((q.y).toNat : Int) = q.y := Int.toNat_of_nonneg h3
  have e3 : (((q.x / 2).toNat : Nat) : Rat) = crd q.x := by
    rw [← Int.cast_natCast, e1, crd]
    have : (q.x : Rat) = ((2 * (q.x / 2) : Int) : Rat) := by congr 1; omega
    rw [this]
    push_cast
    ring
  have e4 : ((q.y.toNat : Nat) : Rat) = (q.y : Rat) := by rw [← Int.cast_natCast, e2]
  simp only [Function.comp, coordsInstr, e3, e4, crd]

theorem coords_fst : lay.diagramCoords.map Prod.fst = lay.used_qubit_indices := by
  simp [diagramCoords, used_qubit_indices, Function.comp_def]

theorem nodup_used (hv : lay.Valid) : lay.used_qubit_coords.Nodup := by
  have : (lay.used_qubit_coords.map lay.idx).Nodup := (covers_used hv).1
  exact List.Nodup.of_map _ this

theorem coords_snd_nodup (hv : lay.Valid) : (lay.diagramCoords.map Prod.snd).Nodup := by
  rw [diagramCoords, List.map_map]
  refine List.Nodup.map_on (fun a ha b hb hab => ?_) (nodup_used hv)
  have h1 := used_place hv ha
  have h2 := used_place hv hb
  simp only [Function.comp, Prod.mk.injEq] at hab
  ext <;> omega

theorem coords_ne (hv : lay.Valid) : lay.diagramCoords ≠ [] := by
  have hw := Valid.tw_pos hv
  have hh := Valid.th_pos hv
  have hm : (⟨2, 2⟩ : Pt) ∈ lay.data_qubit_coords := (mem_data_qubit_coords hv).2
    ⟨⟨by simp, by simp; omega, by simp, by simp; omega⟩, by simp, by simp⟩
  have hu : (⟨2, 2⟩ : Pt) ∈ lay.used_qubit_coords := by
    rw [used_eq hv]
    split_ifs
    · exact hm
    · exact List.mem_append_left _ hm
  intro h
  simp only [diagramCoords, List.map_eq_nil_iff] at h
  rw [h] at hu
  simp at hu

theorem covers_declared (hv : lay.Valid) {l : List Nat} (h : lay.Covers lay.usedClasses l) {i : Nat} (hi : i ∈ l) : i ∈ lay.used_qubit_indices := by
  obtain ⟨q, hq, rfl, hc⟩ := h.2 i hi
  refine List.mem_map_of_mem ?_
  rw [used_eq hv]
  split_ifs with he
  · rw [usedClasses, if_pos he] at hc
    by_contra hd
    rw [ptClass, if_neg hd] at hc
    split_ifs at hc <;> simp at hc
  · exact hq

theorem Covers.sublist {cs : List Nat} {a b : List Nat} (h : lay.Covers cs b) (hs : a.Sublist b) : lay.Covers cs a :=
  ⟨h.1.sublist hs, fun i hi => h.2 i (hs.subset hi)⟩

theorem StepsFree.infix {a b c : List Instr} (h : lay.StepsFree (a ++ b ++ c)) : lay.StepsFree b := by
  intro s hs
  obtain ⟨t, ht, hst⟩ := steps_infix a b c s hs
  exact (h t ht).sublist (actedOn_sublist hst)

theorem fits_of_free (hv : lay.Valid) {l : List Instr} {ds : List Drawing} (hd : List.Forall₂ Draws l ds) (h : lay.StepsFree l) :
    ∀ level ∈ splitLevels ds, ((lettersOf level).map Prod.fst).Nodup ∧ ∀ e ∈ lettersOf level, e.1 ∈ lay.diagramCoords.map Prod.fst := by
  have h2 := levels_steps hd
  intro level hl
  obtain ⟨n, hn, rfl⟩ := List.getElem_of_mem hl
  have hlen := h2.length_eq
  have hs := (List.forall₂_iff_get.1 h2).2 n (by omega) hn
  have hsub := lettersOf_acted hs
  have hc := h _ (List.getElem_mem (l := timeSteps l) (n := n) (by omega))
  refine ⟨hc.1.sublist hsub, fun e he => ?_⟩
  rw [coords_fst]
  exact covers_declared hv hc (hsub.subset (List.mem_map_of_mem he))

theorem coords_of_used {q : Pt} (h : q ∈ lay.used_qubit_coords) : (lay.idx q, (q.x / 2).toNat, q.y.toNat) ∈ lay.diagramCoords :=
  List.mem_map_of_mem h

theorem used_of_data (hv : lay.Valid) {q : Pt} (h : q ∈ lay.data_qubit_coords) : q ∈ lay.used_qubit_coords := by
  rw [used_eq hv]
  split_ifs
  · exact h
  · exact List.mem_append_left _ h

theorem all_of_round {k : Int} {e : Edge} (he : e ∈ lay.round_edges k) : e ∈ lay.all_edges := by
  have : lay.round_edges k = lay.round_edges (k % 3) := round_edges_congr lay (by omega)
  rw [this] at he
  have h3 : k % 3 = 0 ∨ k % 3 = 1 ∨ k % 3 = 2 := by omega
  simp only [all_edges, List.mem_append]
  rcases h3 with h | h | h <;> rw [h] at he <;> tauto

theorem straight_links (hv : lay.Valid) {i : Instr} (hg : lay.GoodI i) {d : Drawing} (hd : Draws i d) {a b : Nat} (h : (a, b) ∈ d.links) :
    ∃ p q, (a, p) ∈ lay.diagramCoords ∧ (b, q) ∈ lay.diagramCoords ∧ (p.1 = q.1 ∨ p.2 = q.2) := by
  cases hd with
  | single => simp [Drawing.links] at h
  | @pairs g c1 c2 hl qs args =>
    have hk : kind g = .clifford2 := by cases g <;> simp [letter2, kind] at hl ⊢
    obtain ⟨he, hall⟩ := hg.link hk
    have e : pairs (Instr.qubits ⟨g, qs.flatMap fun q => [.q q.1, .q q.2], args⟩) = qs := by
      have : ∀ qs : List (Nat × Nat), (qs.flatMap fun q => [Target.q q.1, .q q.2]).filterMap Target.qubit? = qs.flatMap fun q => [q.1, q.2] := by
        intro qs
        induction qs with
        | nil => rfl
        | cons q qs ih => rw [List.flatMap_cons, List.filterMap_append, ih, List.flatMap_cons]; rfl
      rw [Instr.qubits, this, pairs_targets]
      simp
    rw [e] at hall
    obtain ⟨k, edge, hm, h1, h2⟩ := hall (a, b) h
    simp only at h1 h2
    have hc : edge.center ∈ lay.used_qubit_coords := by
      rw [used_eq hv, if_neg (by simp [he])]
      exact center_mem_order (all_of_round hm)
    obtain ⟨hl', hr'⟩ := ends_data hv (all_of_round hm)
    have hp := (edge_place hv hm).2
    rcases h1 with h1 | h1
    · refine ⟨_, _, h1 ▸ coords_of_used (used_of_data hv hl'), h2 ▸ coords_of_used hc, ?_⟩
      rcases hp with hp | hp
      · left; rw [hp.1]
      · right; rw [hp.1]
    · refine ⟨_, _, h1 ▸ coords_of_used (used_of_data hv hr'), h2 ▸ coords_of_used hc, ?_⟩
      rcases hp with hp | hp
      · left; rw [hp.2]
      · right; rw [hp.2]
  | products ps args =>
    obtain ⟨he, hall⟩ := hg.bond rfl
    have e : pairs (Instr.qubits ⟨.MPP, ps.flatMap fun p => [.pauli p.1.1 p.1.2, .comb, .pauli p.2.1 p.2.2], args⟩) = ps.map fun p => (p.1.2, p.2.2) := by
      have : ∀ ps : List ((Basis × Nat) × (Basis × Nat)), (ps.flatMap fun p => [Target.pauli p.1.1 p.1.2, .comb, .pauli p.2.1 p.2.2]).filterMap
          Target.qubit? = ps.flatMap fun p => [p.1.2, p.2.2] := by
        intro ps
        induction ps with
        | nil => rfl
        | cons q qs ih => rw [List.flatMap_cons, List.filterMap_append, ih, List.flatMap_cons]; rfl
      rw [Instr.qubits, this, pairs_targets]
    rw [e] at hall
    obtain ⟨k, edge, hm, h1⟩ := hall (a, b) h
    simp only [Prod.mk.injEq] at h1
    obtain ⟨hl', hr'⟩ := ends_data hv (all_of_round hm)
    refine ⟨_, _, h1.1 ▸ coords_of_used (used_of_data hv hl'), h1.2 ▸ coords_of_used (used_of_data hv hr'), ?_⟩
    rcases (edge_place hv hm).2 with hp | hp
    · left; rw [hp.1, hp.2]
    · right; rw [hp.1, hp.2]
  | tick => simp [Drawing.links] at h
  | nothing => simp [Drawing.links] at h

theorem straight_of_good (hv : lay.Valid) {l : List Instr} {ds : List Drawing} (hd : List.Forall₂ Draws l ds) (hg : ∀ i ∈ l, lay.GoodI i) :
    Straight lay.diagramCoords ds := by
  have hall : ∀ d ∈ ds, ∃ i ∈ l, Draws i d := by
    clear hg
    induction hd with
    | nil => simp
    | @cons i d l ds hid _ ih =>
      intro d' hd'
      rcases List.mem_cons.1 hd' with rfl | hd'
      · exact ⟨i, by simp, hid⟩
      · obtain ⟨j, hj, h⟩ := ih d' hd'
        exact ⟨j, by simp [hj], h⟩
  have hmem : ∀ level ∈ splitLevels ds, ∀ d ∈ level, d ∈ ds := by
    clear hd hg hall
    induction ds with
    | nil => simp [splitLevels]
    | cons d ds ih =>
      obtain ⟨l', ls, e⟩ := List.exists_cons_of_ne_nil (splitLevels_ne ds)
      rw [e] at ih
      intro level hl x hx
      by_cases ht : d = .tick
      · subst ht
        simp only [splitLevels, e] at hl
        rcases List.mem_cons.1 hl with rfl | hl
        · simp at hx
        · exact List.mem_cons_of_mem _ (ih level hl x hx)
      · rw [splitLevels_cons ht e] at hl
        rcases List.mem_cons.1 hl with rfl | hl
        · rcases List.mem_cons.1 hx with rfl | hx
          · simp
          · exact List.mem_cons_of_mem _ (ih l' (by simp) x hx)
        · exact List.mem_cons_of_mem _ (ih level (by simp [hl]) x hx)
  intro level hl a b hab
  obtain ⟨d, hdl, hab⟩ := List.mem_flatMap.1 hab
  obtain ⟨i, hi, hid⟩ := hall d (hmem level hl d hdl)
  exact straight_links hv (hg i hi) hid hab

end HoneycombLayout
end Honeycomb
