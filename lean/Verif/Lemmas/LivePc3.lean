import Verif.Lemmas.PlainAncilla
import Verif.Lemmas.Live

/-!
# Ancillas are measured soon

In the style "PC3" only a bounded number of operations acts on an ancilla until it is measured.
-/

namespace Honeycomb
variable {c w w' : Nat} {p q : Instr → Prop}

open Classical in
/-- How many operations there are of the kind `q`. -/
noncomputable def howMany (q : Instr → Prop) (l : List Instr) : Nat := l.countP fun i => q i

theorem howMany_append (a b : List Instr) : howMany q (a ++ b) = howMany q a + howMany q b := by
  rw [howMany, howMany, howMany, List.countP_append]

theorem howMany_le (l : List Instr) : howMany q l ≤ l.length := List.countP_le_length

theorem howMany_zero {l : List Instr} (h : ∀ i ∈ l, ¬ q i) : howMany q l = 0 := List.countP_eq_zero.2 fun i hi => by simpa using h i hi

theorem upTo_append (a b : List Instr) : upTo p q (a ++ b) ≤ howMany q a + upTo p q b ∧ ((∃ i ∈ a, p i) → upTo p q (a ++ b) ≤ howMany q a) := by
  classical
  induction a with
  | nil => exact ⟨by simp [howMany], by rintro ⟨i, hi, -⟩; cases hi⟩
  | cons i a ih =>
    have hw : howMany q (i :: a) = howMany q a + if q i then 1 else 0 := by
      rw [howMany, List.countP_cons, ← howMany]
      by_cases h : q i <;> simp [h]
    rw [List.cons_append, upTo, hw]
    by_cases h : p i
    · rw [if_pos h]
      exact ⟨by omega, fun _ => by omega⟩
    · rw [if_neg h]
      have hi : ((∃ j ∈ i :: a, p j) → ∃ j ∈ a, p j) := by
        rintro ⟨j, hj, h1⟩
        rcases List.mem_cons.1 hj with rfl | hj
        · exact absurd h1 h
        · exact ⟨j, hj, h1⟩
      by_cases hq : q i
      · rw [if_pos hq]
        exact ⟨by omega, fun h => by have := ih.2 (hi h); omega⟩
      · rw [if_neg hq]
        exact ⟨by omega, fun h => by have := ih.2 (hi h); omega⟩

theorem upTo_howMany (l : List Instr) : upTo p q l ≤ howMany q l := by
  have := (upTo_append (p := p) (q := q) l []).1
  rw [List.append_nil] at this
  simpa [upTo] using this

theorem howMany_suffix {s l : List Instr} (h : s <:+ l) : howMany q s ≤ howMany q l := by
  obtain ⟨p, rfl⟩ := h
  rw [howMany_append]
  omega

/-- Something before. -/
theorem upTo_before {a b : List Instr} {A : Nat} (hb : ∀ s, s <:+ b → upTo p q s ≤ A) (ha : howMany q a ≤ w) : ∀ s, s <:+ a ++ b → upTo p q s ≤ w + A := by
  intro s hs
  rcases suffix_cases hs with h | ⟨s0, h0, rfl⟩
  · have := hb s h
    omega
  · have h1 := (upTo_append (p := p) (q := q) s0 b).1
    have h2 := howMany_suffix (q := q) h0
    have h3 := hb b (List.suffix_refl b)
    omega

/-- A sequence of blocks, every three of which contain an operation of the kind `p`. -/
theorem upTo_blocks {f : Nat → List Instr} (hw : ∀ k, howMany q (f k) ≤ w) (hr : ∀ k, ∃ i ∈ f k ++ (f (k + 1) ++ f (k + 2)), p i) {t : List Instr} (ht : howMany q t ≤ w') :
    ∀ m k, upTo p q ((List.range m).flatMap (fun i => f (k + i)) ++ t) ≤ 3 * w + w'
  | 0, k => by
    have := upTo_howMany (p := p) (q := q) t
    simp only [List.range_zero, List.flatMap_nil, List.nil_append]
    omega
  | 1, k => by
    have h1 := upTo_howMany (p := p) (q := q) t
    rw [blocks_succ, List.append_assoc]
    have h2 := (upTo_append (p := p) (q := q) (f k) ((List.range 0).flatMap (fun i => f (k + 1 + i)) ++ t)).1
    have := hw k
    simp only [List.range_zero, List.flatMap_nil, List.nil_append] at h2 ⊢
    omega
  | 2, k => by
    have h1 := upTo_howMany (p := p) (q := q) t
    rw [blocks_succ, blocks_succ]
    simp only [List.range_zero, List.flatMap_nil, List.append_nil]
    have h2 := (upTo_append (p := p) (q := q) (f k ++ f (k + 1)) t).1
    rw [howMany_append] at h2
    have := hw k
    have := hw (k + 1)
    omega
  | m + 3, k => by
    rw [blocks_succ, blocks_succ, blocks_succ, ← List.append_assoc (f (k + 1)), ← List.append_assoc (f k), List.append_assoc]
    refine ((upTo_append _ _).2 ?_).trans ?_
    · exact hr k
    · rw [howMany_append, howMany_append]
      have := hw k
      have := hw (k + 1)
      have := hw (k + 1 + 1)
      omega

theorem upTo_suffix {f : Nat → List Instr} (hw : ∀ k, howMany q (f k) ≤ w) (hr : ∀ k, ∃ i ∈ f k ++ (f (k + 1) ++ f (k + 2)), p i) {t : List Instr} (ht : howMany q t ≤ w') :
    ∀ m k s, s <:+ (List.range m).flatMap (fun i => f (k + i)) ++ t → upTo p q s ≤ 4 * w + w'
  | 0, k, s, hs => by
    simp only [List.range_zero, List.flatMap_nil, List.nil_append] at hs
    have h1 := upTo_howMany (p := p) (q := q) s
    have h2 := howMany_suffix (q := q) hs
    omega
  | m + 1, k, s, hs => by
    rw [blocks_succ, List.append_assoc] at hs
    rcases suffix_cases hs with h | ⟨s0, h0, rfl⟩
    · exact upTo_suffix hw hr ht m (k + 1) s h
    · have h1 := (upTo_append (p := p) (q := q) s0 ((List.range m).flatMap (fun i => f (k + 1 + i)) ++ t)).1
      have h2 := howMany_suffix (q := q) h0
      have h3 := upTo_blocks hw hr ht m (k + 1)
      have := hw k
      omega

namespace HoneycombLayout
variable {lay : HoneycombLayout} {N : Nat} {e : Edge}

theorem measures_M (qs : List Nat) : (Instr.on .M qs).actions = qs.map fun x => .measure [(.Z, x)] := by
  have : (Instr.on .M qs).actions = (Instr.on .M qs).measures.map .measure := rfl
  rw [this]
  have : (Instr.on .M qs).measures = (Instr.on .M qs).qubits.map fun x => [(.Z, x)] := rfl
  rw [this, qubits_on, List.map_map]
  rfl

theorem reading_M (qs : List Nat) : Reading c (Instr.on .M qs).actions := fun a ha hon => by
  rw [measures_M] at ha
  obtain ⟨x, -, rfl⟩ := List.mem_map.1 ha
  obtain ⟨y, hy, h⟩ := hon
  obtain rfl := List.mem_singleton.1 hy
  rw [h]

theorem renews_R (qs : List Nat) : Renews c (Instr.on .R qs).actions := fun a ha hon => by
  have : (Instr.on .R qs).actions = (Instr.on .R qs).qubits.map (.reset .Z) := rfl
  rw [this, qubits_on] at ha
  obtain ⟨x, -, rfl⟩ := List.mem_map.1 ha
  exact ⟨.Z, by rw [show c = x from hon]⟩

theorem controlling_pairs (hv : lay.Valid) (he : e ∈ lay.all_edges) (b : Basis) {k : Int} {f : Edge → Pt} (hf : ∀ e ∈ lay.round_edges k, f e ∈ lay.data_qubit_coords) :
    Controlling (lay.idx e.center) (Instr.on (basisCX b) ((lay.round_edges k).flatMap fun e => [lay.idx (f e), lay.idx e.center])).actions := fun a ha hon => by
  have hx : ∃ P, (Instr.on (basisCX b) ((lay.round_edges k).flatMap fun e => [lay.idx (f e), lay.idx e.center])).actions =
      (pairs (Instr.on (basisCX b) ((lay.round_edges k).flatMap fun e => [lay.idx (f e), lay.idx e.center])).qubits).map fun x => .control P .X x.1 x.2 := by
    cases b
    exacts [⟨.X, rfl⟩, ⟨.Y, rfl⟩, ⟨.Z, rfl⟩]
  obtain ⟨P, hx⟩ := hx
  rw [hx, qubits_on, pairs_targets] at ha
  obtain ⟨x, hx, rfl⟩ := List.mem_map.1 ha
  obtain ⟨e', he', rfl⟩ := List.mem_map.1 hx
  have hne := center_ne_data hv he (hf e' he')
  rcases (show lay.idx e.center = lay.idx (f e') ∨ lay.idx e.center = lay.idx e'.center from hon) with h | h
  · exact absurd h hne
  · exact ⟨P, _, fun h => hne h.symm, by rw [h]⟩

theorem still_data (hv : lay.Valid) (he : e ∈ lay.all_edges) {i : Instr} (h : ∀ a ∈ i.actions, ∀ q, a.On q → q ∈ lay.data_qubit_indices) : ¬ ActsOn (lay.idx e.center) i := by
  rintro ⟨a, ha, hon⟩
  obtain ⟨q, hq, h⟩ := List.mem_map.1 (h a ha _ hon)
  exact center_ne_data hv he hq h.symm

theorem still_basisChange (hv : lay.Valid) (he : e ∈ lay.all_edges) {b : Basis} {i : Instr} (h : i ∈ lay.basisChange b) : ¬ ActsOn (lay.idx e.center) i := by
  rw [basisChange] at h
  split_ifs at h with hb
  · rcases List.mem_cons.1 h with rfl | h
    · refine still_data hv he fun a ha q hon => ?_
      have hx : ∃ f, (Instr.on (toZGate b) lay.data_qubit_indices).actions = (Instr.on (toZGate b) lay.data_qubit_indices).qubits.map (.clifford1 f) := by
        cases b
        exacts [⟨_, rfl⟩, ⟨_, rfl⟩, absurd rfl hb]
      obtain ⟨f, hx⟩ := hx
      rw [hx, qubits_on] at ha
      obtain ⟨x, hx, rfl⟩ := List.mem_map.1 ha
      rw [show q = x from hon]
      exact hx
    · obtain rfl := List.mem_singleton.1 h
      rintro ⟨a, ha, -⟩
      cases ha
  · cases h

theorem still_final (hv : lay.Valid) (he : e ∈ lay.all_edges) : ¬ ActsOn (lay.idx e.center) (.on .M lay.data_qubit_indices) :=
  still_data hv he fun a ha q hon => by
    rw [measures_M] at ha
    obtain ⟨x, hx, rfl⟩ := List.mem_map.1 ha
    obtain ⟨y, hy, h⟩ := hon
    obtain rfl := List.mem_singleton.1 hy
    rw [h]
    exact hx

theorem still_mark {i : Instr} (h : i.actions = []) : ¬ ActsOn c i := by
  rintro ⟨a, ha, -⟩
  rw [h] at ha
  cases ha

theorem still_reading {i : Instr} (h : ¬ ActsOn c i) : Reading c i.actions := fun a ha hon => absurd ⟨a, ha, hon⟩ h

theorem still_renews {i : Instr} (h : ¬ ActsOn c i) : Renews c i.actions := fun a ha hon => absurd ⟨a, ha, hon⟩ h

theorem ann_still {k : Nat} {i : Instr} (h : i ∈ lay.emitAnn k) : ¬ ActsOn c i :=
  still_mark (List.flatMap_eq_nil_iff.1 (actions_nil_of_marks (emitAnn_marks (lay := lay) k)) i h)

theorem emitMD_reading (hE : lay.isEM3 = false) {k : Nat} {i : Instr} (h : i ∈ lay.emitMD k) : Reading c i.actions := by
  rw [emitMD, emitMeas, hE] at h
  rcases List.mem_append.1 h with h | h
  · obtain rfl := List.mem_singleton.1 h
    exact reading_M _
  · exact still_reading (ann_still h)

theorem pc3_parts (hv : lay.Valid) (he : e ∈ lay.all_edges) {N k : Nat} {i : Instr} (h : i ∈ lay.pc3Emit N k) :
    Controlling (lay.idx e.center) i.actions ∨ (2 ≤ k ∧ i ∈ lay.emitMD (k - 2)) ∨ (k < 2 ∧ Renews (lay.idx e.center) i.actions) := by
  rw [pc3Emit] at h
  rcases List.mem_append.1 h with h | h
  · rcases List.mem_append.1 h with h | h
    · rcases List.mem_append.1 h with h | h
      · split_ifs at h
        · obtain rfl := List.mem_singleton.1 h
          exact .inl (controlling_pairs hv he _ fun e he => (ends_data hv (round_edges_subset_all he)).1)
        · cases h
      · split_ifs at h
        · obtain rfl := List.mem_singleton.1 h
          exact .inl (controlling_pairs hv he _ fun e he => (ends_data hv (round_edges_subset_all he)).2)
        · cases h
    · split_ifs at h with hk
      · exact .inr (.inl ⟨hk, h⟩)
      · obtain rfl := List.mem_singleton.1 h
        exact .inr (.inr ⟨by omega, renews_R _⟩)
  · obtain rfl := List.mem_singleton.1 h
    exact .inl fun a ha => by cases ha

theorem closed_pc3 (hP : lay.style = "PC3") (N : Nat) : lay.closedCircuit N =
    (lay.qubitCoordOps ++ ([.on .R lay.used_qubit_indices, .tick] ++ lay.basisChange (lay.obsAt 0).1) ++ (lay.pc3Emit N 0 ++ lay.pc3Emit N 1)) ++
      ((List.range N).flatMap (fun i => lay.pc3Emit N (2 + i)) ++
        (lay.pc3ObsEmit N ++ (lay.basisChange (lay.obsAt N).1 ++ [.on .M lay.data_qubit_indices] ++ lay.emitFinal N N))) := by
  have h2 := blocks_succ (lay.pc3Emit N) (N + 1) 0
  have h3 := blocks_succ (lay.pc3Emit N) N 1
  simp only [Nat.zero_add] at h2
  rw [h3] at h2
  rw [closedCircuit, allRounds, if_neg (by rw [hP]; decide), if_pos hP, pc3All, h2]
  simp only [List.append_assoc]

theorem fresh_closed (hv : lay.Valid) (hP : lay.style = "PC3") (hE : lay.isEM3 = false) (he : e ∈ lay.all_edges) : Fresh (lay.idx e.center) (lay.closedCircuit N) := by
  refine ⟨_, _, closed_pc3 hP N, fun i hi => ?_, fun i hi => ?_⟩
  · simp only [List.mem_append, List.mem_cons, List.not_mem_nil, or_false] at hi
    rcases hi with (h | (rfl | rfl) | h) | h | h
    · obtain ⟨q, _, rfl⟩ := List.mem_map.1 h
      exact .inl (still_renews (still_mark rfl))
    · exact .inl (renews_R _)
    · exact .inl (still_renews (still_mark rfl))
    · exact .inl (still_renews (still_basisChange hv he h))
    · rcases pc3_parts hv he h with h | h | h
      exacts [.inr h, by omega, .inl h.2]
    · rcases pc3_parts hv he h with h | h | h
      exacts [.inr h, by omega, .inl h.2]
  · simp only [List.mem_append, List.mem_cons, List.not_mem_nil, or_false] at hi
    rcases hi with h | h | (h | rfl) | h
    · obtain ⟨j, -, h⟩ := List.mem_flatMap.1 h
      rcases pc3_parts hv he h with h | h | h
      exacts [.inr h, .inl (emitMD_reading hE h.2), by omega]
    · refine .inl (still_reading (still_mark ?_))
      simp [Instr.actions, pc3ObsEmit_gate h]
    · exact .inl (still_reading (still_basisChange hv he h))
    · exact .inl (reading_M _)
    · exact .inl (still_reading (still_mark (List.flatMap_eq_nil_iff.1 (actions_nil_of_marks (emitFinal_marks (lay := lay))) i h)))

theorem soon_closed (hv : lay.Valid) (hP : lay.style = "PC3") (hE : lay.isEM3 = false) (he : e ∈ lay.all_edges) :
    ∀ s, s <:+ lay.closedCircuit N → upTo (Pins (lay.idx e.center)) (ActsOn (lay.idx e.center)) s ≤ 100 := by
  have hmd : ∀ k, howMany (ActsOn (lay.idx e.center)) (lay.emitMD k) ≤ 1 := fun k => by
    rw [emitMD, howMany_append, howMany_zero (l := lay.emitAnn k) fun i hi => ann_still hi, emitMeas, hE]
    exact (Nat.add_zero _).le.trans (howMany_le _)
  have hblk : ∀ k, howMany (ActsOn (lay.idx e.center)) (lay.pc3Emit N k) ≤ 5 := fun k => by
    rw [pc3Emit]
    simp only [howMany_append]
    have h1 := howMany_le (q := ActsOn (lay.idx e.center)) (if k < N then [Instr.on (basisCX (sub_round_edge_basis k)) (lay.leftTargets (lay.round_edges k))] else [])
    have h2 := howMany_le (q := ActsOn (lay.idx e.center)) (if 1 ≤ k ∧ k - 1 < N then
      [Instr.on (basisCX (sub_round_edge_basis ((k : Int) - 1))) (lay.rightTargets (lay.round_edges ((k : Int) - 1)))] else [])
    have h3 : howMany (ActsOn (lay.idx e.center)) (if 2 ≤ k then lay.emitMD (k - 2) else lay.subRoundResets ((k : Int) - 2)) ≤ 1 := by
      split_ifs
      · exact hmd _
      · exact howMany_le _
    have h4 := howMany_le (q := ActsOn (lay.idx e.center)) [.tick]
    have e1 : (if k < N then [Instr.on (basisCX (sub_round_edge_basis k)) (lay.leftTargets (lay.round_edges k))] else []).length ≤ 1 := by split_ifs <;> simp
    have e2 : (if 1 ≤ k ∧ k - 1 < N then
      [Instr.on (basisCX (sub_round_edge_basis ((k : Int) - 1))) (lay.rightTargets (lay.round_edges ((k : Int) - 1)))] else []).length ≤ 1 := by split_ifs <;> simp
    simp only [List.length_cons, List.length_nil] at h4
    omega
  have hr : ∀ k, ∃ i ∈ lay.pc3Emit N (2 + k) ++ (lay.pc3Emit N (2 + (k + 1)) ++ lay.pc3Emit N (2 + (k + 2))), Pins (lay.idx e.center) i := fun k => by
    obtain ⟨j, -, -, hj⟩ := edge_colour he
    obtain ⟨i, hi, hm⟩ : ∃ i < 3, e ∈ lay.round_edges ((k + i : Nat) : Int) := by
      obtain ⟨i, hi, h⟩ : ∃ i < 3, ((k + i : Nat) : Int) % 3 = j % 3 := by
        have h3 : (j - k) % 3 = 0 ∨ (j - k) % 3 = 1 ∨ (j - k) % 3 = 2 := by omega
        rcases h3 with h | h | h
        exacts [⟨0, by omega, by omega⟩, ⟨1, by omega, by omega⟩, ⟨2, by omega, by omega⟩]
      exact ⟨i, hi, by rw [round_edges_congr lay h]; exact hj⟩
    have hmem : Instr.on .M ((lay.round_edges ((k + i : Nat) : Int)).map fun e => lay.idx e.center) ∈ lay.pc3Emit N (2 + (k + i)) := by
      rw [pc3Emit, if_pos (show 2 ≤ 2 + (k + i) by omega), emitMD, emitMeas, hE, show 2 + (k + i) - 2 = k + i by omega]
      simp
    have hset : Pins (lay.idx e.center) (Instr.on .M ((lay.round_edges ((k + i : Nat) : Int)).map fun e => lay.idx e.center)) := by
      refine ⟨.inl (reading_M _), .measure [(.Z, lay.idx e.center)], ?_, ⟨_, List.mem_singleton_self _, rfl⟩⟩
      rw [measures_M]
      exact List.mem_map.2 ⟨_, List.mem_map.2 ⟨e, hm, rfl⟩, rfl⟩
    refine ⟨_, ?_, hset⟩
    have : i = 0 ∨ i = 1 ∨ i = 2 := by omega
    rcases this with rfl | rfl | rfl
    · exact List.mem_append_left _ hmem
    · exact List.mem_append_right _ (List.mem_append_left _ hmem)
    · exact List.mem_append_right _ (List.mem_append_right _ hmem)
  have hb : ∀ b, howMany (ActsOn (lay.idx e.center)) (lay.basisChange b) = 0 := fun b => howMany_zero fun i hi => still_basisChange hv he hi
  have hpost : howMany (ActsOn (lay.idx e.center)) (lay.pc3ObsEmit N ++ (lay.basisChange (lay.obsAt N).1 ++ [.on .M lay.data_qubit_indices] ++ lay.emitFinal N N)) ≤ 1 := by
    rw [howMany_append, howMany_append, howMany_append, hb, howMany_zero (l := lay.pc3ObsEmit N) fun i hi => still_mark (by simp [Instr.actions, pc3ObsEmit_gate hi]),
      howMany_zero (l := lay.emitFinal N N) fun i hi => still_mark (List.flatMap_eq_nil_iff.1 (actions_nil_of_marks (emitFinal_marks (lay := lay))) i hi)]
    have := howMany_le (q := ActsOn (lay.idx e.center)) [.on .M lay.data_qubit_indices]
    simp only [List.length_cons, List.length_nil] at this
    omega
  have hpre : howMany (ActsOn (lay.idx e.center)) (lay.qubitCoordOps ++ ([.on .R lay.used_qubit_indices, .tick] ++ lay.basisChange (lay.obsAt 0).1) ++
      (lay.pc3Emit N 0 ++ lay.pc3Emit N 1)) ≤ 12 := by
    rw [howMany_append, howMany_append, howMany_append, howMany_append, hb, howMany_zero (l := lay.qubitCoordOps) fun i hi => by
      obtain ⟨q, _, rfl⟩ := List.mem_map.1 hi
      exact still_mark rfl]
    have := howMany_le (q := ActsOn (lay.idx e.center)) [.on .R lay.used_qubit_indices, .tick]
    simp only [List.length_cons, List.length_nil] at this
    have := hblk 0
    have := hblk 1
    omega
  intro s h
  rw [closed_pc3 hP] at h
  have := upTo_suffix (p := Pins (lay.idx e.center)) (fun k => hblk (2 + k)) hr hpost N 0
  simp only [Nat.zero_add] at this
  exact (upTo_before this hpre s h).trans (by omega)

end HoneycombLayout
end Honeycomb
