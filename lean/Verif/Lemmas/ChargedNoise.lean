import Verif.Lemmas.Charged

/-! The noisy circuit, step by step: every error is charged to one data qubit. -/

namespace Honeycomb

theorem Chain.split {R : Instr → σ → σ → Prop} {a b : List Instr} {s s' : σ} (h : Chain R (a ++ b) s s') : ∃ s1, Chain R a s s1 ∧ Chain R b s1 s' := by
  induction a generalizing s with
  | nil => exact ⟨s, .nil, h⟩
  | cons i a ih =>
    cases h with
    | cons hm h =>
      obtain ⟨s1, h1, h2⟩ := ih h
      exact ⟨s1, .cons hm h1, h2⟩

theorem Chain.append {R : Instr → σ → σ → Prop} {a b : List Instr} {s s1 s' : σ} (h1 : Chain R a s s1) (h2 : Chain R b s1 s') : Chain R (a ++ b) s s' := by
  induction h1 with
  | nil => exact h2
  | cons hm _ ih => exact .cons hm (ih h2)

namespace HoneycombLayout
variable {lay : HoneycombLayout} {F F' G T : Frame} {rec : List (ZMod 2)} {n m : Nat} {st st' st1 : Edge → St}

/-- The state of all ancillas after `A`. -/
def Tracks (lay : HoneycombLayout) (st : Edge → St) (A : List Instr) : Prop :=
  (∀ i ∈ A, Std i) ∧ ∀ e ∈ lay.all_edges, (st e).Good (lay.idx e.left) (lay.idx e.center) A

/-- The errors during `l` are charged to data qubits; without errors `l` does what `A'` does. -/
def SimA (lay : HoneycombLayout) (st : Edge → St) (l A' : List Instr) (st' : Edge → St) : Prop :=
  ∀ A, lay.Tracks st A → lay.Tracks st' (A ++ A') ∧ ∀ F F' rec n r F1 k, lay.Acc st A F rec F' n → LooseRuns F' l r F1 k →
    lay.Acc st' (A ++ A') F (rec ++ r) F1 (n + k)

theorem SimA.nil : lay.SimA st [] [] st := by
  intro A hA
  refine ⟨by rwa [List.append_nil], ?_⟩
  intro F F' rec n r F1 k h hr
  cases hr
  simpa using h

theorem SimA.append {l1 l2 A1 A2 : List Instr} (h1 : lay.SimA st l1 A1 st1) (h2 : lay.SimA st1 l2 A2 st') : lay.SimA st (l1 ++ l2) (A1 ++ A2) st' := by
  intro A hA
  obtain ⟨t1, k1⟩ := h1 A hA
  obtain ⟨t2, k2⟩ := h2 _ t1
  rw [List.append_assoc] at t2 k2
  refine ⟨t2, ?_⟩
  intro F F' rec n r F1 k h hr
  obtain ⟨r1, r2, G, n1, n2, g1, g2, rfl, rfl⟩ := hr.append
  have := k2 _ _ _ _ _ _ _ (k1 _ _ _ _ _ _ _ h g1) g2
  rwa [List.append_assoc, Nat.add_assoc] at this

/-- A noise channel whose errors can be charged. -/
def Billed (lay : HoneycombLayout) (st : Edge → St) (i : Instr) : Prop :=
  isNoise i.gate = true ∧ ∀ c ∈ i.channels, (∃ q ∈ lay.data_qubit_coords, c = [lay.idx q]) ∨ ∃ e ∈ lay.all_edges,
    c = [lay.idx e.center] ∨ c = [lay.idx e.left, lay.idx e.center] ∨ (c = [lay.idx e.right, lay.idx e.center] ∧ ∀ t, st e ≠ .half t)

theorem frame_split_one {P : Frame} {q : Nat} (h : ∀ x, x ∉ [q] → P x = 0) : P = single q (P q) := by
  funext x
  by_cases hx : x = q
  · rw [hx, single_self]
  · rw [single_off _ hx, h x (by simpa using hx)]

theorem frame_split_two {P : Frame} {q a : Nat} (hne : q ≠ a) (h : ∀ x, x ∉ [q, a] → P x = 0) : P = single q (P q) + single a (P a) := by
  funext x
  rw [Pi.add_apply]
  by_cases hx : x = q
  · rw [hx, single_self, single_off _ hne, add_zero]
  · by_cases ha : x = a
    · rw [ha, single_self, single_off _ (Ne.symm hne), zero_add]
    · rw [single_off _ hx, single_off _ ha, h x (by simp [hx, ha]), add_zero]

theorem Billed.bill (hv : lay.Valid) {i : Instr} (h : lay.Billed st i) {A : List Instr} (hA : lay.Tracks st A) {c : List Nat} (hc : c ∈ i.channels)
    {P : Frame} (hP : ∀ x, x ∉ c → P x = 0) : ∃ q, lay.Bill st A q P := by
  rcases h.2 c hc with ⟨q, hq, rfl⟩ | ⟨e, he, rfl | rfl | ⟨rfl, hn⟩⟩
  · rw [frame_split_one hP]
    exact ⟨q, .data hA.1 hq _⟩
  · rw [frame_split_one hP]
    exact ⟨e.left, .anc hv hA.1 he (.inl rfl) (hA.2 e he) _⟩
  · rw [frame_split_two (Ne.symm (center_ne_data hv he (ends_data hv he).1)) hP]
    exact ⟨e.left, (Bill.data hA.1 (ends_data hv he).1 _).add hv (.anc hv hA.1 he (.inl rfl) (hA.2 e he) _)⟩
  · rw [frame_split_two (Ne.symm (center_ne_data hv he (ends_data hv he).2)) hP]
    exact ⟨e.right, (Bill.data hA.1 (ends_data hv he).2 _).add hv (.anc hv hA.1 he (.inr ⟨rfl, hn⟩) (hA.2 e he) _)⟩

theorem SimA.noise1 (hv : lay.Valid) {i : Instr} (h : lay.Billed st i) : lay.SimA st [i] [] st := by
  intro A hA
  rw [List.append_nil]
  refine ⟨hA, ?_⟩
  intro F F' rec n r F1 k hacc hr
  generalize hl : [i] = l at hr
  induction hr generalizing n with
  | nil => cases hl
  | @step F0 G0 F1 j l r1 r2 k hr h2 ih =>
    obtain ⟨rfl, rfl⟩ := List.cons.inj hl
    rw [actions_noise h.1] at hr
    obtain ⟨rfl, rfl⟩ := runs_nil hr
    cases h2
    simpa using hacc
  | @error F0 G0 F1 j l r k c hc hG h2 ih =>
    obtain ⟨rfl, rfl⟩ := List.cons.inj hl
    obtain ⟨q, hq⟩ := h.bill hv hA hc (P := G0 - F0) (fun x hx => by rw [Pi.sub_apply, hG x hx, sub_self])
    have := ih (n + 1) (by
      have := hacc.error hv hq
      rwa [add_sub_cancel] at this) rfl
    rwa [Nat.add_right_comm] at this
  | @flip F0 F1 j l r k t ha ht h2 ih =>
    obtain ⟨rfl, rfl⟩ := List.cons.inj hl
    rw [measures_noise h.1] at ht
    simp at ht

theorem SimA.noise (hv : lay.Valid) {l : List Instr} (h : ∀ i ∈ l, lay.Billed st i) : lay.SimA st l [] st := by
  induction l with
  | nil => exact .nil
  | cons i l ih => exact (SimA.noise1 hv (h i (by simp))).append (ih fun j hj => h j (by simp [hj]))

theorem modify_append_right {α : Type} (f : α → α) : ∀ (a b : List α) (t : Nat), (a ++ b).modify (a.length + t) f = a ++ b.modify t f
  | [], b, t => by simp
  | x :: a, b, t => by
    rw [List.length_cons, Nat.add_right_comm, List.cons_append, List.modify_succ_cons, List.cons_append, modify_append_right f a b t]

theorem SimA.core (hv : lay.Valid) {i : Instr} (hc : isNoise i.gate = false) (hi : lay.StdI i) (hm : lay.MovesAll i st st') : lay.SimA st [i] [i] st' := by
  intro A hA
  refine ⟨⟨?_, fun e he => (hm e he).good hA.1 hi.std (hA.2 e he)⟩, ?_⟩
  · intro j hj
    rcases List.mem_append.1 hj with hj | hj
    · exact hA.1 j hj
    · rw [List.mem_singleton.1 hj]; exact hi.std
  intro F F' rec n r F1 k hacc hr
  have hlen : rec.length = (measured A).length := by
    obtain ⟨_, _, _, _, _, _, _, h4⟩ := hacc
    exact h4.lengths.2
  generalize hl : [i] = l at hr
  induction hr generalizing n with
  | nil => cases hl
  | @step F0 G0 F1 j l r1 r2 k hr h2 ih =>
    obtain ⟨rfl, rfl⟩ := List.cons.inj hl
    cases h2
    rw [List.append_nil]
    exact hacc.step hv hi hm hr
  | @error F0 G0 F1 j l r k c hcc hG h2 ih =>
    obtain ⟨rfl, rfl⟩ := List.cons.inj hl
    rw [channels_clean hc] at hcc
    simp at hcc
  | @flip F0 F1 j l r k t ha ht h2 ih =>
    obtain ⟨rfl, rfl⟩ := List.cons.inj hl
    have h := ih n hacc rfl
    rw [← modify_append_right, ← Nat.add_assoc]
    obtain ⟨q, hq⟩ := hi.meas _ (List.getElem_mem ht)
    refine h.flip (q := q) fun P hP => ?_
    rw [measured_snoc, hlen, List.getElem?_append_right (by omega), Nat.add_sub_cancel_left, List.getElem?_eq_getElem ht, Option.some.injEq] at hP
    subst hP
    have hb := hi.std.basic
    have : ∃ y, i.measures[t] = [(.Z, y)] := by
      have hmem : i.measures[t] ∈ i.actions.filterMap Action.result? := by rw [results_actions]; exact List.getElem_mem ht
      obtain ⟨x, hx, e⟩ := List.mem_filterMap.1 hmem
      have := hb x hx
      cases x <;> simp [Action.result?] at e
      rw [← e]
      exact this
    obtain ⟨y, e⟩ := this
    refine ⟨(.Z, y), by rw [e]; simp, ?_⟩
    obtain ⟨hd, h | ⟨e', he', rfl, h⟩⟩ := hq (.Z, y) (by rw [e]; simp)
    · exact .inl ⟨q, hd, by simp, h.symm⟩
    · exact .inr ⟨e', he', .inl (by simp), h⟩

theorem SimA.cores (hv : lay.Valid) {ops : List Instr} (hc : ∀ i ∈ ops, isNoise i.gate = false ∧ lay.StdI i) (hch : Chain lay.MovesAll ops st st') :
    lay.SimA st ops ops st' := by
  induction hch with
  | nil => exact .nil
  | @cons i l s s1 s' hm _ ih => exact (SimA.core hv (hc i (by simp)).1 (hc i (by simp)).2 hm).append (ih fun j hj => hc j (by simp [hj]))

theorem chain_at {ops : List Instr} (h : Chain lay.MovesAll ops st st') {e : Edge} (he : e ∈ lay.all_edges) :
    Chain (Moves (lay.idx e.left) (lay.idx e.right) (lay.idx e.center)) ops (st e) (st' e) := by
  induction h with
  | nil => exact .nil
  | cons hm _ ih => exact .cons (hm e he) ih

theorem chain_spent {l r a : Nat} {ops : List Instr} {s s' : St} (hlr : l ≠ r) (h : Chain (Moves l r a) ops s s') (hs : ∀ i ∈ ops, Std i) (ht : ∀ i ∈ ops, i.gate ≠ .TICK)
    (hm : s.Spent ∨ ∃ i ∈ ops, ∃ P Q, Action.control P Q r a ∈ i.actions) : s'.Spent := by
  induction h with
  | nil =>
    rcases hm with h | ⟨i, hi, _⟩
    · exact h
    · simp at hi
  | @cons i l s s1 s' hmv _ ih =>
    refine ih (fun j hj => hs j (by simp [hj])) (fun j hj => ht j (by simp [hj])) ?_
    rcases hm with h | ⟨j, hj, P, Q, hx⟩
    · exact .inl (hmv.spent (ht i (by simp)) h)
    · rcases List.mem_cons.1 hj with rfl | hj
      · exact .inl (hmv.spent_right (hs j (by simp)) hlr hx)
      · exact .inr ⟨j, hj, P, Q, hx⟩

theorem control_mem {i : Instr} (h : kind i.gate = .clifford2) {x : Nat × Nat} (hx : x ∈ pairs i.qubits) : ∃ P Q, Action.control P Q x.1 x.2 ∈ i.actions := by
  rcases i with ⟨g, ts, as⟩
  cases g <;> simp only [kind, reduceCtorEq] at h
  all_goals exact ⟨_, _, List.mem_map.2 ⟨x, hx, rfl⟩⟩

theorem mem_control {i : Instr} {P Q : Basis} {d a : Nat} (h : Action.control P Q d a ∈ i.actions) : kind i.gate = .clifford2 ∧ (d, a) ∈ pairs i.qubits := by
  rcases i with ⟨g, ts, as⟩
  cases g <;> simp [Instr.actions, Instr.measures] at h
  all_goals
    refine ⟨rfl, ?_⟩
    simp_all

/-- Single qubits of the circuit. -/
theorem single_channel (hv : lay.Valid) (hE : lay.isEM3 = false) {q : Nat} (hq : q < lay.num_qubits.toNat) :
    (∃ p ∈ lay.data_qubit_coords, [q] = [lay.idx p]) ∨ ∃ e ∈ lay.all_edges, [q] = [lay.idx e.center] := by
  obtain ⟨p, hp, rfl, hc⟩ := (covers_used hv).2 q (mem_used hv hq)
  by_cases hd : p ∈ lay.data_qubit_coords
  · exact .inl ⟨p, hd, rfl⟩
  · obtain ⟨e, he, rfl⟩ := mem_measure_qubit_coords.1 ((List.mem_append.1 hp).resolve_left hd)
    exact .inr ⟨e, he, rfl⟩

/-- Where noise acts on single qubits. -/
theorem billed_single (hv : lay.Valid) (hE : lay.isEM3 = false) {i : Instr} (hg : i.gate = .DEPOLARIZE1 ∨ i.gate = .X_ERROR ∨ i.gate = .Z_ERROR)
    (hq : ∀ q ∈ i.qubits, q < lay.num_qubits.toNat) : lay.Billed st i := by
  refine ⟨by rcases hg with h | h | h <;> rw [h] <;> rfl, fun c hc => ?_⟩
  have : c ∈ i.qubits.map fun q => [q] := by
    rw [Instr.channels] at hc
    rcases hg with h | h | h <;> rw [h] at hc <;> exact hc
  obtain ⟨q, hm, rfl⟩ := List.mem_map.1 this
  rcases single_channel hv hE (hq q hm) with h | ⟨e, he, h⟩
  · exact .inl h
  · exact .inr ⟨e, he, .inl h⟩

/-- The noise of one time step. -/
theorem simA_ops (hv : lay.Valid) (hE : lay.isEM3 = false) {nm : NoiseModel} {ops idle : List Instr}
    (h : ∀ i ∈ ops, lay.Tame lay.num_qubits.toNat i ∧ lay.GoodI i ∧ lay.StdI i) (ht : ∀ i ∈ ops, i.gate ≠ .TICK)
    (hi : ∀ i ∈ idle, lay.Billed st' i) (hch : Chain lay.MovesAll ops st st') :
    lay.SimA st (noisyOps nm lay.num_qubits.toNat ops ++ idle) ops st' := by
  have nompp : ∀ i ∈ ops, i.gate ≠ .MPP := fun i hm hg => by
    have := ((h i hm).2.1.bond hg).1
    rw [hE] at this; cases this
  have e2 : lay.SimA st (ops.flatMap fun i => noiseBefore nm i ((nm.rate i.gate).getD 0)) [] st := .noise hv fun j hm => by
    obtain ⟨i, hi, hj⟩ := List.mem_flatMap.1 hm
    unfold noiseBefore at hj
    by_cases hp : (nm.rate i.gate).getD 0 ≤ 0
    · rw [if_pos hp] at hj; simp at hj
    · rw [if_neg hp] at hj
      have hq := (h i hi).1.ex.lt
      have := nompp i hi
      rcases i with ⟨g, ts, as⟩
      cases g <;> simp only [kind, List.not_mem_nil, List.mem_singleton] at hj
      case MPP => exact absurd rfl this
      all_goals
        subst hj
        exact billed_single hv hE (by simp [channel]) hq
  have e3 : lay.SimA st' (ops.flatMap fun i => noiseAfter i ((nm.rate i.gate).getD 0)) [] st' := .noise hv fun j hm => by
    obtain ⟨i, hi, hj⟩ := List.mem_flatMap.1 hm
    unfold noiseAfter at hj
    by_cases hp : (nm.rate i.gate).getD 0 ≤ 0
    · rw [if_pos hp] at hj; simp at hj
    · rw [if_neg hp] at hj
      have hq := (h i hi).1.ex.lt
      by_cases hk : kind i.gate = .clifford2
      · rw [hk] at hj
        simp only [List.mem_singleton] at hj
        subst hj
        refine ⟨rfl, fun c hc => ?_⟩
        obtain ⟨x, hx, rfl⟩ := List.mem_map.1 (show c ∈ (pairs i.qubits).map fun x => [x.1, x.2] from hc)
        obtain ⟨-, hl⟩ := (h i hi).2.1.link hk
        obtain ⟨k, e, hem, h1, h2⟩ := hl x hx
        have hea := round_edges_subset_all hem
        refine .inr ⟨e, hea, .inr ?_⟩
        rcases h1 with h1 | h1
        · exact .inl (by rw [h1, h2])
        · refine .inr ⟨by rw [h1, h2], ?_⟩
          obtain ⟨P, Q, hm⟩ := control_mem hk hx
          rw [h1, h2] at hm
          refine St.Spent.ne_half (chain_spent ?_ (chain_at hch hea) (fun j hj => (h j hj).2.2.std) ht (.inr ⟨i, hi, P, Q, hm⟩))
          intro he
          have := idx_inj hv (data_mem_order (ends_data hv hea).1) (data_mem_order (ends_data hv hea).2) he
          exact edge_left_ne_right hv hea this
      · rcases i with ⟨g, ts, as⟩
        cases g <;> simp only [kind, List.not_mem_nil, List.mem_singleton] at hj hk
        all_goals first
          | exact absurd trivial hk
          | (subst hj
             exact billed_single hv hE (by simp [channel]) hq)
  have hcore : (ops.flatMap fun i => noisyCore nm lay.num_qubits.toNat i ((nm.rate i.gate).getD 0)) = ops := by
    conv_rhs => rw [← List.flatMap_singleton' ops]
    refine List.flatMap_congr fun i hi => ?_
    have := nompp i hi
    rw [noisyCore]
    rcases i with ⟨g, ts, as⟩
    cases g <;> first | exact absurd rfl this | (split_ifs <;> rfl)
  have e4 : lay.SimA st ops ops st' := .cores hv (fun i hi => ⟨(h i hi).1.ex.clean, (h i hi).2.2⟩) hch
  rw [noisyOps, hcore]
  have := ((e2.append e4).append e3).append (.noise hv hi)
  rwa [List.nil_append, List.append_nil, List.append_nil] at this

theorem stdI_tick : lay.StdI .tick :=
  ⟨⟨by simp [Instr.actions, Instr.tick], by simp [Instr.actions, Instr.tick]⟩, by simp [Instr.actions, Instr.tick], by simp [Instr.measures, Instr.tick]⟩

/-- The noise of all time steps. -/
theorem simA_steps (hv : lay.Valid) (hE : lay.isEM3 = false) {nm : NoiseModel} {idle : List Instr → List Instr} (hi : ∀ st ops, ∀ i ∈ idle ops, lay.Billed st i)
    (c : Circuit) : (∀ i ∈ c.ops, lay.Tame lay.num_qubits.toNat i ∧ lay.GoodI i ∧ lay.StdI i) → TickOK c → ∀ (a : Nat) (acc : List Instr) (st st' : Edge → St),
    (∀ i ∈ acc, (lay.Tame lay.num_qubits.toNat i ∧ lay.GoodI i ∧ lay.StdI i) ∧ i.gate ≠ .TICK) → Chain lay.MovesAll (acc ++ c.flatten) st st' →
    lay.SimA st (perStep (fun _ ops => noisyOps nm lay.num_qubits.toNat ops ++ idle ops) c a acc) (acc ++ c.flatten) st' := by
  induction c with
  | nil =>
    intro _ _ a acc st st' hacc hch
    rw [Circuit.flatten, List.append_nil] at hch ⊢
    exact simA_ops hv hE (fun i h => (hacc i h).1) (fun i h => (hacc i h).2) (hi _ _) hch
  | op i c ih =>
    intro hP htk a acc st st' hacc hch
    have hP' := fun j (hj : j ∈ c.ops) => hP j (by simp [Circuit.ops, hj])
    have htk' : TickOK c := fun j hj => htk j (by simp [Circuit.ops, hj])
    rw [Circuit.flatten] at hch ⊢
    by_cases ht : i.gate = .TICK
    · rw [perStep, if_pos ht]
      obtain rfl := htk i (by simp [Circuit.ops]) ht
      obtain ⟨s1, h1, h2⟩ := hch.split
      cases h2 with
      | cons hm h2 =>
        have k1 := simA_ops hv hE (nm := nm) (fun i h => (hacc i h).1) (fun i h => (hacc i h).2) (hi _ acc) h1
        have k2 := SimA.core hv (i := .tick) rfl stdI_tick hm
        have k3 := ih hP' htk' a [] _ _ (by simp) h2
        have := (k1.append k2).append k3
        simpa using this
    · rw [perStep, if_neg ht]
      have := ih hP' htk' a (acc ++ [i]) st st' (by
        intro j hj
        rcases List.mem_append.1 hj with hj | hj
        · exact hacc j hj
        · rw [List.mem_singleton] at hj
          subst hj
          exact ⟨hP j (by simp [Circuit.ops]), ht⟩) (by simpa using hch)
      simpa using this
  | rep k b c ihb ihc =>
    intro hP htk a acc st st' hacc hch
    have hPb := fun j (hj : j ∈ b.ops) => hP j (by simp [Circuit.ops, hj])
    have hPc := fun j (hj : j ∈ c.ops) => hP j (by simp [Circuit.ops, hj])
    have hrep : ∀ (k : Nat) (s s' : Edge → St), Chain lay.MovesAll (List.replicate k b.flatten).flatten s s' →
        lay.SimA s (List.replicate k (perStep (fun _ ops => noisyOps nm lay.num_qubits.toNat ops ++ idle ops) b b.num_qubits [])).flatten
          (List.replicate k b.flatten).flatten s' := by
      intro k
      induction k with
      | zero => intro s s' h; cases h; exact .nil
      | succ k ih =>
        intro s s' h
        rw [List.replicate_succ, List.flatten_cons] at h
        obtain ⟨s1, h1, h2⟩ := h.split
        rw [List.replicate_succ, List.flatten_cons, List.replicate_succ, List.flatten_cons]
        exact (ihb hPb (fun j hj => htk j (by simp [Circuit.ops, hj])) _ [] s s1 (by simp) h1).append (ih _ _ h2)
    rw [Circuit.flatten] at hch ⊢
    obtain ⟨s1, h1, h2⟩ := hch.split
    obtain ⟨s2, h2, h3⟩ := h2.split
    rw [perStep, ← List.append_assoc]
    exact ((simA_ops hv hE (fun i h => (hacc i h).1) (fun i h => (hacc i h).2) (hi _ acc) h1).append (hrep k _ _ h2)).append
      (ihc hPc (fun j hj => htk j (by simp [Circuit.ops, hj])) a [] _ _ (by simp) h3)

end HoneycombLayout
end Honeycomb
