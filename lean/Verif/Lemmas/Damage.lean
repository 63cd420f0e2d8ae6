import Verif.Lemmas.NoiseEvents
import Verif.Lemmas.Flips

/-! Damage inside a region of the unrolled circuit. -/

namespace Honeycomb
variable {F F' : Frame} {rec rec0 : List (ZMod 2)} {n m : Nat}

theorem pairwise_map_disjoint {α : Type} {f : α → Action} {g : α → List Nat} (hf : ∀ y q, (f y).On q → q ∈ g y) :
    ∀ {l : List α}, (l.flatMap g).Nodup → (l.map f).Pairwise fun a b => ∀ q, a.On q → ¬ b.On q
  | [], _ => .nil
  | y :: l, h => by
    rw [List.flatMap_cons, List.nodup_append] at h
    rw [List.map_cons, List.pairwise_cons]
    refine ⟨fun b hb q h1 h2 => ?_, pairwise_map_disjoint hf h.2.1⟩
    obtain ⟨z, hz, rfl⟩ := List.mem_map.1 hb
    exact h.2.2 q (hf y q h1) q (List.mem_flatMap.2 ⟨z, hz, hf z q h2⟩) rfl

theorem pairs_flatMap_sublist : ∀ l : List Nat, ((pairs l).flatMap fun x => [x.1, x.2]).Sublist l
  | a :: b :: l => by
    rw [pairs, List.flatMap_cons]
    exact ((pairs_flatMap_sublist l).cons_cons b).cons_cons a
  | [a] => by simp [pairs]
  | [] => by simp [pairs]

theorem actions_disjoint {i : Instr} (hn : kind i.gate ≠ .annotation → i.qubits.Nodup) (hm : i.gate = .MPP → ∃ gs, i.targets = pairTargets gs) :
    i.actions.Pairwise fun a b => ∀ q, a.On q → ¬ b.On q := by
  have single : ∀ {f : Nat → Action}, (∀ y q, (f y).On q → q = y) → i.qubits.Nodup → (i.qubits.map f).Pairwise fun a b => ∀ q, a.On q → ¬ b.On q := by
    intro f hf h
    refine pairwise_map_disjoint (g := fun y => [y]) (fun y q h => by simpa using hf y q h) ?_
    rwa [List.flatMap_singleton']
  have double : ∀ {P Q : Basis}, i.qubits.Nodup → ((pairs i.qubits).map fun x => Action.control P Q x.1 x.2).Pairwise fun a b => ∀ q, a.On q → ¬ b.On q := by
    intro P Q h
    refine pairwise_map_disjoint (g := fun x => [x.1, x.2]) (fun y q h => ?_) (h.sublist (pairs_flatMap_sublist _))
    rcases h with rfl | rfl <;> simp
  by_cases hg : i.gate = .MPP
  · obtain ⟨gs, e⟩ := hm hg
    have hn := hn (by rw [hg]; decide)
    rw [Instr.qubits, e, pairTargets_qubits] at hn
    have ha : i.actions = gs.map fun g => .measure [g.1, g.2] := by
      simp only [Instr.actions, hg, Instr.measures, e, mppGroups_pair, List.map_map]
      rfl
    rw [ha]
    refine pairwise_map_disjoint (fun g q h => ?_) hn
    obtain ⟨y, hy, rfl⟩ := h
    simp only [List.mem_cons, List.not_mem_nil, or_false] at hy ⊢
    rcases hy with rfl | rfl
    · exact .inl rfl
    · exact .inr rfl
  · rcases i with ⟨g, ts, as⟩
    have meas : ∀ {b : Basis} {l : List Nat}, (l.map fun q => [(b, q)]).map Action.measure = l.map fun q => Action.measure [(b, q)] := by
      intro b l; rw [List.map_map]; rfl
    cases g <;> simp only [Instr.actions, Instr.measures, meas] <;> first
      | exact .nil
      | exact double (hn (by simp [kind]))
      | exact single (fun y q h => h) (hn (by simp [kind]))
      | exact single (fun y q h => by obtain ⟨z, hz, rfl⟩ := h; simp at hz; rw [hz]) (hn (by simp [kind]))
      | exact absurd rfl hg

theorem actions_tied {B C : Nat → Prop} {i : Instr} (h : kind i.gate = .clifford2 → ∀ x ∈ pairs i.qubits, (C x.1 → B x.2) ∧ (C x.2 → B x.1)) :
    ∀ a ∈ i.actions, a.Tied B C := by
  intro a ha
  rcases a with _ | ⟨P, Q, x, y⟩ | _ | _
  · trivial
  · have : ∀ {P' Q' : Basis}, Action.control P Q x y ∈ (pairs i.qubits).map (fun z => Action.control P' Q' z.1 z.2) → (x, y) ∈ pairs i.qubits := by
      intro P' Q' h
      obtain ⟨z, hz, e⟩ := List.mem_map.1 h
      rw [Action.control.injEq] at e
      obtain ⟨_, _, rfl, rfl⟩ := e
      exact hz
    rcases i with ⟨g, ts, as⟩
    cases g <;> first
      | exact h rfl _ (this ha)
      | (simp [Instr.actions, Instr.measures] at ha)
  · trivial
  · trivial

namespace HoneycombLayout
variable {lay : HoneycombLayout} {B : Pt → Prop} {N : Nat}

theorem hasAncillas_iff : lay.HasAncillas ↔ lay.isEM3 = false := by simp [HasAncillas, isEM3]

theorem center_mem_order {e : Edge} (he : e ∈ lay.all_edges) : e.center ∈ qubitOrder lay :=
  List.mem_append_right _ (mem_measure_qubit_coords.2 ⟨e, he, rfl⟩)

theorem data_mem_order {q : Pt} (h : q ∈ lay.data_qubit_coords) : q ∈ qubitOrder lay := List.mem_append_left _ h

/-- The ancillas inside the region. -/
def AncIn (lay : HoneycombLayout) (B : Pt → Prop) (q : Nat) : Prop :=
  lay.isEM3 = false ∧ ∃ e ∈ lay.all_edges, B e.left ∧ B e.right ∧ q = lay.idx e.center

theorem inside_or {q : Nat} (h : lay.Inside B q) : lay.IsIn B q ∨ lay.AncIn B q := by
  rcases h with ⟨p, hp, hb, rfl⟩ | ⟨ha, e, he, h1, h2, rfl⟩
  · exact .inl ⟨p, hp, hb, rfl⟩
  · exact .inr ⟨hasAncillas_iff.1 ha, e, he, h1, h2, rfl⟩

theorem ends_data (hv : lay.Valid) {e : Edge} (he : e ∈ lay.all_edges) : e.left ∈ lay.data_qubit_coords ∧ e.right ∈ lay.data_qubit_coords := by
  simp only [data_qubit_coords, sortedComplex, mem_sorted, mem_pySet, List.mem_flatMap]
  exact ⟨⟨e, he, by simp⟩, ⟨e, he, by simp⟩⟩

theorem center_ne_data (hv : lay.Valid) {e : Edge} (he : e ∈ lay.all_edges) {q : Pt} (hq : q ∈ lay.data_qubit_coords) : lay.idx e.center ≠ lay.idx q := by
  intro h
  have := idx_inj hv (center_mem_order he) (data_mem_order hq) h
  exact Honeycomb.center_not_data hv he ((mem_data_qubit_coords hv).1 (this ▸ hq))

theorem flatMap_get {α : Type} {f : Nat → List α} {L : Nat} (hf : ∀ k, (f k).length = L) (tl : List α) : ∀ (N : Nat),
    (∀ k j, k < N → j < L → ((List.range N).flatMap f ++ tl)[k * L + j]? = (f k)[j]?) ∧ ∀ j, ((List.range N).flatMap f ++ tl)[N * L + j]? = tl[j]? := by
  intro N
  have hlen : ∀ N, ((List.range N).flatMap f).length = N * L := by
    intro N
    induction N with
    | zero => simp
    | succ N ih => rw [List.range_succ, List.flatMap_append, List.length_append, ih, List.flatMap_singleton, hf, Nat.succ_mul]
  refine ⟨fun k j hk hj => ?_, fun j => ?_⟩
  · induction N generalizing tl with
    | zero => omega
    | succ N ih =>
      rw [List.range_succ, List.flatMap_append, List.append_assoc, List.flatMap_singleton]
      rcases Nat.lt_succ_iff_lt_or_eq.1 hk with h | rfl
      · exact ih _ h
      · rw [List.getElem?_append_right (by rw [hlen]; omega), hlen, Nat.add_sub_cancel_left, List.getElem?_append_left (by rw [hf]; exact hj)]
  · rw [List.getElem?_append_right (by rw [hlen]; omega), hlen, Nat.add_sub_cancel_left]

theorem get_idxOf {α β : Type} [DecidableEq α] {l : List α} (f : α → β) {a : α} (h : a ∈ l) : (l.map f)[l.idxOf a]? = some (f a) := by
  rw [List.getElem?_map, List.getElem?_eq_getElem (List.idxOf_lt_length_of_mem h), List.getElem_idxOf, Option.map_some]

/-- Which qubits the results of the unrolled circuit are about. -/
theorem result_edge (hN : lay.sub_rounds = N) (hv : lay.Valid) {k : Nat} (hk : k < N) {e : Edge} (he : e ∈ lay.round_edges k) :
    lay.resultQubits[lay.mTime k e]? = some [e.left, e.right] := by
  rw [resultQubits, mTime, hN, Int.toNat_natCast, (flatMap_get (L := lay.perRound) (fun k => by rw [List.length_map, perRound_eq hv]) _ N).1 k _ hk
    (by rw [← perRound_eq hv k]; exact List.idxOf_lt_length_of_mem he)]
  exact get_idxOf (fun e : Edge => [e.left, e.right]) he

theorem result_data (hN : lay.sub_rounds = N) (hv : lay.Valid) {q : Pt} (hq : q ∈ lay.data_qubit_coords) :
    lay.resultQubits[lay.dTime N q]? = some [q] := by
  rw [resultQubits, dTime, hN, Int.toNat_natCast, (flatMap_get (L := lay.perRound) (fun k => by rw [List.length_map, perRound_eq hv]) _ N).2]
  exact get_idxOf (fun q : Pt => [q]) hq

theorem measured_edge (hv : lay.Valid) (hs : lay.Supported) (hN : lay.sub_rounds = N) {k : Nat} (hk : k < N) {e : Edge} (he : e ∈ lay.round_edges k) :
    (measured (lay.closedCircuit N))[lay.mTime k e]? = some (if lay.isEM3 then [(sub_round_edge_basis k, lay.idx e.left), (sub_round_edge_basis k, lay.idx e.right)]
      else [(.Z, lay.idx e.center)]) := by
  rw [(closed_uses hv hs hN).2.2, mTime, (flatMap_get (L := lay.perRound) (fun k => by rw [roundMeas, List.length_map, perRound_eq hv]) _ N).1 k _ hk
    (by rw [← perRound_eq hv k]; exact List.idxOf_lt_length_of_mem he), roundMeas]
  exact get_idxOf (fun e : Edge => if lay.isEM3 then [(sub_round_edge_basis k, lay.idx e.left), (sub_round_edge_basis k, lay.idx e.right)]
      else [(.Z, lay.idx e.center)]) he

theorem measured_data (hv : lay.Valid) (hs : lay.Supported) (hN : lay.sub_rounds = N) {q : Pt} (hq : q ∈ lay.data_qubit_coords) :
    (measured (lay.closedCircuit N))[lay.dTime N q]? = some [(.Z, lay.idx q)] := by
  rw [(closed_uses hv hs hN).2.2, dTime, (flatMap_get (L := lay.perRound) (fun k => by rw [roundMeas, List.length_map, perRound_eq hv]) _ N).2]
  exact get_idxOf (fun q : Pt => [(Basis.Z, lay.idx q)]) hq

/-- Every place of the record is that of an edge or of a data qubit. -/
theorem measured_cases (hv : lay.Valid) (hs : lay.Supported) (hN : lay.sub_rounds = N) {t : Nat} (ht : t < (measured (lay.closedCircuit N)).length) :
    (∃ k < N, ∃ e ∈ lay.round_edges (k : Nat), t = lay.mTime k e) ∨ ∃ q ∈ lay.data_qubit_coords, t = lay.dTime N q := by
  have hlen : (measured (lay.closedCircuit N)).length = N * lay.perRound + lay.data_qubit_coords.length := by
    rw [(closed_uses hv hs hN).2.2, List.length_append, List.length_map]
    congr 1
    generalize N = M
    induction M with
    | zero => simp
    | succ M ih => rw [List.range_succ, List.flatMap_append, List.length_append, ih, List.flatMap_singleton, roundMeas, List.length_map, perRound_eq hv, Nat.succ_mul]
  rw [hlen] at ht
  by_cases h : t < N * lay.perRound
  · have hP : 0 < lay.perRound := by
      rcases Nat.eq_zero_or_pos lay.perRound with h0 | h0
      · rw [h0] at h; omega
      · exact h0
    have hk : t / lay.perRound < N := Nat.div_lt_of_lt_mul (by rwa [Nat.mul_comm])
    have hj : t % lay.perRound < (lay.round_edges (t / lay.perRound : Nat)).length := by rw [perRound_eq hv]; exact Nat.mod_lt _ hP
    refine .inl ⟨t / lay.perRound, hk, _, List.getElem_mem hj, ?_⟩
    rw [mTime, (nodup_round_edges hv _).idxOf_getElem, Nat.mul_comm, Nat.div_add_mod]
  · have hj : t - N * lay.perRound < lay.data_qubit_coords.length := by omega
    refine .inr ⟨_, List.getElem_mem hj, ?_⟩
    rw [dTime, (nodup_data_qubit_coords lay).idxOf_getElem]
    omega

theorem recAt_ne {a b : List (ZMod 2)} {t : Nat} (h : recAt a t ≠ recAt b t) : a[t]? ≠ b[t]? := by
  intro e
  refine h ?_
  rw [recAt, recAt, List.getD_eq_getElem?_getD, List.getD_eq_getElem?_getD, e]

/-- Damage inside a region is a trajectory with errors in that region. -/
theorem damage_traj (hv : lay.Valid) (hs : lay.Supported) (hN : lay.sub_rounds = N)
    (h : FaultyRuns (lay.Inside B) F (lay.closedCircuit N) rec0 F' m) (hlen : rec.length = rec0.length)
    (hfl : ∀ t : Nat, rec[t]? ≠ rec0[t]? → ∃ qs ∈ lay.resultQubits[t]?, ∃ q ∈ qs, B q) :
    ∃ E Fs, lay.FaultyTrajectory N E Fs ∧ lay.Recorded N Fs (recAt rec) ∧ rec.length = N * lay.perRound + lay.data_qubit_coords.length ∧
      ∀ k, ∀ q ∈ lay.data_qubit_coords, E k q ≠ 0 → B q := by
  obtain ⟨rec1, G, m1, hr1, hd⟩ := absorb (B := lay.IsIn B) (C := lay.AncIn B) (F := F) (fun i hi => actions_disjoint (closed_nodup hv hs hN hi)
    (fun hg => ((goodL_closed hs N i hi).mpp hg).2)) (fun i hi => actions_tied fun hk x hx => by
      obtain ⟨he, hl⟩ := (goodL_closed hs N i hi).link hk
      obtain ⟨k, e, hem, h1, h2⟩ := hl x hx
      have hea := round_edges_subset_all hem
      have hends := ends_data hv hea
      refine ⟨?_, ?_⟩
      · rintro ⟨_, e', he', _, _, hc⟩
        exfalso
        rcases h1 with h1 | h1
        · exact center_ne_data hv he' hends.1 (by rw [← hc, h1])
        · exact center_ne_data hv he' hends.2 (by rw [← hc, h1])
      · rintro ⟨_, e', he', hb1, hb2, hc⟩
        have hcc := idx_inj hv (center_mem_order hea) (center_mem_order he') (by rw [← hc, h2])
        obtain rfl := edge_center_inj hv hea he' hcc
        rcases h1 with h1 | h1
        · exact ⟨_, hends.1, hb1, h1.symm⟩
        · exact ⟨_, hends.2, hb2, h1.symm⟩) (h.mono fun q hq => inside_or hq) ⟨fun _ _ _ => rfl, by simp⟩
  obtain ⟨Fs, E, locs, ht, hr, hl, hloc, hle, hB⟩ := closed_frun hv hs hN hr1
  have hl0 : rec.length = N * lay.perRound + lay.data_qubit_coords.length := by
    rw [hlen, hd.lengths.2, ← hd.lengths.1, hl]
  have hE : ∀ k, ∀ q ∈ lay.data_qubit_coords, E k q ≠ 0 → B q := fun k q hq hne => hB _ (hloc k q hq hne)
  have split : ∀ t, recAt rec t ≠ recAt rec1 t → rec[t]? ≠ rec0[t]? ∨ rec0[t]? ≠ rec1[t]? := by
    intro t ht
    by_contra hc
    push Not at hc
    exact recAt_ne ht (hc.1.trans hc.2)
  obtain ⟨E', Fs', ht', hr', hE'⟩ := flipped_trajectory hv ht hr hE (R' := recAt rec) (fun k hk e he hne => by
    rcases split _ hne with h | h
    · obtain ⟨qs, hqs, q, hq, hb⟩ := hfl _ h
      rw [result_edge hN hv hk he] at hqs
      obtain rfl := Option.some.inj hqs
      simp only [List.mem_cons, List.not_mem_nil, or_false] at hq
      rcases hq with rfl | rfl
      · exact .inl hb
      · exact .inr hb
    · obtain ⟨P, hP, x, hx, hem, e', he', hb1, hb2, hc⟩ := hd.get _ h
      rw [measured_edge hv hs hN hk he, Option.some.injEq, hem] at hP
      subst hP
      simp only [Bool.false_eq_true, if_false, List.mem_singleton] at hx
      subst hx
      have hcc := idx_inj hv (center_mem_order (round_edges_subset_all he)) (center_mem_order he') hc
      obtain rfl := edge_center_inj hv (round_edges_subset_all he) he' hcc
      exact .inl hb1) (fun q hq hne => by
    rcases split _ hne with h | h
    · obtain ⟨qs, hqs, q', hq', hb⟩ := hfl _ h
      rw [result_data hN hv hq] at hqs
      obtain rfl := Option.some.inj hqs
      rw [List.mem_singleton.1 hq'] at hb
      exact hb
    · obtain ⟨P, hP, x, hx, hem, e', he', hb1, hb2, hc⟩ := hd.get _ h
      rw [measured_data hv hs hN hq, Option.some.injEq] at hP
      subst hP
      rw [List.mem_singleton] at hx
      subst hx
      exact absurd hc.symm (center_ne_data hv he' hq))
  exact ⟨E', Fs', ht', hr', hl0, hE'⟩

/-- Undetected damage that flips the observable crosses the whole torus. -/
theorem closed_damage (hv : lay.Valid) (hs : lay.Supported) (hN : lay.sub_rounds = N) (h1 : 1 ≤ N)
    (h : FaultyRuns (lay.Inside B) F (lay.closedCircuit N) rec0 F' m) (hlen : rec.length = rec0.length)
    (hfl : ∀ t : Nat, rec[t]? ≠ rec0[t]? → ∃ qs ∈ lay.resultQubits[t]?, ∃ q ∈ qs, B q)
    (hz : ∀ x ∈ timeline 0 (lay.closedCircuit N), x.1.gate = .DETECTOR → flipParity rec x = some 0)
    (ho : observableValue lay.obsI (lay.closedCircuit N) rec ≠ some 0) :
    (lay.obs = "V" → ∀ i : Nat, (i : Int) < lay.data_width → ∃ q ∈ lay.data_qubit_coords, B q ∧ q.x = 4 * i + 2) ∧
    (lay.obs ≠ "V" → ∀ r : Nat, ∃ q ∈ lay.data_qubit_coords, B q ∧
      ((q.y / 2 - r) % lay.data_height = 0 ∨ (q.y / 2 - (r + 1)) % lay.data_height = 0)) := by
  obtain ⟨E', Fs', ht', hr', hl0, hE'⟩ := damage_traj hv hs hN h hlen hfl
  have hq := quiet_of_silent hr' hv (silent_of_detectors hv hs hN hl0 hz) h1
  rw [closed_obs_value hv hs hN hr' hl0] at ho
  have ho : lay.loopValue Fs' lay.obsLoop N ≠ 0 := fun e => ho (by rw [e])
  exact ⟨fun hV i hi => cut_v hv hV ht' hq hE' ho hi, fun hV r => cut_h hv hV ht' hq hE' ho r⟩

/-- Errors near some edges are damage at their ends. -/
theorem sampled_inside (hv : lay.Valid) (hs : lay.Supported) (hN : lay.sub_rounds = N) {es : List Edge} (hes : ∀ e ∈ es, e ∈ lay.all_edges)
    (h : FaultyRuns (lay.Reg es) F (lay.closedCircuit N) rec0 F' m) (hdiff : RecDiff (lay.Reg es) (measured (lay.closedCircuit N)) rec0 rec) :
    FaultyRuns (lay.Inside fun q => ∃ e ∈ es, q = e.left ∨ q = e.right) F (lay.closedCircuit N) rec0 F' m ∧ rec.length = rec0.length ∧
      ∀ t : Nat, rec[t]? ≠ rec0[t]? → ∃ qs ∈ lay.resultQubits[t]?, ∃ q ∈ qs, ∃ e ∈ es, q = e.left ∨ q = e.right := by
  have hreg : ∀ q, lay.Reg es q → lay.Inside (fun q => ∃ e ∈ es, q = e.left ∨ q = e.right) q := by
    rintro q ⟨e, he, rfl | rfl | ⟨hE, rfl⟩⟩
    · exact .inl ⟨e.left, (ends_data hv (hes e he)).1, ⟨e, he, .inl rfl⟩, rfl⟩
    · exact .inl ⟨e.right, (ends_data hv (hes e he)).2, ⟨e, he, .inr rfl⟩, rfl⟩
    · exact .inr ⟨hasAncillas_iff.2 hE, e, hes e he, ⟨e, he, .inl rfl⟩, ⟨e, he, .inr rfl⟩, rfl⟩
  refine ⟨h.mono hreg, by rw [hdiff.lengths.1, hdiff.lengths.2], fun t ht => ?_⟩
  have hlt : t < (measured (lay.closedCircuit N)).length := by
    by_contra hc
    rw [List.getElem?_eq_none (by rw [hdiff.lengths.2]; omega), List.getElem?_eq_none (by rw [hdiff.lengths.1]; omega)] at ht
    exact ht rfl
  obtain ⟨P, hP, x, hx, e, he, hr⟩ := hdiff.get t ht
  rcases measured_cases hv hs hN hlt with ⟨k, hk, e', he', rfl⟩ | ⟨q, hq, rfl⟩
  · rw [measured_edge hv hs hN hk he', Option.some.injEq] at hP
    refine ⟨_, result_edge hN hv hk he', ?_⟩
    have hd' := ends_data hv (round_edges_subset_all he')
    have hd := ends_data hv (hes e he)
    subst hP
    rcases hE : lay.isEM3 with _ | _
    · simp only [hE, Bool.false_eq_true, if_false, List.mem_singleton] at hx
      subst hx
      rcases hr with hr | hr | ⟨_, hr⟩
      · exact absurd hr (center_ne_data hv (round_edges_subset_all he') hd.1)
      · exact absurd hr (center_ne_data hv (round_edges_subset_all he') hd.2)
      · obtain rfl := edge_center_inj hv (round_edges_subset_all he') (hes e he) (idx_inj hv (center_mem_order (round_edges_subset_all he')) (center_mem_order (hes e he)) hr)
        exact ⟨e'.left, by simp, e', he, .inl rfl⟩
    · simp only [hE, if_true, List.mem_cons, List.not_mem_nil, or_false] at hx
      have hr' : ∃ p ∈ lay.data_qubit_coords, (p = e.left ∨ p = e.right) ∧ x.2 = lay.idx p := by
        rcases hr with hr | hr | ⟨h0, _⟩
        · exact ⟨_, hd.1, .inl rfl, hr⟩
        · exact ⟨_, hd.2, .inr rfl, hr⟩
        · rw [hE] at h0; cases h0
      obtain ⟨p, hp, hpe, hxp⟩ := hr'
      rcases hx with rfl | rfl
      · obtain rfl := idx_inj hv (data_mem_order hd'.1) (data_mem_order hp) hxp
        exact ⟨e'.left, by simp, e, he, hpe⟩
      · obtain rfl := idx_inj hv (data_mem_order hd'.2) (data_mem_order hp) hxp
        exact ⟨e'.right, by simp, e, he, hpe⟩
  · rw [measured_data hv hs hN hq, Option.some.injEq] at hP
    refine ⟨_, result_data hN hv hq, q, by simp, e, he, ?_⟩
    subst hP
    rw [List.mem_singleton] at hx
    subst hx
    have hd := ends_data hv (hes e he)
    rcases hr with hr | hr | ⟨_, hr⟩
    · exact .inl (idx_inj hv (data_mem_order hq) (data_mem_order hd.1) hr)
    · exact .inr (idx_inj hv (data_mem_order hq) (data_mem_order hd.2) hr)
    · exact absurd hr.symm (center_ne_data hv (hes e he) hq)

/-- Errors near some edges. -/
theorem closed_sampled (hv : lay.Valid) (hs : lay.Supported) (hN : lay.sub_rounds = N) (h1 : 1 ≤ N) {es : List Edge} (hes : ∀ e ∈ es, e ∈ lay.all_edges)
    (h : FaultyRuns (lay.Reg es) F (lay.closedCircuit N) rec0 F' m) (hdiff : RecDiff (lay.Reg es) (measured (lay.closedCircuit N)) rec0 rec)
    (hz : ∀ x ∈ timeline 0 (lay.closedCircuit N), x.1.gate = .DETECTOR → flipParity rec x = some 0)
    (ho : observableValue lay.obsI (lay.closedCircuit N) rec ≠ some 0) :
    (lay.obs = "V" → ∀ i : Nat, (i : Int) < lay.data_width → ∃ q ∈ lay.data_qubit_coords, (∃ e ∈ es, q = e.left ∨ q = e.right) ∧ q.x = 4 * i + 2) ∧
    (lay.obs ≠ "V" → ∀ r : Nat, ∃ q ∈ lay.data_qubit_coords, (∃ e ∈ es, q = e.left ∨ q = e.right) ∧
      ((q.y / 2 - r) % lay.data_height = 0 ∨ (q.y / 2 - (r + 1)) % lay.data_height = 0)) := by
  obtain ⟨g1, g2, g3⟩ := sampled_inside hv hs hN hes h hdiff
  exact closed_damage hv hs hN h1 g1 g2 g3 hz ho

/-! ## Counting -/

theorem count_cover {α : Type} {es : List α} {H K : Nat} (f : α → Nat → Nat) (h : ∀ r < H, ∃ e ∈ es, ∃ j < K, f e j = r) : H ≤ K * es.length := by
  have hs : List.range H ⊆ es.flatMap fun e => (List.range K).map (f e) := by
    intro r hr
    obtain ⟨e, he, j, hj, rfl⟩ := h r (List.mem_range.1 hr)
    exact List.mem_flatMap.2 ⟨e, he, List.mem_map.2 ⟨j, List.mem_range.2 hj, rfl⟩⟩
  have := (List.subperm_of_subset List.nodup_range hs).length_le
  rw [List.length_range, List.length_flatMap] at this
  simp only [List.length_map, List.length_range, List.map_const', List.sum_replicate, smul_eq_mul] at this
  rwa [Nat.mul_comm]

theorem emod_unique {a r H : Int} (h0 : 0 ≤ r) (h1 : r < H) (h : (a - r) % H = 0) : a % H = r := by
  rw [show a = r + (a - r) by ring, Int.add_emod, h, add_zero, Int.emod_emod_of_dvd _ dvd_rfl, Int.emod_eq_of_lt h0 h1]

/-- The rows of the ends of an edge. -/
theorem edge_rows (hv : lay.Valid) {e : Edge} (he : e ∈ lay.all_edges) :
    ∃ a ∈ ([-1, 0, 1] : List Int), (e.right.y / 2 - e.left.y / 2 - a) % lay.data_height = 0 := by
  obtain ⟨h, t, ⟨_, _, hy, _⟩, rfl⟩ := (mem_all_edges hv).1 he
  rw [Valid.dh hv]
  have key : ∀ a b c : Int, a % 2 = 0 → b % 2 = 0 → b - a = 2 * c → ((h.y + b) % (12 * lay.tile_height) / 2 - (h.y + a) % (12 * lay.tile_height) / 2 - c) % (6 * lay.tile_height) = 0 := by
    intro a b c ha hb hc
    have e : ∀ y : Int, y % 2 = 0 → y % (12 * lay.tile_height) / 2 = y / 2 - 6 * lay.tile_height * (y / (12 * lay.tile_height)) := by
      intro y h0
      rw [Int.emod_def, show y - 12 * lay.tile_height * (y / (12 * lay.tile_height)) = y + (-(6 * lay.tile_height * (y / (12 * lay.tile_height)))) * 2 by ring,
        Int.add_mul_ediv_right _ _ (by omega)]
      ring
    rw [e _ (by omega), e _ (by omega)]
    apply Int.emod_eq_zero_of_dvd
    refine ⟨(h.y + a) / (12 * lay.tile_height) - (h.y + b) / (12 * lay.tile_height), ?_⟩
    have : (h.y + b) / 2 - (h.y + a) / 2 - c = 0 := by omega
    linarith
  cases t
  · exact ⟨1, by simp, key (-4) (-2) 1 (by omega) (by omega) (by omega)⟩
  · exact ⟨-1, by simp, key 4 2 (-1) (by omega) (by omega) (by omega)⟩
  · exact ⟨0, by simp, key 0 0 0 (by omega) (by omega) (by omega)⟩

theorem column_index {q : Pt} {i : Nat} (h : q.x = 4 * i + 2) : ((q.x - 2) / 4).toNat = i := by
  rw [h]; omega

theorem row_index {a H : Int} {r : Nat} (hr : (r : Int) < H) (h : (a - r) % H = 0) : (a % H).toNat = r := by
  rw [emod_unique (by omega) hr h, Int.toNat_natCast]

/-- A region that crosses the torus has many data qubits. -/
theorem cross_points (hv : lay.Valid) {L : List Pt} :
    ((∀ i : Nat, (i : Int) < lay.data_width → ∃ q ∈ lay.data_qubit_coords, q ∈ L ∧ q.x = 4 * i + 2) → lay.data_width ≤ L.length) ∧
    ((∀ r : Nat, ∃ q ∈ lay.data_qubit_coords, q ∈ L ∧ ((q.y / 2 - r) % lay.data_height = 0 ∨ (q.y / 2 - (r + 1)) % lay.data_height = 0)) →
      lay.data_height ≤ 2 * L.length) := by
  refine ⟨fun h => ?_, fun h => ?_⟩
  · have := count_cover (es := L) (H := lay.data_width.toNat) (K := 1) (fun q _ => ((q.x - 2) / 4).toNat) (fun r hr => by
      obtain ⟨q, _, hq, e⟩ := h r (by omega)
      exact ⟨q, hq, 0, by omega, column_index e⟩)
    omega
  · have := count_cover (es := L) (H := lay.data_height.toNat) (K := 2) (fun q j => ((q.y / 2 - j) % lay.data_height).toNat) (fun r hr => by
      obtain ⟨q, _, hq, e | e⟩ := h r
      · exact ⟨q, hq, 0, by omega, row_index (by omega) (by simpa using e)⟩
      · refine ⟨q, hq, 1, by omega, row_index (by omega) ?_⟩
        rw [← e]; congr 1; push_cast; ring)
    omega

/-- 1 if the right end is one row above the left end. -/
def tilt (lay : HoneycombLayout) (e : Edge) : Int := if (e.right.y / 2 - e.left.y / 2 - 1) % lay.data_height = 0 then 1 else 0

/-- A set of edges that crosses the torus is large. -/
theorem cross_edges (hv : lay.Valid) {es : List Edge} (hes : ∀ e ∈ es, e ∈ lay.all_edges) :
    ((∀ i : Nat, (i : Int) < lay.data_width → ∃ q ∈ lay.data_qubit_coords, (∃ e ∈ es, q = e.left ∨ q = e.right) ∧ q.x = 4 * i + 2) →
      lay.data_width ≤ 2 * es.length) ∧
    ((∀ r : Nat, ∃ q ∈ lay.data_qubit_coords, (∃ e ∈ es, q = e.left ∨ q = e.right) ∧
      ((q.y / 2 - r) % lay.data_height = 0 ∨ (q.y / 2 - (r + 1)) % lay.data_height = 0)) → lay.data_height ≤ 3 * es.length) := by
  refine ⟨fun h => ?_, fun h => ?_⟩
  · have := count_cover (es := es) (H := lay.data_width.toNat) (K := 2) (fun e j => (((if j = 0 then e.left.x else e.right.x) - 2) / 4).toNat) (fun r hr => by
      obtain ⟨q, _, ⟨e, he, rfl | rfl⟩, hx⟩ := h r (by omega)
      · exact ⟨e, he, 0, by omega, by rw [if_pos rfl]; exact column_index hx⟩
      · exact ⟨e, he, 1, by omega, by rw [if_neg (by omega)]; exact column_index hx⟩)
    omega
  · have := count_cover (es := es) (H := lay.data_height.toNat) (K := 3) (fun e j =>
      ((e.left.y / 2 + lay.tilt e - j) % lay.data_height).toNat) (fun r hr => by
      obtain ⟨q, _, ⟨e, he, hq⟩, hx⟩ := h r
      obtain ⟨s, hs, hx⟩ : ∃ s : Nat, s < 2 ∧ (q.y / 2 - (r + s)) % lay.data_height = 0 := by
        rcases hx with hx | hx
        · exact ⟨0, by omega, by simpa using hx⟩
        · exact ⟨1, by omega, by simpa using hx⟩
      have shift : ∀ {c : Int}, (e.right.y / 2 - e.left.y / 2 - c) % lay.data_height = 0 → (e.right.y / 2 - (r + s)) % lay.data_height = 0 →
          (e.left.y / 2 + c - (r + s)) % lay.data_height = 0 := by
        intro c h1 h2
        have := Int.dvd_sub (Int.dvd_of_emod_eq_zero h2) (Int.dvd_of_emod_eq_zero h1)
        refine Int.emod_eq_zero_of_dvd ?_
        convert this using 1
        ring
      have fin : ∀ {c : Int} {j : Nat}, (e.left.y / 2 + c - (r + s)) % lay.data_height = 0 → j < 3 →
          c - s = lay.tilt e - j →
          ∃ e ∈ es, ∃ j < 3, ((e.left.y / 2 + lay.tilt e - (j : Nat)) % lay.data_height).toNat = r := by
        intro c j h1 hj h2
        refine ⟨e, he, j, hj, row_index (by omega) ?_⟩
        rw [← h1]
        congr 1
        linarith
      rcases hq with rfl | rfl
      · by_cases h1 : (e.right.y / 2 - e.left.y / 2 - 1) % lay.data_height = 0
        · exact fin (c := 0) (j := s + 1) (by simpa using hx) (by omega) (by rw [tilt, if_pos h1]; push_cast; ring)
        · exact fin (c := 0) (j := s) (by simpa using hx) (by omega) (by rw [tilt, if_neg h1])
      · obtain ⟨a, ha, har⟩ := edge_rows hv (hes e he)
        have hsh := shift har hx
        by_cases h1 : (e.right.y / 2 - e.left.y / 2 - 1) % lay.data_height = 0
        · exact fin (c := 1) (j := s) (shift h1 hx) (by omega) (by rw [tilt, if_pos h1])
        · simp only [List.mem_cons, List.not_mem_nil, or_false] at ha
          rcases ha with rfl | rfl | rfl
          · exact fin (c := -1) (j := s + 1) hsh (by omega) (by rw [tilt, if_neg h1]; push_cast; ring)
          · exact fin (c := 0) (j := s) hsh (by omega) (by rw [tilt, if_neg h1])
          · exact absurd har h1)
    omega

end HoneycombLayout
end Honeycomb
