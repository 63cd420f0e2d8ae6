import Verif.Lemmas.Live
import Verif.Lemmas.LivePc3

/-!
# How many faults the damage of one error is

The damage an error does near one edge is a trajectory with a bounded number of faults.
-/

namespace Honeycomb
namespace HoneycombLayout
variable {lay : HoneycombLayout} {N K K' : Nat} {D D' : Nat → ZMod 2} {F F' : Frame} {rec rec0 : List (ZMod 2)} {m : Nat}

/-- At most `K` edge results and results of data qubits are flipped by the flips `D` of measurement results. -/
def Spotted (lay : HoneycombLayout) (N : Nat) (D : Nat → ZMod 2) (K : Nat) : Prop :=
  ∃ (fl : List (Nat × Edge)) (fd : List Pt), fl.length + fd.length ≤ K ∧
    (∀ k < N, ∀ e ∈ lay.round_edges k, val D (lay.vE k e) ≠ 0 → (k, e) ∈ fl) ∧
    ∀ q ∈ lay.data_qubit_coords, D (lay.dTime N q) ≠ 0 → q ∈ fd

theorem Spotted.mono (h : lay.Spotted N D K) (hK : K ≤ K') : lay.Spotted N D K' := by
  obtain ⟨fl, fd, h1, h2⟩ := h
  exact ⟨fl, fd, h1.trans hK, h2⟩

theorem Spotted.add (h : lay.Spotted N D K) (h' : lay.Spotted N D' K') : lay.Spotted N (fun t => D t + D' t) (K + K') := by
  obtain ⟨fl, fd, h1, h2, h3⟩ := h
  obtain ⟨gl, gd, g1, g2, g3⟩ := h'
  refine ⟨fl ++ gl, fd ++ gd, by simp only [List.length_append]; omega, fun k hk e he hne => ?_, fun q hq hne => ?_⟩
  · rw [val_add] at hne
    by_cases h : val D (lay.vE k e) = 0
    · exact List.mem_append_right _ (g2 k hk e he fun h' => hne (by rw [h, h', add_zero]))
    · exact List.mem_append_left _ (h2 k hk e he h)
  · by_cases h : D (lay.dTime N q) = 0
    · exact List.mem_append_right _ (g3 q hq fun h' => hne (by show D _ + D' _ = 0; rw [h, h', add_zero]))
    · exact List.mem_append_left _ (h3 q hq h)

theorem diffs_places : ∀ {a b : List (ZMod 2)}, a.length = b.length → ∃ ts : List Nat, ts.length = diffs a b ∧ ∀ t, recAt a t ≠ recAt b t → t ∈ ts
  | [], [], _ => ⟨[], by simp [diffs], fun t h => absurd rfl h⟩
  | x :: a, y :: b, h => by
    obtain ⟨ts, h1, h2⟩ := diffs_places (a := a) (b := b) (by simpa using h)
    have hs : ∀ t, recAt (x :: a) (t + 1) = recAt a t ∧ recAt (y :: b) (t + 1) = recAt b t := fun t => by simp [recAt]
    by_cases e : x = y
    · refine ⟨ts.map (· + 1), by rw [diffs, List.length_map, h1, if_pos e]; omega, fun t ht => ?_⟩
      rcases t with _ | t
      · exact absurd (by simp [recAt, e]) ht
      · rw [(hs t).1, (hs t).2] at ht
        exact List.mem_map_of_mem (h2 t ht)
    · refine ⟨0 :: ts.map (· + 1), by rw [diffs, List.length_cons, List.length_map, h1, if_neg e]; omega, fun t ht => ?_⟩
      rcases t with _ | t
      · exact List.mem_cons_self
      · rw [(hs t).1, (hs t).2] at ht
        exact List.mem_cons_of_mem _ (List.mem_map_of_mem (h2 t ht))
  | [], _ :: _, h => by simp at h
  | _ :: _, [], h => by simp at h

theorem data_time_inj {q q' : Pt} (hq : q ∈ lay.data_qubit_coords) (hq' : q' ∈ lay.data_qubit_coords) (h : lay.dTime N q = lay.dTime N q') : q = q' := by
  have h1 : lay.data_qubit_coords.idxOf q = lay.data_qubit_coords.idxOf q' := by rw [dTime, dTime] at h; omega
  exact (List.idxOf_inj hq).1 h1

theorem spotted_diffs (hv : lay.Valid) {a b : List (ZMod 2)} (h : a.length = b.length) :
    lay.Spotted N (fun t => recAt a t + recAt b t) (3 * diffs a b) := by
  classical
  obtain ⟨ts, h1, h2⟩ := diffs_places h
  have hD : ∀ t, recAt a t + recAt b t ≠ 0 → t ∈ ts := fun t ht => h2 t fun e => ht (by rw [e]; exact CharTwo.add_self_eq_zero _)
  let f : Nat → List (Nat × Edge) := fun t => if h : ∃ x : Nat × Edge, x.2 ∈ lay.round_edges x.1 ∧ lay.mTime x.1 x.2 = t then [h.choose, (h.choose.1 + 3, h.choose.2)] else []
  let g : Nat → List Pt := fun t => if h : ∃ q ∈ lay.data_qubit_coords, lay.dTime N q = t then [h.choose] else []
  have hf : ∀ (k : Nat) e, e ∈ lay.round_edges k → f (lay.mTime k e) = [(k, e), (k + 3, e)] := fun k e he => by
    have hx : ∃ x : Nat × Edge, x.2 ∈ lay.round_edges x.1 ∧ lay.mTime x.1 x.2 = lay.mTime k e := ⟨(k, e), he, rfl⟩
    have := mTime_inj hv hx.choose_spec.1 he hx.choose_spec.2
    have e1 : hx.choose = (k, e) := Prod.ext this.1 this.2
    show (if h : _ then _ else _) = _
    rw [dif_pos hx, e1]
  have hg : ∀ q ∈ lay.data_qubit_coords, g (lay.dTime N q) = [q] := fun q hq => by
    have hx : ∃ q' ∈ lay.data_qubit_coords, lay.dTime N q' = lay.dTime N q := ⟨q, hq, rfl⟩
    show (if h : _ then _ else _) = _
    rw [dif_pos hx, data_time_inj hx.choose_spec.1 hq hx.choose_spec.2]
  have hfl : ∀ l : List Nat, (l.flatMap f).length + (l.flatMap g).length ≤ 3 * l.length := fun l => by
    induction l with
    | nil => simp
    | cons t l ih =>
      have h3 : (f t).length ≤ 2 := by
        show (if h : _ then _ else _ : List _).length ≤ 2
        split_ifs <;> simp
      have h4 : (g t).length ≤ 1 := by
        show (if h : _ then _ else _ : List _).length ≤ 1
        split_ifs <;> simp
      simp only [List.flatMap_cons, List.length_append, List.length_cons]
      omega
  refine ⟨ts.flatMap f, ts.flatMap g, by rw [← h1]; exact hfl ts, fun k hk e he hne => ?_, fun q hq hne => ?_⟩
  · rw [List.mem_flatMap]
    by_cases h0 : recAt a (lay.mTime k e) + recAt b (lay.mTime k e) = 0
    · rw [vE] at hne
      split_ifs at hne with hc
      · rw [val_symmDiff, val_singleton, val_singleton, h0, zero_add] at hne
        have he' : e ∈ lay.round_edges ((k - 3 : Nat) : Int) := by
          have : lay.round_edges ((k - 3 : Nat) : Int) = lay.round_edges (k : Int) := round_edges_congr lay (by omega)
          rw [this]; exact he
        refine ⟨_, hD _ hne, ?_⟩
        rw [hf _ _ he', Nat.sub_add_cancel hc.2]
        simp
      · rw [val_singleton] at hne
        exact absurd h0 hne
    · exact ⟨_, hD _ h0, by rw [hf _ _ he]; simp⟩
  · rw [List.mem_flatMap]
    exact ⟨_, hD _ hne, by rw [hg _ hq]; simp⟩

/-- The errors of a trajectory whose results are flipped in `K` places are few. -/
theorem patched_count (hv : lay.Valid) {E Fs : Nat → PauliOp} {R : Nat → ZMod 2} (ht : lay.FaultyTrajectory N E Fs) (hr : lay.Recorded N Fs R)
    {locs : List (Nat × Pt)} (hl : lay.Located E locs) (hD : lay.Spotted N D K) :
    ∃ E' Fs' locs', lay.FaultyTrajectory N E' Fs' ∧ lay.Recorded N Fs' (fun t => R t + D t) ∧ lay.Located E' locs' ∧
      locs'.length ≤ locs.length + 2 * K := by
  classical
  obtain ⟨fl, fd, h1, h2, h3⟩ := hD
  obtain ⟨t1, t2⟩ := patched_trajectory (B := fun _ => True) hv ht hr (D := D) rfl
  refine ⟨_, _, locs ++ (fl.map (fun x => (x.1, x.2.left)) ++ fl.map (fun x => (x.1 + 1, x.2.left)) ++ (fd.map (fun q => (N, q)) ++ fd.map fun q => (N + 1, q))),
    t1, t2, ?_, ?_⟩
  · have hp : ∀ (k : Nat) q, q ∈ lay.data_qubit_coords → lay.patch (fun _ => True) N D k q ≠ 0 →
        (∃ e, (k, e) ∈ fl ∧ q = e.left) ∨ (k = N ∧ q ∈ fd) := fun k q hq hne => by
      rw [patch] at hne
      by_cases hk : k < N
      · rw [if_pos hk] at hne
        by_cases hx : ∃ e ∈ lay.round_edges k, val D (lay.vE k e) ≠ 0 ∧ q = if True then e.left else e.right
        · obtain ⟨e, he, hv', rfl⟩ := hx
          exact .inl ⟨e, h2 k hk e he hv', by simp⟩
        · rw [if_neg (by simpa using hx)] at hne
          exact absurd rfl hne
      · rw [if_neg hk] at hne
        by_cases hk' : k = N
        · rw [if_pos hk'] at hne
          by_cases hx : D (lay.dTime N q) ≠ 0
          · exact .inr ⟨hk', h3 q hq hx⟩
          · rw [if_neg hx] at hne
            exact absurd rfl hne
        · rw [if_neg hk'] at hne
          exact absurd rfl hne
    intro k q hq hne
    by_cases a1 : E k q = 0
    · by_cases a2 : lay.patch (fun _ => True) N D k q = 0
      · beta_reduce at hne
        rw [a1, a2] at hne
        rcases k with _ | k
        · exact absurd rfl hne
        · simp only [Nat.succ_ne_zero, if_false, Nat.add_sub_cancel, zero_add] at hne
          rcases hp k q hq hne with ⟨e, he, rfl⟩ | ⟨rfl, h⟩
          · simp only [List.mem_append, List.mem_map]
            exact .inr (.inl (.inr ⟨_, he, rfl⟩))
          · simp only [List.mem_append, List.mem_map]
            exact .inr (.inr (.inr ⟨_, h, rfl⟩))
      · rcases hp k q hq a2 with ⟨e, he, rfl⟩ | ⟨rfl, h⟩
        · simp only [List.mem_append, List.mem_map]
          exact .inr (.inl (.inl ⟨_, he, rfl⟩))
        · simp only [List.mem_append, List.mem_map]
          exact .inr (.inr (.inl ⟨_, h, rfl⟩))
    · exact List.mem_append_left _ (hl k q hq a1)
  · simp only [List.length_append, List.length_map]
    omega

theorem tied_edge (hv : lay.Valid) (hs : lay.Supported) {e : Edge} (he : e ∈ lay.all_edges) {i : Instr} (hi : i ∈ lay.closedCircuit N) :
    ∀ a ∈ i.actions, a.Tied (lay.IsIn fun q => q = e.left ∨ q = e.right) (· = lay.idx e.center) := by
  refine actions_tied fun hk x hx => ?_
  obtain ⟨-, hl⟩ := (goodL_closed hs N i hi).link hk
  obtain ⟨k, e', hem, h1, h2⟩ := hl x hx
  have hea := round_edges_subset_all hem
  have hends := ends_data hv hea
  refine ⟨?_, ?_⟩
  · rintro hc
    exfalso
    rcases h1 with h1 | h1
    · exact center_ne_data hv he hends.1 (by rw [← hc, h1])
    · exact center_ne_data hv he hends.2 (by rw [← hc, h1])
  · rintro hc
    have hcc := idx_inj hv (center_mem_order hea) (center_mem_order he) (by rw [← hc, h2])
    obtain rfl := edge_center_inj hv hea he hcc
    rcases h1 with h1 | h1
    · exact ⟨_, hends.1, .inl rfl, h1.symm⟩
    · exact ⟨_, hends.2, .inr rfl, h1.symm⟩

theorem reg_single (hv : lay.Valid) {e : Edge} (he : e ∈ lay.all_edges) {q : Nat} (h : lay.Reg [e] q) :
    lay.IsIn (fun q => q = e.left ∨ q = e.right) q ∨ (lay.isEM3 = false ∧ q = lay.idx e.center) := by
  obtain ⟨e', he', h⟩ := h
  obtain rfl := List.mem_singleton.1 he'
  have hends := ends_data hv he
  rcases h with rfl | rfl | h
  · exact .inl ⟨_, hends.1, .inl rfl, rfl⟩
  · exact .inl ⟨_, hends.2, .inr rfl, rfl⟩
  · exact .inr h

theorem mTime_order {k k' : Nat} {e : Edge} (hv : lay.Valid) (he : e ∈ lay.round_edges k) (he' : e ∈ lay.round_edges k') : lay.mTime k e < lay.mTime k' e ↔ k < k' := by
  have h0 : lay.round_edges k = lay.round_edges k' := round_edges_congr lay (round_edges_disjoint hv he he')
  have h1 := List.idxOf_lt_length_iff.2 he'
  rw [perRound_eq hv] at h1
  rw [mTime, mTime, h0, Nat.add_lt_add_iff_right]
  exact Nat.mul_lt_mul_right (by omega)

/-- The results of an ancilla that is not reset. -/
theorem spotted_turning (hv : lay.Valid) (hs : lay.Supported) (hN : lay.sub_rounds = N) (hP : lay.isPC3 = true) (hE : lay.isEM3 = false) {e : Edge} (he : e ∈ lay.all_edges)
    {a b : List (ZMod 2)} {b' : ZMod 2} (h : Turning (lay.idx e.center) 0 (measured (lay.closedCircuit N)) a b K b') :
    lay.Spotted N (fun t => recAt a t + recAt b t) K := by
  classical
  obtain ⟨ts, h1, h2⟩ := turning_places h
  have hme : ∀ (k : Nat) e', k < N → e' ∈ lay.round_edges k → (measured (lay.closedCircuit N))[lay.mTime k e']? = some [(.Z, lay.idx e'.center)] := fun k e' hk he' => by
    rw [measured_edge hv hs hN hk he', hE]
    rfl
  have hon : ∀ s P, (measured (lay.closedCircuit N))[s]? = some P → (∃ x ∈ P, x.2 = lay.idx e.center) → ∃ k < N, e ∈ lay.round_edges (k : Nat) ∧ s = lay.mTime k e := by
    intro s P hP' ⟨x, hx, hxe⟩
    rcases measured_cases hv hs hN (List.getElem?_eq_some_iff.1 hP').1 with ⟨k, hk, e', he', rfl⟩ | ⟨q, hq, rfl⟩
    · rw [hme k e' hk he'] at hP'
      obtain rfl := Option.some.inj hP'
      obtain rfl := List.mem_singleton.1 hx
      have hcc := idx_inj hv (center_mem_order (round_edges_subset_all he')) (center_mem_order he) hxe
      obtain rfl := edge_center_inj hv (round_edges_subset_all he') he hcc
      exact ⟨k, hk, he', rfl⟩
    · rw [measured_data hv hs hN hq] at hP'
      obtain rfl := Option.some.inj hP'
      obtain rfl := List.mem_singleton.1 hx
      exact absurd hxe.symm (center_ne_data hv he hq)
  have hoff : ∀ (k : Nat) e', k < N → e' ∈ lay.round_edges k → e' ≠ e → recAt a (lay.mTime k e') + recAt b (lay.mTime k e') = 0 := fun k e' hk he' hne => by
    rw [(h2 _ _ (hme k e' hk he')).1 fun x hx hxe => ?_]
    · exact CharTwo.add_self_eq_zero _
    · obtain rfl := List.mem_singleton.1 hx
      exact hne (edge_center_inj hv (round_edges_subset_all he') he (idx_inj hv (center_mem_order (round_edges_subset_all he')) (center_mem_order he) hxe))
  have hprev : ∀ k : Nat, 3 ≤ k → e ∈ lay.round_edges k → e ∈ lay.round_edges ((k - 3 : Nat) : Int) := fun k hk he => by
    have : lay.round_edges ((k - 3 : Nat) : Int) = lay.round_edges (k : Int) := round_edges_congr lay (by omega)
    rw [this]
    exact he
  let f : Nat → List (Nat × Edge) := fun t => if h : ∃ k : Nat, e ∈ lay.round_edges k ∧ lay.mTime k e = t then [(h.choose, e)] else []
  have hf : ∀ k : Nat, e ∈ lay.round_edges k → f (lay.mTime k e) = [(k, e)] := fun k he => by
    have hx : ∃ k' : Nat, e ∈ lay.round_edges k' ∧ lay.mTime k' e = lay.mTime k e := ⟨k, he, rfl⟩
    show (if h : _ then _ else _) = _
    rw [dif_pos hx, (mTime_inj hv hx.choose_spec.1 he hx.choose_spec.2).1]
  have hfl : ∀ l : List Nat, (l.flatMap f).length ≤ l.length := fun l => by
    induction l with
    | nil => simp
    | cons t l ih =>
      have h3 : (f t).length ≤ 1 := by
        show (if h : _ then _ else _ : List _).length ≤ 1
        split_ifs <;> simp
      simp only [List.flatMap_cons, List.length_append, List.length_cons]
      omega
  refine ⟨ts.flatMap f, [], by have := hfl ts; simp only [List.length_nil]; omega, fun k hk e' he' hne => ?_, fun q hq hne => ?_⟩
  · by_cases hee : e' = e
    · subst hee
      by_contra hno
      have ht : lay.mTime k e' ∉ ts := fun h => hno (List.mem_flatMap.2 ⟨_, h, by rw [hf k he']; simp⟩)
      rcases (h2 _ _ (hme k e' hk he')).2 ⟨_, List.mem_singleton_self _, rfl⟩ ht with ⟨s, ⟨p1, ⟨P, p2, p2'⟩, p3⟩, hd⟩ | ⟨p1, hd⟩
      · obtain ⟨k', hk', he2, rfl⟩ := hon s P p2 p2'
        have hlt := (mTime_order hv he2 he').1 p1
        have hc := round_edges_disjoint hv he2 he'
        have hk3 : 3 ≤ k := by omega
        have he3 := hprev k hk3 he'
        have heq : k' = k - 3 := by
          by_contra hne'
          refine p3 (lay.mTime (k - 3) e') ((mTime_order hv he2 he3).2 (by omega)) ((mTime_order hv he3 he').2 (by omega)) _ (hme (k - 3) e' (by omega) he3) ?_
          exact ⟨_, List.mem_singleton_self _, rfl⟩
        rw [vE, if_pos ⟨hP, hk3⟩, val_symmDiff, val_singleton, val_singleton, ← heq] at hne
        refine hne ?_
        beta_reduce
        rw [hd]
        exact CharTwo.add_self_eq_zero _
      · by_cases hk3 : 3 ≤ k
        · have he3 := hprev k hk3 he'
          exact p1 (lay.mTime (k - 3) e') ((mTime_order hv he3 he').2 (by omega)) _ (hme (k - 3) e' (by omega) he3) ⟨_, List.mem_singleton_self _, rfl⟩
        · rw [vE, if_neg (fun h => hk3 h.2), val_singleton] at hne
          exact hne hd
    · exfalso
      refine hne ?_
      rw [vE]
      split_ifs with hc
      · have he3 : e' ∈ lay.round_edges ((k - 3 : Nat) : Int) := by
          have : lay.round_edges ((k - 3 : Nat) : Int) = lay.round_edges (k : Int) := round_edges_congr lay (by omega)
          rw [this]
          exact he'
        rw [val_symmDiff, val_singleton, val_singleton]
        beta_reduce
        rw [hoff k e' hk he' hee, hoff (k - 3) e' (by omega) he3 hee, add_zero]
      · rw [val_singleton]
        exact hoff k e' hk he' hee
  · exfalso
    refine hne ?_
    beta_reduce
    rw [(h2 _ _ (measured_data hv hs hN hq)).1 fun x hx hxe => ?_]
    · exact CharTwo.add_self_eq_zero _
    · obtain rfl := List.mem_singleton.1 hx
      exact center_ne_data hv he hq hxe.symm

/-- Faults on the ancilla of an edge are few faults at the ends of the edge and few flipped results. -/
theorem absorbed (hv : lay.Valid) (hs : lay.Supported) (hN : lay.sub_rounds = N) {e : Edge} (he : e ∈ lay.all_edges)
    (h : FaultyRuns (lay.Reg [e]) F (lay.closedCircuit N) rec0 F' m) :
    ∃ rec1 G m1, FaultyRuns (lay.IsIn fun q => q = e.left ∨ q = e.right) F (lay.closedCircuit N) rec1 G m1 ∧ rec1.length = rec0.length ∧
      m1 ≤ 1000 * m ∧ lay.Spotted N (fun t => recAt rec1 t + recAt rec0 t) (1000 * m) := by
  rcases hE : lay.isEM3 with _ | _
  · rcases hP : lay.isPC3 with _ | _
    · obtain ⟨rec1, G, m1, h1, h2, -, h4⟩ := absorb_count (F := F) (c := lay.idx e.center) (L := 200)
        (fun i hi => actions_disjoint (closed_nodup hv hs hN hi) (fun hg => ((goodL_closed hs N i hi).mpp hg).2))
        (fun i hi => tied_edge hv hs he hi) (live_closed hv hs hE hP he) (h.mono fun q hq => (reg_single hv he hq).imp_right And.right) (fun _ _ => rfl)
      have h4 := h4 rfl
      have hlen : rec1.length = rec0.length := by rw [h2.lengths.1, h2.lengths.2]
      exact ⟨rec1, G, m1, h1, hlen, by omega, (spotted_diffs hv hlen).mono (by omega)⟩
    · have hst : lay.style = "PC3" := by simpa [isPC3] using hP
      obtain ⟨rec1, G, m1, K, b', h1, h2, -, h4⟩ := absorb_plain (F := F) (c := lay.idx e.center) (b := 0) (L := 100)
        (fun i hi => actions_disjoint (closed_nodup hv hs hN hi) (fun hg => ((goodL_closed hs N i hi).mpp hg).2))
        (fun i hi => tied_edge hv hs he hi) (.inr ⟨rfl, fresh_closed hv hst hE he⟩) (soon_closed hv hst hE he)
        (h.mono fun q hq => (reg_single hv he hq).imp_right And.right) (fun _ _ => rfl)
      have h4 := h4 (add_zero (F (lay.idx e.center))).symm
      exact ⟨rec1, G, m1, h1, by rw [h1.rec_length, h.rec_length], by omega, (spotted_turning hv hs hN hP hE he h2).mono (by omega)⟩
  · refine ⟨rec0, F', m, h.mono fun q hq => (reg_single hv he hq).resolve_right (by simp [hE]), rfl, by omega, ?_⟩
    exact (spotted_diffs hv rfl).mono (by rw [diffs_self]; omega)

end HoneycombLayout
end Honeycomb
