import Verif.Lemmas.AncillaState
import Verif.Lemmas.Damage

/-! Every error of a noise channel of a circuit with ancillas is charged to one data qubit. -/

namespace Honeycomb
namespace HoneycombLayout
variable {lay : HoneycombLayout} {F F' G T : Frame} {rec : List (ZMod 2)} {n m : Nat}

/-- Data qubits of `qs` and ancillas of edges with an end in `qs`. -/
def Charged (lay : HoneycombLayout) (qs : List Pt) (i : Nat) : Prop :=
  lay.IsIn (· ∈ qs) i ∨ ∃ e ∈ lay.all_edges, (e.left ∈ qs ∨ e.right ∈ qs) ∧ i = lay.idx e.center

/-- Errors on ancillas that only flip results about `qs`. -/
def Harmless (lay : HoneycombLayout) (st : Edge → St) (qs : List Pt) (T : Frame) : Prop :=
  ∀ i, T i ≠ 0 → ∃ e ∈ lay.all_edges, i = lay.idx e.center ∧ (e.left ∈ qs ∨ e.right ∈ qs) ∧ (st e).Allows (T i)

def MovesAll (lay : HoneycombLayout) (i : Instr) (st st' : Edge → St) : Prop :=
  ∀ e ∈ lay.all_edges, Moves (lay.idx e.left) (lay.idx e.right) (lay.idx e.center) i (st e) (st' e)

/-- A standard instruction of the layout: two-qubit gates couple an end of an edge to its ancilla. -/
structure StdI (lay : HoneycombLayout) (i : Instr) : Prop where
  std : Std i
  link : ∀ P Q d a, Action.control P Q d a ∈ i.actions → ∃ e ∈ lay.all_edges, (d = lay.idx e.left ∨ d = lay.idx e.right) ∧ a = lay.idx e.center
  meas : ∀ P ∈ i.measures, ∃ q : Pt, ∀ x ∈ P, q ∈ lay.data_qubit_coords ∧ (x.2 = lay.idx q ∨ ∃ e ∈ lay.all_edges, e.left = q ∧ x.2 = lay.idx e.center)

/-- The run so far is a run with faults on the data qubits `qs`, up to errors on ancillas and flips of results about `qs`. -/
def Acc (lay : HoneycombLayout) (st : Edge → St) (A : List Instr) (F : Frame) (rec : List (ZMod 2)) (F' : Frame) (n : Nat) : Prop :=
  ∃ (qs : List Pt) (rec0 : List (ZMod 2)) (T : Frame) (m : Nat), qs.length ≤ n ∧ FaultyRuns (lay.IsIn (· ∈ qs)) F A rec0 (F' + T) m ∧
    lay.Harmless st qs T ∧ RecDiff (lay.Charged qs) (measured A) rec0 rec

theorem Charged.mono {qs qs' : List Pt} (h : ∀ q ∈ qs, q ∈ qs') {i : Nat} (hc : lay.Charged qs i) : lay.Charged qs' i := by
  rcases hc with ⟨p, hp, hq, e⟩ | ⟨e, he, hq, hi⟩
  · exact .inl ⟨p, hp, h p hq, e⟩
  · exact .inr ⟨e, he, hq.imp (h _) (h _), hi⟩

theorem isIn_mono {qs qs' : List Pt} (h : ∀ q ∈ qs, q ∈ qs') {i : Nat} (hc : lay.IsIn (· ∈ qs) i) : lay.IsIn (· ∈ qs') i := by
  obtain ⟨p, hp, hq, e⟩ := hc
  exact ⟨p, hp, h p hq, e⟩

theorem Harmless.mono {st : Edge → St} {qs qs' : List Pt} (h : ∀ q ∈ qs, q ∈ qs') (hc : lay.Harmless st qs T) : lay.Harmless st qs' T := by
  intro i hi
  obtain ⟨e, he, h1, h2, h3⟩ := hc i hi
  exact ⟨e, he, h1, h2.imp (h _) (h _), h3⟩

theorem allows_zero (s : St) : s.Allows 0 := by
  cases s
  · exact .inl rfl
  · exact .inl rfl
  · trivial

theorem allows_add {s : St} {p q : Pauli} (hp : s.Allows p) (hq : s.Allows q) : s.Allows (p + q) := by
  have key : ∀ t : Pauli, (p = 0 ∨ p = t) → (q = 0 ∨ q = t) → p + q = 0 ∨ p + q = t := by
    rintro t (rfl | rfl) (rfl | rfl)
    · exact .inl (add_zero _)
    · exact .inr (zero_add _)
    · exact .inr (add_zero _)
    · exact .inl (pauli_add_self _)
  cases s
  · exact key _ hp hq
  · exact key _ hp hq
  · trivial

theorem Harmless.add (hv : lay.Valid) {st : Edge → St} {qs : List Pt} {T T' : Frame} (h : lay.Harmless st qs T) (h' : lay.Harmless st qs T') :
    lay.Harmless st qs (T + T') := by
  intro i hi
  rw [Pi.add_apply] at hi ⊢
  by_cases h1 : T i = 0
  · rw [h1, zero_add] at hi ⊢
    exact h' i hi
  · obtain ⟨e, he, rfl, hq, ha⟩ := h i h1
    refine ⟨e, he, rfl, hq, allows_add ha ?_⟩
    by_cases h2 : T' (lay.idx e.center) = 0
    · rw [h2]; exact allows_zero _
    · obtain ⟨e', he', hi', hq', ha'⟩ := h' _ h2
      obtain rfl := edge_center_inj hv he he' (idx_inj hv (center_mem_order he) (center_mem_order he') hi')
      exact ha'

/-- One instruction. -/
theorem Harmless.step (hv : lay.Valid) {st st' : Edge → St} {qs : List Pt} {i : Instr} (hi : lay.StdI i) (hm : lay.MovesAll i st st')
    (h : lay.Harmless st qs T) : ∃ r T1, Runs T i.actions r T1 ∧ lay.Harmless st' qs T1 ∧ Calmed T i.measures r := by
  have own : ∀ {e e' : Edge}, e ∈ lay.all_edges → e' ∈ lay.all_edges → lay.idx e.center = lay.idx e'.center → e = e' := fun he he' h =>
    edge_center_inj hv he he' (idx_inj hv (center_mem_order he) (center_mem_order he') h)
  obtain ⟨r, T1, k1, k2, k3, k4⟩ := hi.std.runs (T := T) (fun P Q d a hx => by
    obtain ⟨e, he, hd, rfl⟩ := hi.link P Q d a hx
    have hd0 : T d = 0 := by
      by_contra hne
      obtain ⟨e', he', hc, -⟩ := h d hne
      have hends := ends_data hv he
      rcases hd with rfl | rfl
      · exact center_ne_data hv he' hends.1 hc.symm
      · exact center_ne_data hv he' hends.2 hc.symm
    have ha0 : anti (T (lay.idx e.center)) Q.pauli = 0 := by
      by_cases h0 : T (lay.idx e.center) = 0
      · rw [h0, anti_zero_left]
      · obtain ⟨e', he', hc, -, hal⟩ := h _ h0
        obtain rfl := own he he' hc
        have mv := hm e he
        have uniq : ∀ x ∈ i.actions, x.On (lay.idx e.center) → x = .control P Q d (lay.idx e.center) := fun x hx' hq => on_unique hi.std.disj hx' hx hq (.inr rfl)
        have key : ∀ t : Basis, t = Q → (T (lay.idx e.center) = 0 ∨ T (lay.idx e.center) = t.pauli) → anti (T (lay.idx e.center)) Q.pauli = 0 := by
          rintro t rfl (h | h)
          · rw [h, anti_zero_left]
          · rw [h, anti_self]
        generalize hs : st e = s at mv hal
        generalize hs' : st' e = s' at mv
        cases mv with
        | idle hn => exact absurd (.inr rfl) (hn _ hx)
        | tick => simp [Instr.actions, Instr.tick] at hx
        | reset hm => cases uniq _ hm rfl
        | meas hm => cases uniq _ hm ⟨_, List.mem_singleton_self _, rfl⟩
        | turn hm => cases uniq _ hm rfl
        | back hm => cases uniq _ hm rfl
        | @left _ P' Q' hm =>
          have := uniq _ hm (.inr rfl)
          rw [Action.control.injEq] at this
          exact key Q' this.2.1 hal
        | @right _ P' Q' hm =>
          have := uniq _ hm (.inr rfl)
          rw [Action.control.injEq] at this
          exact key Q' this.2.1 hal
    rw [hd0, ha0, zero_mul, zero_mul]
    rfl) 0
  refine ⟨r, T1, k1, fun j hj => ?_, k4⟩
  have old : T j ≠ 0 ∧ ((∀ x ∈ i.actions, ¬ x.On j) ∨ ∃ x ∈ i.actions, x.On j ∧ T1 j = x.out 0 T j) := by
    by_cases hq : ∃ x ∈ i.actions, x.On j
    · obtain ⟨x, hx, ho⟩ := hq
      have e := k3 x hx j ho
      refine ⟨fun h0 => hj ?_, .inr ⟨x, hx, ho, e⟩⟩
      rw [e]
      cases x with
      | clifford1 f y => rw [Action.out, h0]; exact linear_zero hx
      | control => simp [Action.out, h0]
      | reset => rfl
      | measure => rw [Action.out, h0]; rfl
    · push Not at hq
      exact ⟨by rw [← k2 j hq]; exact hj, .inl hq⟩
  obtain ⟨h0, hcase⟩ := old
  obtain ⟨e, he, rfl, hq, hal⟩ := h j h0
  refine ⟨e, he, rfl, hq, ?_⟩
  have mv := hm e he
  generalize hs : st e = s at mv hal
  generalize hs' : st' e = s' at mv
  have outv : ∀ {y : Action}, y ∈ i.actions → y.On (lay.idx e.center) → T1 (lay.idx e.center) = y.out 0 T (lay.idx e.center) := fun hy ho => k3 _ hy _ ho
  have flip : ∀ p : Pauli, (p = 0 ∨ p = Basis.X.pauli) → ((p.2, p.1) : Pauli) = 0 ∨ ((p.2, p.1) : Pauli) = Basis.Z.pauli := by decide
  have keep : ∀ p : Pauli, ((p.1, 0) : Pauli) = 0 ∨ ((p.1, 0) : Pauli) = Basis.X.pauli := by decide
  cases mv with
  | idle hn => rw [k2 _ hn]; exact hal
  | tick => rw [k2 _ (by simp [Instr.actions, Instr.tick])]; exact hal
  | reset hm => rw [outv hm rfl]; exact .inl rfl
  | meas hm => rw [outv hm ⟨_, List.mem_singleton_self _, rfl⟩]; exact keep _
  | turn hm => rw [outv hm rfl]; exact flip _ hal
  | back => trivial
  | left hm =>
    rw [outv hm (.inr rfl), Action.out, if_neg (Ne.symm (hi.std.basic _ hm))]
    exact hal
  | right => trivial

theorem diff_charged (hv : lay.Valid) {st : Edge → St} {qs : List Pt} (h : lay.Harmless st qs T) : ∀ q, T q ≠ 0 → lay.Charged qs q := by
  intro q hq
  obtain ⟨e, he, h1, h2, -⟩ := h q hq
  exact .inr ⟨e, he, h2, h1⟩

theorem measured_snoc (A : List Instr) (i : Instr) : measured (A ++ [i]) = measured A ++ i.measures := by
  rw [measured_append]
  simp [measured]

/-- A run without errors of one instruction. -/
theorem Acc.step (hv : lay.Valid) {st st' : Edge → St} {A : List Instr} {i : Instr} (hi : lay.StdI i) (hm : lay.MovesAll i st st') {r : List (ZMod 2)} {F1 : Frame}
    (h : lay.Acc st A F rec F' n) (hr : Runs F' i.actions r F1) : lay.Acc st' (A ++ [i]) F (rec ++ r) F1 n := by
  obtain ⟨qs, rec0, T, m, h1, h2, h3, h4⟩ := h
  obtain ⟨rT, T1, k1, k2, k3⟩ := h3.step hv hi hm
  have hrun := hr.sum (actions_linear i) k1
  have hlen : r.length = i.measures.length := by rw [runs_length hr, results_actions]
  refine ⟨qs, rec0 ++ recSum r rT, T1, m, h1, h2.snoc hrun, k2, ?_⟩
  rw [measured_snoc]
  exact h4.append ((k3.diff hlen).mono (diff_charged hv h3))

/-- The error `P` can be charged to the data qubit `q`. -/
def Bill (lay : HoneycombLayout) (st : Edge → St) (A : List Instr) (q : Pt) (P : Frame) : Prop :=
  ∃ rec P0 m, (∀ x ∈ rec, x = 0) ∧ FaultyRuns (lay.IsIn (· ∈ [q])) 0 A rec P0 m ∧ lay.Harmless st [q] (P + P0)

theorem Bill.add (hv : lay.Valid) {st : Edge → St} {A : List Instr} {q : Pt} {P P' : Frame} (h : lay.Bill st A q P) (h' : lay.Bill st A q P') :
    lay.Bill st A q (P + P') := by
  obtain ⟨r1, P1, m1, a1, a2, a3⟩ := h
  obtain ⟨r2, P2, m2, b1, b2, b3⟩ := h'
  refine ⟨_, _, _, ?_, by simpa using a2.sum b2, ?_⟩
  · rw [recSum_zero (by rw [a2.rec_length, b2.rec_length]) b1]
    exact a1
  · rw [add_add_add_comm]
    exact a3.add hv b3

/-- One more error. -/
theorem Acc.error (hv : lay.Valid) {st : Edge → St} {A : List Instr} {q : Pt} {P : Frame} (h : lay.Acc st A F rec F' n) (hb : lay.Bill st A q P) :
    lay.Acc st A F rec (F' + P) (n + 1) := by
  obtain ⟨qs, rec0, T, m, h1, h2, h3, h4⟩ := h
  obtain ⟨r1, P1, m1, a1, a2, a3⟩ := hb
  have i1 : ∀ x ∈ qs, x ∈ q :: qs := fun x hx => by simp [hx]
  have i2 : ∀ x ∈ [q], x ∈ q :: qs := fun x hx => by simp_all
  have hs := (h2.mono (T := lay.IsIn (· ∈ q :: qs)) fun _ => isIn_mono i1).sum (a2.mono (T := lay.IsIn (· ∈ q :: qs)) fun _ => isIn_mono i2)
  rw [recSum_zero (by rw [a2.rec_length, h2.rec_length]) a1, add_zero] at hs
  refine ⟨q :: qs, rec0, T + (P + P1), m + m1, by simpa using h1, ?_, (h3.mono i1).add hv (a3.mono i2), h4.mono fun _ => Charged.mono i1⟩
  have e : F' + P + (T + (P + P1)) = F' + T + P1 := by
    rw [add_assoc F', ← add_assoc P T, add_comm P T, add_assoc T, ← add_assoc P P, frame_add_self, zero_add, add_assoc]
  rw [e]
  exact hs

/-- One more flipped result. -/
theorem Acc.flip {st : Edge → St} {A : List Instr} {t : Nat} (h : lay.Acc st A F rec F' n) {q : Pt} (hq : ∀ P, (measured A)[t]? = some P → ∃ x ∈ P, lay.Charged [q] x.2) :
    lay.Acc st A F (rec.modify t (· + 1)) F' (n + 1) := by
  obtain ⟨qs, rec0, T, m, h1, h2, h3, h4⟩ := h
  have i1 : ∀ x ∈ qs, x ∈ q :: qs := fun x hx => by simp [hx]
  have i2 : ∀ x ∈ [q], x ∈ q :: qs := fun x hx => by simp_all
  refine ⟨q :: qs, rec0, T, m, by simpa using h1, h2.mono fun _ => isIn_mono i1, h3.mono i1, (h4.mono fun _ => Charged.mono i1).modify fun P hP => ?_⟩
  obtain ⟨x, hx, hc⟩ := hq P hP
  exact ⟨x, hx, Charged.mono i2 hc⟩

/-! ## Which errors can be charged -/

theorem Bill.data {st : Edge → St} {A : List Instr} (hA : ∀ i ∈ A, Std i) {q : Pt} (hq : q ∈ lay.data_qubit_coords) (p : Pauli) :
    lay.Bill st A q (single (lay.idx q) p) := by
  obtain ⟨rec, h0, hr⟩ := zero_run (S := lay.IsIn (· ∈ [q])) hA
  have hj := hr.join (FaultyRuns.fault (l := []) (lay.idx q) p ⟨q, hq, by simp, rfl⟩ (.nil _))
  rw [List.append_nil, List.append_nil] at hj
  refine ⟨_, _, _, h0, hj, ?_⟩
  · have e : single (lay.idx q) p + Frame.mul 0 (lay.idx q) p = 0 := by
      funext i
      rw [Pi.add_apply, single, Frame.mul]
      split_ifs
      · rw [Pi.zero_apply, zero_add, pauli_add_self]
      · rfl
    rw [e]
    exact fun i hi => absurd rfl hi

theorem pauli_span {s t : Pauli} (hs : s ≠ 0) (ht : t ≠ 0) (h : s ≠ t) (p : Pauli) : (p = 0 ∨ p = t) ∨ (p + s = 0 ∨ p + s = t) := by
  revert s t p; decide

theorem Bill.anc (hv : lay.Valid) {st : Edge → St} {A : List Instr} (hA : ∀ i ∈ A, Std i) {e : Edge} (he : e ∈ lay.all_edges) {q : Pt}
    (hq : q = e.left ∨ q = e.right ∧ ∀ t, st e ≠ .half t) (hg : (st e).Good (lay.idx e.left) (lay.idx e.center) A) (p : Pauli) :
    lay.Bill st A q (single (lay.idx e.center) p) := by
  have hends := ends_data hv he
  have hq' : e.left ∈ [q] ∨ e.right ∈ [q] := by
    rcases hq with rfl | ⟨rfl, -⟩
    · exact .inl (by simp)
    · exact .inr (by simp)
  have harm : ∀ {p' : Pauli}, (st e).Allows p' → lay.Harmless st [q] (single (lay.idx e.center) p') := by
    intro p' hp i hi
    by_cases h : i = lay.idx e.center
    · subst h
      exact ⟨e, he, rfl, hq', by rwa [single_self]⟩
    · exact absurd (single_off _ h) hi
  have plain : (st e).Allows p → lay.Bill st A q (single (lay.idx e.center) p) := by
    intro hp
    obtain ⟨rec, h0, hr⟩ := zero_run (S := lay.IsIn (· ∈ [q])) hA
    exact ⟨rec, 0, 0, h0, hr, by rw [add_zero]; exact harm hp⟩
  have sum : ∀ {s : Pauli}, single (lay.idx e.center) p + single (lay.idx e.center) s = single (lay.idx e.center) (p + s) := by
    intro s
    funext i
    rw [Pi.add_apply, single, single, single]
    split_ifs
    · rfl
    · exact add_zero _
  have reach : ∀ {S : Nat → Prop} {t : Basis}, Reach S (lay.idx e.center) t A → (∀ x, S x → lay.IsIn (· ∈ [q]) x) →
      (∀ p', (p' = 0 ∨ p' = t.pauli) → (st e).Allows p') → lay.Bill st A q (single (lay.idx e.center) p) := by
    rintro S t ⟨s, rec, m, h1, h2, h3, h4⟩ hS hall
    rcases pauli_span h1 (by cases t <;> decide) h2 p with h | h
    · exact plain (hall _ h)
    · exact ⟨rec, _, m, h3, h4.mono hS, by rw [sum]; exact harm (hall _ h)⟩
  rcases hs : st e with ⟨t, b⟩ | t | _
  · rw [hs] at hg reach
    exact reach hg (fun x h => absurd h id) fun p' h => h
  · rw [hs] at hg reach
    have hq : q = e.left := by
      rcases hq with h | ⟨-, h⟩
      · exact h
      · exact absurd hs (h t)
    refine reach hg (fun x h => ?_) fun p' h => h
    exact ⟨e.left, hends.1, by simp [hq], h.symm⟩
  · exact plain (by rw [hs]; trivial)

end HoneycombLayout
end Honeycomb
