import Verif.Lemmas.Blocks

/-!
# The places of correlated errors

In EM3_v2 the places of an expanded parity measurement belong to the pair of qubits whose parity is measured.
-/

namespace Honeycomb
open HoneycombLayout

variable {lay : HoneycombLayout} {F F' G : Frame} {rec : List (ZMod 2)} {H : List Nat} {D t k : Nat} {gg : Nat → List Nat} {a b a' b' l l' : List Instr}

/-- A run of two parts. -/
theorem PlacedRuns.parts (h : PlacedRuns F (a ++ b) rec F' H) : ∃ r1 r2 F1 H1 H2, PlacedRuns F a r1 F1 H1 ∧ PlacedRuns F1 b r2 F' H2 ∧ rec = r1 ++ r2 ∧
    (∀ x ∈ H1, x ∈ H) ∧ ∀ x ∈ H2, x + (a.map Instr.slots).sum ∈ H := by
  generalize hl : a ++ b = l at h
  induction h generalizing a with
  | nil F =>
    obtain ⟨rfl, rfl⟩ := List.append_eq_nil_iff.1 hl
    exact ⟨[], [], F, [], [], .nil F, .nil F, rfl, by simp, by simp⟩
  | @step F F1 F' i l r1 r2 H h1 h2 ih =>
    cases a with
    | nil =>
      rw [List.nil_append] at hl
      subst hl
      exact ⟨[], r1 ++ r2, F, [], _, .nil F, .step h1 h2, rfl, by simp, by simp⟩
    | cons j a =>
      obtain ⟨s1, s2, F2, H1, H2, k1, k2, rfl, k4, k5⟩ := ih (List.cons.inj hl).2
      obtain ⟨rfl, -⟩ := List.cons.inj hl
      refine ⟨r1 ++ s1, s2, F2, _, H2, .step h1 k1, k2, by rw [List.append_assoc], fun x hx => ?_, fun x hx => ?_⟩
      · obtain ⟨y, hy, rfl⟩ := List.mem_map.1 hx
        exact List.mem_map.2 ⟨y, k4 y hy, rfl⟩
      · refine List.mem_map.2 ⟨_, k5 x hx, ?_⟩
        simp only [List.map_cons, List.sum_cons]
        omega
  | @error F F' i l rec H E s P hp hE hP h2 ih =>
    cases a with
    | nil =>
      rw [List.nil_append] at hl
      subst hl
      exact ⟨[], rec, F, [], _, .nil F, .error s P hp hE hP h2, rfl, by simp, by simp⟩
    | cons j a =>
      obtain ⟨s1, s2, F2, H1, H2, k1, k2, rfl, k4, k5⟩ := ih hl
      obtain ⟨rfl, -⟩ := List.cons.inj hl
      refine ⟨s1, s2, F2, _, H2, .error s P hp hE hP k1, k2, rfl, fun x hx => ?_, fun x hx => List.mem_cons_of_mem _ (k5 x hx)⟩
      rcases List.mem_cons.1 hx with rfl | hx
      · simp
      · exact List.mem_cons_of_mem _ (k4 x hx)
  | @flip F F' i l rec H t hp ht h2 ih =>
    cases a with
    | nil =>
      rw [List.nil_append] at hl
      subst hl
      exact ⟨[], _, F, [], _, .nil F, .flip t hp ht h2, rfl, by simp, by simp⟩
    | cons j a =>
      obtain ⟨s1, s2, F2, H1, H2, k1, k2, rfl, k4, k5⟩ := ih hl
      obtain ⟨rfl, -⟩ := List.cons.inj hl
      have hlen := k1.noisy.loose.length
      rw [measured, List.flatMap_cons, List.length_append] at hlen
      refine ⟨s1.modify t (· + 1), s2, F2, _, H2, .flip t hp ht k1, k2, modify_append_left _ _ _ _ (by omega), fun x hx => ?_, fun x hx => List.mem_cons_of_mem _ (k5 x hx)⟩
      rcases List.mem_cons.1 hx with rfl | hx
      · simp
      · exact List.mem_cons_of_mem _ (k4 x hx)

/-! ## Tags -/

/-- The places of an instruction before which `t` results were recorded: the number of results recorded before the place, and its qubits: `gg` tells
those of correlated errors and of results. -/
def Instr.tagG (gg : Nat → List Nat) (t : Nat) (i : Instr) : List (Nat × List Nat) :=
  (if i.gate = .E then [(t, gg t)] else i.channels.map fun c => (t, c)) ++ (List.range i.measures.length).map fun s => (t + s, gg (t + s))

/-- The places of `l`, before which `t` results were recorded. -/
def tagG (gg : Nat → List Nat) : Nat → List Instr → List (Nat × List Nat)
  | _, [] => []
  | t, i :: l => i.tagG gg t ++ tagG gg (t + i.measures.length) l

theorem measured_cons_length (i : Instr) (l : List Instr) : (measured (i :: l)).length = i.measures.length + (measured l).length := by
  rw [measured, List.flatMap_cons, List.length_append]; rfl

theorem tagG_append (t : Nat) (a b : List Instr) : tagG gg t (a ++ b) = tagG gg t a ++ tagG gg (t + (measured a).length) b := by
  induction a generalizing t with
  | nil => rfl
  | cons i a ih => rw [List.cons_append, tagG, ih, tagG, List.append_assoc, measured_cons_length, Nat.add_assoc]

theorem Instr.tagG_length (t : Nat) (i : Instr) : (i.tagG gg t).length = i.slots := by
  rw [Instr.tagG, Instr.slots, List.length_append, List.length_map, List.length_range, errors_length]
  congr 1
  split_ifs with h
  · rw [Instr.channels, h]; rfl
  · rw [List.length_map]

theorem tagG_length (t : Nat) (l : List Instr) : (tagG gg t l).length = (l.map Instr.slots).sum := by
  induction l generalizing t with
  | nil => rfl
  | cons i l ih => rw [tagG, List.length_append, ih, Instr.tagG_length, List.map_cons, List.sum_cons]

theorem tagG_range {x : Nat × List Nat} (h : x ∈ tagG gg t l) : t ≤ x.1 ∧ x.1 ≤ t + (measured l).length := by
  induction l generalizing t with
  | nil => simp [tagG] at h
  | cons i l ih =>
    rw [measured_cons_length]
    rw [tagG, List.mem_append] at h
    rcases h with h | h
    · rw [Instr.tagG, List.mem_append] at h
      rcases h with h | h
      · split_ifs at h
        · rw [List.mem_singleton] at h; subst h; simp
        · obtain ⟨c, -, rfl⟩ := List.mem_map.1 h; simp
      · obtain ⟨s, hs, rfl⟩ := List.mem_map.1 h
        rw [List.mem_range] at hs
        simp only
        omega
    · have := ih h
      omega

theorem tagG_at {u v : List Instr} {i : Instr} {s : Nat} {x : Nat × List Nat} (h : (i.tagG gg (measured u).length)[s]? = some x) :
    (tagG gg 0 (u ++ i :: v))[(u.map Instr.slots).sum + s]? = some x := by
  rw [tagG_append, List.getElem?_append_right (by rw [tagG_length]; omega), tagG_length, Nat.add_sub_cancel_left, Nat.zero_add, tagG,
    List.getElem?_append_left (List.getElem?_eq_some_iff.1 h).1]
  exact h

/-- `gg` tells the qubits of the results of `l`, before which `t` results were recorded. -/
def Agree (gg : Nat → List Nat) (t : Nat) (l : List Instr) : Prop := ∀ (s : Nat) P, (measured l)[s]? = some P → gg (t + s) = P.map Prod.snd

theorem Agree.left (h : Agree gg t (a ++ b)) : Agree gg t a := fun s P hs => h s P (by
  rw [measured_append, List.getElem?_append_left (List.getElem?_eq_some_iff.1 hs).1]; exact hs)

theorem Agree.right (h : Agree gg t (a ++ b)) : Agree gg (t + (measured a).length) b := fun s P hs => by
  rw [Nat.add_assoc]
  refine h _ P ?_
  rw [measured_append, List.getElem?_append_right (by omega), Nat.add_sub_cancel_left]
  exact hs

/-- Edge `e` belongs to one of the places `H` of `l`. -/
def Tie (lay : HoneycombLayout) (gg : Nat → List Nat) (t : Nat) (l : List Instr) (H : List Nat) (e : Edge) : Prop :=
  e ∈ lay.all_edges ∧ ∃ p ∈ H, ∃ x, (tagG gg t l)[p]? = some x ∧ ∃ q ∈ x.2, lay.RegQ e q

variable {e : Edge} {H1 : List Nat}

theorem Tie.mono (h : Tie lay gg t l H1 e) (hH : ∀ x ∈ H1, x ∈ H) : Tie lay gg t l H e := by
  obtain ⟨h1, p, hp, h2⟩ := h
  exact ⟨h1, p, hH p hp, h2⟩

theorem Tie.left (h : Tie lay gg t a H1 e) (hH : ∀ x ∈ H1, x ∈ H) : Tie lay gg t (a ++ b) H e := by
  obtain ⟨h1, p, hp, x, hx, h2⟩ := h
  refine ⟨h1, p, hH p hp, x, ?_, h2⟩
  rw [tagG_append, List.getElem?_append_left (List.getElem?_eq_some_iff.1 hx).1]
  exact hx

theorem Tie.right (h : Tie lay gg (t + (measured a).length) b H1 e) (hH : ∀ x ∈ H1, x + (a.map Instr.slots).sum ∈ H) : Tie lay gg t (a ++ b) H e := by
  obtain ⟨h1, p, hp, x, hx, h2⟩ := h
  refine ⟨h1, _, hH p hp, x, ?_, h2⟩
  rw [tagG_append, List.getElem?_append_right (by rw [tagG_length]; omega), tagG_length, Nat.add_sub_cancel]
  exact hx

/-- Runs of `l` with errors at places are runs of `l'` with faults near the edges of these places. -/
def SimL (lay : HoneycombLayout) (D : Nat) (gg : Nat → List Nat) (t : Nat) (l l' : List Instr) : Prop :=
  ∀ F G rec F' H, Off D F G → PlacedRuns F l rec F' H → ∃ (es : List Edge) (rec0 : List (ZMod 2)) (G' : Frame) (m : Nat), (∀ e ∈ es, Tie lay gg t l H e) ∧
    FaultyRuns (lay.Reg es) G l' rec0 G' m ∧ Off D F' G' ∧ RecDiff (lay.Reg es) (measured l') rec0 rec

theorem SimL.nil : SimL lay D gg t [] [] := by
  intro F G rec F' H ho h
  cases h
  exact ⟨[], [], G, 0, by simp, .nil G, ho, .nil⟩

theorem SimL.append (h1 : SimL lay D gg t a a') (h2 : SimL lay D gg (t + (measured a).length) b b') : SimL lay D gg t (a ++ b) (a' ++ b') := by
  intro F G rec F' H ho h
  obtain ⟨r1, r2, F1, H1, H2, g1, g2, rfl, hH1, hH2⟩ := h.parts
  obtain ⟨es1, s1, G1, m1, e1, k1, o1, d1⟩ := h1 _ _ _ _ _ ho g1
  obtain ⟨es2, s2, G2, m2, e2, k2, o2, d2⟩ := h2 _ _ _ _ _ o1 g2
  have i1 : ∀ q, lay.Reg es1 q → lay.Reg (es1 ++ es2) q := fun q ⟨e, he, h⟩ => ⟨e, by simp [he], h⟩
  have i2 : ∀ q, lay.Reg es2 q → lay.Reg (es1 ++ es2) q := fun q ⟨e, he, h⟩ => ⟨e, by simp [he], h⟩
  refine ⟨es1 ++ es2, s1 ++ s2, G2, m1 + m2, fun e he => ?_, (k1.mono i1).join (k2.mono i2), o2, ?_⟩
  · exact (List.mem_append.1 he).elim (fun h => (e1 e h).left hH1) (fun h => (e2 e h).right hH2)
  · rw [measured_append]
    exact (d1.mono i1).append (d2.mono i2)

theorem channel_two {i : Instr} (hE : i.gate ≠ .E) {c : List Nat} (hc : c ∈ i.channels) : c.length ≤ 2 ∧ c ≠ [] := by
  rw [Instr.channels] at hc
  split at hc
  all_goals first
    | exact absurd ‹_› hE
    | (obtain ⟨q, -, rfl⟩ := List.mem_map.1 hc; simp)
    | simp at hc

theorem SimL.narrow1 {i : Instr} (h : lay.Narrow i) (hE : i.gate ≠ .E) : SimL lay D gg t [i] [] := by
  intro F G rec F' H ho hr
  generalize hl : [i] = l at hr
  induction hr generalizing G with
  | nil => cases hl
  | @step F F1 F' j l r1 r2 H hr h2 ih =>
    rw [List.cons.injEq] at hl
    obtain ⟨rfl, rfl⟩ := hl
    rw [actions_noise h.1] at hr
    obtain ⟨rfl, rfl⟩ := runs_nil hr
    cases h2
    exact ⟨[], [], G, 0, by simp, .nil G, ho, .nil⟩
  | @error F F' j l rec H E s P hp hs hP h2 ih =>
    obtain ⟨rfl, rfl⟩ := List.cons.inj hl
    obtain ⟨c, hc, hoff⟩ := errors_local hs hP
    have hcm := List.mem_of_getElem? hc
    obtain ⟨e, he, hq⟩ := h.2 c hcm
    obtain ⟨es, r0, G', m, a2, a3, a4, a5⟩ := ih (fun q => if q ∈ c then (F + P) q else G q) (fun q hq => by
      beta_reduce
      split_ifs with hm
      · rfl
      · rw [Pi.add_apply, hoff q hm, add_zero, ho q hq]) rfl
    have i2 : ∀ q, lay.Reg es q → lay.Reg (e :: es) q := fun q ⟨e', he, h⟩ => ⟨e', by simp [he], h⟩
    refine ⟨e :: es, r0, G', _, ?_, (a3.mono i2).near (qs := c) (fun q hm => if_neg hm) (fun q hm => ⟨e, by simp, hq q hm⟩), a4, a5.mono i2⟩
    intro e' he'
    rcases List.mem_cons.1 he' with rfl | h
    · obtain ⟨q, hqc⟩ := List.exists_mem_of_ne_nil c (channel_two hE hcm).2
      refine ⟨he, s, by simp, (t, c), ?_, q, hqc, hq q hqc⟩
      rw [tagG, tagG, List.append_nil, Instr.tagG, if_neg hE, List.getElem?_append_left (by rw [List.length_map]; exact (List.getElem?_eq_some_iff.1 hc).1),
        List.getElem?_map, hc]
      rfl
    · exact (a2 _ h).mono fun x hx => List.mem_cons_of_mem _ hx
  | @flip F F' j l rec n t ha ht h2 ih =>
    obtain ⟨rfl, rfl⟩ := List.cons.inj hl
    rw [measures_noise h.1] at ht
    simp at ht

theorem SimL.narrow {l : List Instr} (h : ∀ i ∈ l, lay.Narrow i ∧ i.gate ≠ .E) : SimL lay D gg t l [] := by
  induction l generalizing t with
  | nil => exact .nil
  | cons i l ih => exact (SimL.narrow1 (h i (by simp)).1 (h i (by simp)).2).append (b' := []) (ih fun j hj => h j (by simp [hj]))

/-- The same operation, possibly with flipped results. -/
theorem SimL.core {i j : Instr} (hc : isNoise i.gate = false) (ha : i.actions = j.actions) (hs : Sim D j.actions j.actions)
    (hm : ∀ P ∈ i.measures, ∃ e ∈ lay.all_edges, ∃ x ∈ P, lay.RegQ e x.2) (hag : Agree gg t [j]) : SimL lay D gg t [i] [j] := by
  have hmm : measured [j] = i.measures := by
    rw [measured, List.flatMap_cons, List.flatMap_nil, List.append_nil, ← results_actions, ← ha, results_actions]
  rw [Agree, hmm] at hag
  rw [SimL, hmm]
  intro F G rec F' H ho hr
  generalize hl : [i] = l at hr
  induction hr generalizing G with
  | nil => cases hl
  | @step F F1 F' k l r1 r2 H hr h2 ih =>
    obtain ⟨rfl, rfl⟩ := List.cons.inj hl
    cases h2
    have hlen := runs_length hr
    rw [results_actions] at hlen
    rw [ha] at hr
    obtain ⟨G', h1, o⟩ := hs _ _ _ _ ho hr
    refine ⟨[], r1 ++ [], G', 0, by simp, .step h1 (.nil G'), o, .refl ?_⟩
    rw [List.append_nil]; exact hlen
  | @error F F' j l rec H E s P hp hs hP h2 ih =>
    obtain ⟨rfl, rfl⟩ := List.cons.inj hl
    obtain ⟨c, hcc, -⟩ := errors_local hs hP
    rw [channels_clean hc] at hcc
    simp at hcc
  | @flip F F' k l rec H s hp ht h2 ih =>
    obtain ⟨rfl, rfl⟩ := List.cons.inj hl
    obtain ⟨es, r0, G', m, a2, a3, a4, a5⟩ := ih G ho rfl
    obtain ⟨e, he, x, hx, hr⟩ := hm _ (List.getElem_mem ht)
    have i2 : ∀ q, lay.Reg es q → lay.Reg (e :: es) q := fun q ⟨e', he, h⟩ => ⟨e', by simp [he], h⟩
    refine ⟨e :: es, r0, G', m, ?_, a3.mono i2, a4, (a5.mono i2).modify fun P hP => ?_⟩
    · intro e' he'
      rcases List.mem_cons.1 he' with rfl | h
      · refine ⟨he, _, List.mem_cons_self, (t + s, gg (t + s)), ?_, x.2, ?_, hr⟩
        · have hE : i.gate ≠ .E := by rintro h; rw [h] at hc; simp [isNoise] at hc
          rw [tagG, tagG, List.append_nil, Instr.tagG, if_neg hE, errors_length, channels_clean hc, List.map_nil, List.nil_append, List.length_nil, Nat.zero_add, List.getElem?_map,
            List.getElem?_range ht]
          rfl
        · rw [hag s _ (List.getElem?_eq_getElem ht)]
          exact List.mem_map_of_mem hx
      · exact (a2 _ h).mono fun x hx => List.mem_cons_of_mem _ hx
    · obtain rfl := Option.some.inj ((List.getElem?_eq_getElem ht).symm.trans hP)
      exact ⟨x, hx, e, by simp, hr⟩

/-! ## The expanded parity measurement -/

theorem tagG_gadget {b1 b2 : Basis} {q1 q2 c : Nat} {p : Rat} :
    tagG gg t (parityMeasurementWithCorrelatedNoise b1 q1 b2 q2 c p) = List.replicate 32 (t, gg t) := by
  have h1 : tagG gg t [.on .R [c], parityCX b1 q1 c, parityCX b2 q2 c] = [] ∧ (measured [.on .R [c], parityCX b1 q1 c, parityCX b2 q2 c]).length = 0 := by
    cases b1 <;> cases b2 <;> exact ⟨rfl, rfl⟩
  have h2 : ∀ L : List (List Target), tagG gg t (L.map fun e => ({ gate := .E, targets := e, args := [.indep p 5] } : Instr)) = List.replicate L.length (t, gg t) ∧
      (measured (L.map fun e => ({ gate := .E, targets := e, args := [.indep p 5] } : Instr))).length = 0 := by
    intro L
    induction L with
    | nil => exact ⟨rfl, rfl⟩
    | cons e L ih =>
      constructor
      · rw [List.map_cons, tagG, List.length_cons, List.replicate_succ, ← ih.1]
        rfl
      · rw [List.map_cons, measured_cons_length, ih.2]
        rfl
  have h3 : tagG gg t [.on .M [c]] = [(t, gg t)] := rfl
  have h4 : (correlatedErrors q1 q2 c).length = 31 := rfl
  rw [parityMeasurementWithCorrelatedNoise, tagG_append, tagG_append, measured_append, List.length_append, h1.1, h1.2, Nat.add_zero, (h2 _).1, (h2 _).2, Nat.add_zero,
    h3, h4]
  rfl

theorem PlacedRuns.runs (h : PlacedRuns F l rec F' H) (hH : H = []) : Runs F (actions l) rec F' := by
  have := h.noisy.loose
  rw [hH] at this
  exact this.runs

/-- The expanded parity measurements of one instruction. -/
theorem gadgets_placed {p : Rat} {gs : List ((Basis × Nat) × (Basis × Nat))} (hn : (gs.flatMap fun g => [g.1.2, g.2.2]).Nodup)
    (hD : ∀ g ∈ gs, g.1.2 ≠ D ∧ g.2.2 ≠ D) (he : ∀ g ∈ gs, ∃ e ∈ lay.all_edges, lay.RegQ e g.1.2 ∧ lay.RegQ e g.2.2) {pend : List Nat}
    (hp : ∀ q ∈ pend, ∀ g ∈ gs, q ≠ g.1.2 ∧ q ≠ g.2.2) (ho : ∀ q, q ∉ pend → q ≠ D → F q = G q)
    (hag : ∀ (s : Nat) g, gs[s]? = some g → gg (t + s) = [g.1.2, g.2.2])
    (hr : PlacedRuns F (gs.flatMap fun g => parityMeasurementWithCorrelatedNoise g.1.1 g.1.2 g.2.1 g.2.2 D p) rec F' H) :
    ∃ (es : List Edge) (rec0 : List (ZMod 2)) (G' : Frame) (qs : List Nat),
      (∀ e ∈ es, Tie lay gg t (gs.flatMap fun g => parityMeasurementWithCorrelatedNoise g.1.1 g.1.2 g.2.1 g.2.2 D p) H e) ∧ (∀ q ∈ qs, lay.Reg es q) ∧
      Runs G (gs.map fun g => .measure [g.1, g.2]) rec0 G' ∧ (∀ q, q ∉ pend → q ∉ qs → q ≠ D → F' q = G' q) ∧
      RecDiff (lay.Reg es) (gs.map fun g => [g.1, g.2]) rec0 rec := by
  induction gs generalizing F G rec H pend t with
  | nil =>
    cases hr
    exact ⟨[], [], G, [], by simp, by simp, .nil G, fun q h _ hD => ho q h hD, .nil⟩
  | cons g gs ih =>
    rw [List.flatMap_cons] at hr hn
    obtain ⟨r1, r2, F1, H1, H2, g1, g2, rfl, hH1, hH2⟩ := hr.parts
    obtain ⟨hn1, hn2, hn3⟩ := List.nodup_append.1 hn
    have hDg := hD g (by simp)
    have hpg : ∀ q ∈ pend, q ≠ g.1.2 ∧ q ≠ g.2.2 := fun q hq => hp q hq g (by simp)
    have hlen := g1.noisy.loose.length
    rw [measured_gadget] at hlen
    obtain ⟨v, rfl⟩ := List.length_eq_one_iff.1 hlen
    have hag' : ∀ (s : Nat) g', gs[s]? = some g' → gg (t + (measured (parityMeasurementWithCorrelatedNoise g.1.1 g.1.2 g.2.1 g.2.2 D p)).length + s) = [g'.1.2, g'.2.2] := by
      intro s g' hs
      rw [measured_gadget, Nat.add_assoc]
      exact hag (1 + s) g' (by rw [Nat.add_comm, List.getElem?_cons_succ]; exact hs)
    have hdis : ∀ q, q = g.1.2 ∨ q = g.2.2 → ∀ g' ∈ gs, q ≠ g'.1.2 ∧ q ≠ g'.2.2 := by
      intro q hq g' hg'
      have h1 : q ∈ [g.1.2, g.2.2] := by simpa using hq
      exact ⟨hn3 q h1 _ (List.mem_flatMap.2 ⟨g', hg', by simp⟩), hn3 q h1 _ (List.mem_flatMap.2 ⟨g', hg', by simp⟩)⟩
    rcases List.eq_nil_or_concat' H1 with hnil | ⟨H0, x0, hx0⟩
    · have hrun := g1.runs hnil
      obtain ⟨G1, k1, o1⟩ := sim_gadget (by simpa using hn1) hDg.1 hDg.2 p F (fun q => if q ∈ pend then F q else G q) _ _ (fun q hq => by
        beta_reduce
        split_ifs with hm
        · rfl
        · exact ho q hm hq) hrun
      obtain ⟨ev, r, rfl⟩ := runs_measure_one.1 k1
      obtain ⟨es, rec0, G', qs, a2, a3, a4, a5, a6⟩ := ih hn2 (fun g' hg' => hD g' (by simp [hg'])) (fun g' hg' => he g' (by simp [hg']))
        (F := F1) (G := G.kick r [g.1, g.2]) (rec := r2) (pend := pend) (fun q hq g' hg' => hp q hq g' (by simp [hg'])) (fun q hq hqD => by
          rw [o1 q hqD]
          exact kick_same (if_neg hq)) hag' g2
      refine ⟨es, G.flips [g.1, g.2] :: rec0, G', qs, fun e he => (a2 e he).right hH2, a3, .measure _ r a4, a5, .cons (fun hne => ?_) a6⟩
      refine absurd ?_ hne
      rw [List.cons.injEq] at ev
      rw [ev.1]
      refine flips_same fun x hx => ?_
      have : x.2 ∉ pend := by
        intro hm
        simp only [List.mem_cons, List.not_mem_nil, or_false] at hx
        rcases hx with rfl | rfl
        · exact (hpg _ hm).1 rfl
        · exact (hpg _ hm).2 rfl
      exact (if_neg this).symm
    · obtain ⟨e, hem, hr1, hr2⟩ := he g (by simp)
      obtain ⟨es, rec0, G', qs, a2, a3, a4, a5, a6⟩ := ih hn2 (fun g' hg' => hD g' (by simp [hg'])) (fun g' hg' => he g' (by simp [hg']))
        (F := F1) (G := G.kick 0 [g.1, g.2]) (rec := r2) (pend := g.1.2 :: g.2.2 :: pend) (fun q hq g' hg' => by
          rcases List.mem_cons.1 hq with rfl | hq
          · exact hdis _ (.inl rfl) g' hg'
          rcases List.mem_cons.1 hq with rfl | hq
          · exact hdis _ (.inr rfl) g' hg'
          · exact hp q hq g' (by simp [hg'])) (fun q hq hqD => by
          simp only [List.mem_cons, not_or] at hq
          obtain ⟨u1, u2⟩ := channels_gadget (b1 := g.1.1) (b2 := g.2.1) (p := p) hq.1 hq.2.1 hqD
          rw [g1.noisy.loose.unmoved u1 u2, ho q hq.2.2 hqD, kick_away (by simp [hq.1, hq.2.1])]) hag' g2
      have i2 : ∀ q, lay.Reg es q → lay.Reg (e :: es) q := fun q ⟨e', he, h⟩ => ⟨e', by simp [he], h⟩
      refine ⟨e :: es, G.flips [g.1, g.2] :: rec0, G', g.1.2 :: g.2.2 :: qs, ?_, ?_, .measure _ 0 a4, ?_, .cons (fun _ => ⟨g.1, by simp, e, by simp, hr1⟩) (a6.mono i2)⟩
      · intro e' he'
        rcases List.mem_cons.1 he' with rfl | h
        · have hx : x0 ∈ H1 := by rw [hx0]; simp
          have hlt := g1.lt x0 hx
          rw [← tagG_length (gg := gg) t, tagG_gadget, List.length_replicate] at hlt
          refine Tie.left (H1 := H1) ⟨hem, x0, hx, (t, gg t), ?_, g.1.2, ?_, hr1⟩ hH1
          · rw [tagG_gadget, List.getElem?_replicate, if_pos hlt]
          · have := hag 0 g rfl
            rw [Nat.add_zero] at this
            simp [this]
        · exact (a2 _ h).right hH2
      · intro q hq
        rcases List.mem_cons.1 hq with rfl | hq
        · exact ⟨e, by simp, hr1⟩
        rcases List.mem_cons.1 hq with rfl | hq
        · exact ⟨e, by simp, hr2⟩
        · exact i2 q (a3 q hq)
      · intro q h1 h2 h3
        simp only [List.mem_cons, not_or] at h2
        exact a5 q (by simp [h1, h2]) h2.2.2 h3

/-! ## Parts of the circuit -/

/-- `l` is `l'` with noise, with at most `k` places for every qubit. -/
structure Piece (lay : HoneycombLayout) (D : Nat) (gg : Nat → List Nat) (l l' : List Instr) (k : Nat) : Prop where
  len : (measured l).length = (measured l').length
  count : ∀ t, Agree gg t l' → ∀ q, (tagG gg t l).countP (fun x => q ∈ x.2) ≤ k
  near : ∀ t, Agree gg t l' → ∀ x ∈ tagG gg t l, x.2.length ≤ 2 ∧ ∃ e ∈ lay.all_edges, ∃ q ∈ x.2, lay.RegQ e q
  sim : ∀ t, Agree gg t l' → SimL lay D gg t l l'

variable {k1 k2 : Nat}

theorem Piece.nil : Piece lay D gg [] [] 0 :=
  ⟨rfl, fun t _ q => by simp [tagG], fun t _ x hx => by simp [tagG] at hx, fun t _ => .nil⟩

theorem Piece.le (h : Piece lay D gg l l' k) (hk : k ≤ k1) : Piece lay D gg l l' k1 :=
  ⟨h.len, fun t ht q => (h.count t ht q).trans hk, h.near, h.sim⟩

theorem Piece.append (h1 : Piece lay D gg a a' k1) (h2 : Piece lay D gg b b' k2) : Piece lay D gg (a ++ b) (a' ++ b') (k1 + k2) := by
  have hr : ∀ {t}, Agree gg t (a' ++ b') → Agree gg (t + (measured a).length) b' := fun h => by rw [h1.len]; exact h.right
  refine ⟨by rw [measured_append, measured_append, List.length_append, List.length_append, h1.len, h2.len], fun t ht q => ?_, fun t ht x hx => ?_,
    fun t ht => (h1.sim t ht.left).append (h2.sim _ (hr ht))⟩
  · rw [tagG_append, List.countP_append]
    exact Nat.add_le_add (h1.count t ht.left q) (h2.count _ (hr ht) q)
  · rw [tagG_append] at hx
    exact (List.mem_append.1 hx).elim (h1.near t ht.left x) (h2.near _ (hr ht) x)

theorem Piece.flatMap {α : Type} {l : List α} {f g : α → List Instr} {k : α → Nat} (h : ∀ x ∈ l, Piece lay D gg (f x) (g x) (k x)) :
    Piece lay D gg (l.flatMap f) (l.flatMap g) (l.map k).sum := by
  induction l with
  | nil => exact .nil
  | cons x l ih =>
    rw [List.flatMap_cons, List.flatMap_cons, List.map_cons, List.sum_cons]
    exact (h x (by simp)).append (ih fun y hy => h y (by simp [hy]))

theorem tagG_noise {l : List Instr} (h : ∀ i ∈ l, isNoise i.gate = true ∧ i.gate ≠ .E) : tagG gg t l = (slotList l).map fun c => (t, c) := by
  induction l with
  | nil => rfl
  | cons i l ih =>
    obtain ⟨h1, h2⟩ := h i (by simp)
    have hm := measures_noise h1
    have e : slotList (i :: l) = i.slotQubits ++ slotList l := List.flatMap_cons
    rw [tagG, hm, List.length_nil, Nat.add_zero, ih fun j hj => h j (by simp [hj]), Instr.tagG, if_neg h2, hm, e, Instr.slotQubits, hm]
    simp

theorem Piece.noise {l : List Instr} (h : ∀ i ∈ l, lay.Narrow i ∧ i.gate ≠ .E) (hk : ∀ q, load q l ≤ k) : Piece lay D gg l [] k := by
  have ht : ∀ t, tagG gg t l = (slotList l).map fun c => (t, c) := fun t => tagG_noise fun i hi => ⟨(h i hi).1.1, (h i hi).2⟩
  refine ⟨?_, fun t _ q => ?_, fun t _ x hx => ?_, fun t _ => .narrow h⟩
  · have : measured l = [] := by
      rw [measured, List.flatMap_eq_nil_iff]
      exact fun i hi => measures_noise (h i hi).1.1
    rw [this]; rfl
  · rw [ht, List.countP_map]
    exact hk q
  · rw [ht] at hx
    obtain ⟨c, hc, rfl⟩ := List.mem_map.1 hx
    obtain ⟨i, hi, hc⟩ := List.mem_flatMap.1 hc
    rw [Instr.slotQubits, measures_noise (h i hi).1.1, List.map_nil, List.append_nil] at hc
    obtain ⟨h1, h2⟩ := channel_two (h i hi).2 hc
    obtain ⟨e, he, hq⟩ := (h i hi).1.2 c hc
    obtain ⟨q, hqc⟩ := List.exists_mem_of_ne_nil c h2
    exact ⟨h1, e, he, q, hqc, hq q hqc⟩

theorem measures_two {i : Instr} (h : lay.Tame D i) {P : List (Basis × Nat)} (hP : P ∈ i.measures) : P.length ≤ 2 := by
  by_cases hg : i.gate = .MPP
  · obtain ⟨_, gs, e⟩ := h.ex.mpp hg
    simp only [Instr.measures, hg, e, mppGroups_pair, List.mem_map] at hP
    obtain ⟨g, -, rfl⟩ := hP
    simp
  · rw [Instr.measures] at hP
    split at hP
    all_goals first
      | exact absurd ‹_› hg
      | (obtain ⟨q, -, rfl⟩ := List.mem_map.1 hP; simp)
      | simp at hP

theorem tagG_single {i : Instr} (hc : isNoise i.gate = false) (h : Agree gg t [i]) (as : List Arg) :
    tagG gg t [{ i with args := as }] = i.measures.mapIdx fun s P => (t + s, P.map Prod.snd) := by
  have hE : i.gate ≠ .E := clean_gate hc
  have hch := channels_clean hc
  have e1 : Instr.channels { i with args := as } = i.channels := rfl
  have e2 : Instr.measures { i with args := as } = i.measures := rfl
  rw [tagG, tagG, List.append_nil, Instr.tagG, if_neg hE, e1, hch, List.map_nil, List.nil_append, e2]
  refine List.ext_getElem? fun s => ?_
  rw [List.getElem?_mapIdx, List.getElem?_map]
  by_cases hs : s < i.measures.length
  · rw [List.getElem?_range hs, List.getElem?_eq_getElem hs]
    simp only [Option.map_some]
    rw [h s i.measures[s] (by rw [measured, List.flatMap_singleton, List.getElem?_eq_getElem hs])]
  · rw [List.getElem?_eq_none (by simpa using hs), List.getElem?_eq_none (by simpa using hs)]
    rfl

theorem Piece.single {i : Instr} (h : lay.Tame D i) (hn : kind i.gate ≠ .annotation → i.qubits.Nodup) (as : List Arg) :
    Piece lay D gg [{ i with args := as }] [i] (if kind i.gate ≠ .annotation then 1 else 0) := by
  refine ⟨rfl, fun t ht q => ?_, fun t ht x hx => ?_, fun t ht => .core h.ex.clean rfl (.refl (actions_qubits h.ex)) h.meas ht⟩
  · refine le_trans (le_of_eq ?_) (core_load h.ex hn as q)
    have h1 : Instr.channels { i with args := as } = [] := channels_clean h.ex.clean
    have h2 : Instr.measures { i with args := as } = i.measures := rfl
    rw [tagG_single h.ex.clean ht, load, slotList, List.flatMap_singleton, Instr.slotQubits, h1, h2, List.nil_append]
    have e : i.measures.map (fun P => P.map Prod.snd) = (i.measures.mapIdx fun s P => (t + s, P.map Prod.snd)).map Prod.snd :=
      List.ext_getElem? fun s => by rw [List.getElem?_map, List.getElem?_map, List.getElem?_mapIdx, Option.map_map]; rfl
    rw [e, List.countP_map]
    rfl
  · rw [tagG_single h.ex.clean ht] at hx
    obtain ⟨s, hs, rfl⟩ := List.mem_mapIdx.1 hx
    have hP := List.getElem_mem hs
    obtain ⟨e, he, y, hy, hr⟩ := h.meas _ hP
    exact ⟨by simpa using measures_two h hP, e, he, y.2, List.mem_map_of_mem hy, hr⟩

theorem tagG_gadgets {p : Rat} {gs : List ((Basis × Nat) × (Basis × Nat))} (hag : ∀ (s : Nat) g, gs[s]? = some g → gg (t + s) = [g.1.2, g.2.2]) :
    (measured (gs.flatMap fun g => parityMeasurementWithCorrelatedNoise g.1.1 g.1.2 g.2.1 g.2.2 D p)).length = gs.length ∧
    (tagG gg t (gs.flatMap fun g => parityMeasurementWithCorrelatedNoise g.1.1 g.1.2 g.2.1 g.2.2 D p)).map Prod.snd =
      gs.flatMap fun g => List.replicate 32 [g.1.2, g.2.2] := by
  induction gs generalizing t with
  | nil => exact ⟨rfl, rfl⟩
  | cons g gs ih =>
    obtain ⟨i1, i2⟩ := ih (t := t + 1) fun s g' hs => by
      rw [Nat.add_assoc]
      exact hag (1 + s) g' (by rw [Nat.add_comm, List.getElem?_cons_succ]; exact hs)
    have h0 := hag 0 g rfl
    rw [Nat.add_zero] at h0
    rw [List.flatMap_cons, List.flatMap_cons, measured_append, List.length_append, measured_gadget, i1, List.length_cons, tagG_append, List.map_append, measured_gadget, i2, tagG_gadget,
      List.map_replicate, h0]
    exact ⟨Nat.add_comm _ _, rfl⟩

theorem groups_places (q : Nat) : ∀ gs : List ((Basis × Nat) × (Basis × Nat)),
    (gs.flatMap fun g => List.replicate 32 [g.1.2, g.2.2]).countP (q ∈ ·) ≤ 32 * (gs.flatMap fun g => [g.1.2, g.2.2]).count q
  | [] => by simp
  | g :: gs => by
    have := groups_places q gs
    rw [List.flatMap_cons, List.countP_append, List.flatMap_cons, List.count_append, List.countP_replicate, List.count_cons, List.count_cons]
    simp only [List.mem_cons, List.not_mem_nil, or_false, decide_eq_true_eq, beq_iff_eq]
    split_ifs <;> (simp_all; try omega)

theorem Piece.core {nm : NoiseModel} {i : Instr} (h : lay.Tame D i) (hn : kind i.gate ≠ .annotation → i.qubits.Nodup) (p : Rat) :
    Piece lay D gg (noisyCore nm D i p) [i] (if kind i.gate ≠ .annotation then 32 else 0) := by
  have hs : ∀ as, Piece lay D gg [{ i with args := as }] [i] (if kind i.gate ≠ .annotation then 32 else 0) := fun as =>
    (Piece.single h hn as).le (by split_ifs <;> omega)
  unfold noisyCore
  by_cases hp : p ≤ 0
  · rw [if_pos hp]
    exact hs i.args
  · rw [if_neg hp]
    by_cases hg : i.gate = .MPP
    · simp only [hg, kind]
      obtain ⟨_, gs, e⟩ := h.ex.mpp hg
      rw [hg] at hs
      simp only [kind] at hs
      have hs : ∀ as, Piece lay D gg [{ gate := .MPP, targets := i.targets, args := as }] [i] 32 := fun as => (hs as).le (by simp)
      refine Piece.le (k := 32) ?_ (by simp)
      split_ifs with hc
      · have hn := h.ex.nodup hg
        have hl := h.ex.lt
        have hpr := h.pair (.inr hg)
        have ha : i.actions = gs.map fun g => .measure [g.1, g.2] := by
          simp only [Instr.actions, hg, Instr.measures, e, mppGroups_pair, List.map_map]
          rfl
        have hms : i.measures = gs.map fun g => [g.1, g.2] := by
          simp only [Instr.measures, hg, e, mppGroups_pair]
        have hmi : measured [i] = i.measures := by rw [measured, List.flatMap_singleton]
        rw [Instr.qubits, e, pairTargets_qubits] at hn hl hpr
        rw [pairs_targets gs (fun g => g.1.2) (fun g => g.2.2)] at hpr
        rw [e, mppGroups_pair, List.flatMap_map]
        have hag : ∀ {t}, Agree gg t [i] → ∀ (s : Nat) g, gs[s]? = some g → gg (t + s) = [g.1.2, g.2.2] := fun hA s g hs => by
          rw [hA s [g.1, g.2] (by rw [hmi, hms, List.getElem?_map, hs]; rfl)]
          rfl
        refine ⟨?_, fun t ht q => ?_, fun t ht x hx => ?_, fun t ht => ?_⟩
        · have hlen : ∀ gs : List ((Basis × Nat) × (Basis × Nat)), (measured (gs.flatMap fun g => parityMeasurementWithCorrelatedNoise g.1.1 g.1.2 g.2.1 g.2.2 D p)).length = gs.length := by
            intro gs
            induction gs with
            | nil => rfl
            | cons g gs ih => rw [List.flatMap_cons, measured_append, List.length_append, measured_gadget, ih, List.length_cons, Nat.add_comm]
          rw [hmi, hms, List.length_map]
          exact hlen gs
        · have h2 := (tagG_gadgets (p := p) (D := D) (hag ht)).2
          have h3 := groups_places q gs
          rw [← h2, List.countP_map] at h3
          have h4 := load_count_le (q := q) hn
          exact h3.trans (by omega)
        · have h2 := (tagG_gadgets (p := p) (D := D) (hag ht)).2
          have hx2 := List.mem_map_of_mem (f := Prod.snd) hx
          rw [h2] at hx2
          obtain ⟨g, hg', hx3⟩ := List.mem_flatMap.1 hx2
          obtain ⟨e, he, hr1, -⟩ := hpr _ (List.mem_map.2 ⟨g, hg', rfl⟩)
          rw [List.eq_of_mem_replicate hx3]
          exact ⟨by simp, e, he, g.1.2, by simp, hr1⟩
        intro F G rec F' H ho hr
        obtain ⟨es, rec0, G', qs, a2, a3, a4, a5, a6⟩ := gadgets_placed (lay := lay) (p := p) (pend := []) hn
          (fun g hg' => ⟨ne_of_lt (hl _ (List.mem_flatMap.2 ⟨g, hg', by simp⟩)), ne_of_lt (hl _ (List.mem_flatMap.2 ⟨g, hg', by simp⟩))⟩)
          (fun g hg' => hpr _ (List.mem_map.2 ⟨g, hg', rfl⟩)) (by simp) (fun q _ hq => ho q hq) (hag ht) hr
        rw [← ha] at a4
        rw [← hms] at a6
        refine ⟨es, rec0 ++ [], fun q => if q ∈ qs then F' q else G' q, _, a2, .step a4 (FaultyRuns.near (qs := qs) (fun q hq => if_neg hq) a3 (.nil _)),
          fun q hq => ?_, ?_⟩
        · beta_reduce
          split_ifs with hm
          · rfl
          · exact a5 q (by simp) hm hq
        · rw [hmi, List.append_nil]
          exact a6
      · exact hs _
    · rcases i with ⟨g, ts, as⟩
      cases g
      case MPP => exact absurd rfl hg
      all_goals first
        | exact hs as
        | exact hs _

end Honeycomb
