import Verif.Lemmas.PhysClosed
import Verif.Props.Qubits
import Verif.Spec.Parity

/-! Noise instructions from which no error is drawn do not change the runs. -/

namespace Honeycomb

/-- The frames agree except on qubit `D`. -/
def Off (D : Nat) (F G : Frame) : Prop := ∀ q, q ≠ D → F q = G q

/-- Every run of `as` is a run of `bs`, except for what happens on qubit `D`. -/
def Sim (D : Nat) (as bs : List Action) : Prop :=
  ∀ F G rec F', Off D F G → Runs F as rec F' → ∃ G', Runs G bs rec G' ∧ Off D F' G'

theorem Sim.nil {D : Nat} : Sim D [] [] := by
  intro F G rec F' h hr
  obtain ⟨rfl, rfl⟩ := runs_nil hr
  exact ⟨G, .nil G, h⟩

theorem Sim.append {D : Nat} {a b a' b' : List Action} (h1 : Sim D a a') (h2 : Sim D b b') : Sim D (a ++ b) (a' ++ b') := by
  intro F G rec F' h hr
  obtain ⟨r1, r2, F1, g1, g2, rfl⟩ := runs_append.1 hr
  obtain ⟨G1, k1, o1⟩ := h1 _ _ _ _ h g1
  obtain ⟨G2, k2, o2⟩ := h2 _ _ _ _ o1 g2
  exact ⟨G2, runs_append.2 ⟨_, _, _, k1, k2, rfl⟩, o2⟩

theorem Sim.flatMap {α : Type} {D : Nat} {l : List α} {f g : α → List Action} (h : ∀ x ∈ l, Sim D (f x) (g x)) : Sim D (l.flatMap f) (l.flatMap g) := by
  induction l with
  | nil => exact .nil
  | cons a l ih => exact .append (h a (by simp)) (ih fun x hx => h x (by simp [hx]))

/-- The qubits an action involves. -/
def Action.qubits : Action → List Nat
  | .clifford1 _ q => [q]
  | .control _ _ a b => [a, b]
  | .reset _ q => [q]
  | .measure P => P.map (·.2)

theorem Off.set {D : Nat} {F G : Frame} (h : Off D F G) (q : Nat) (p : Pauli) : Off D (F.set q p) (G.set q p) := by
  intro i hi; simp only [Frame.set]; split_ifs
  · rfl
  · exact h i hi

theorem Off.mul {D : Nat} {F G : Frame} (h : Off D F G) (q : Nat) (p : Pauli) : Off D (F.mul q p) (G.mul q p) := by
  intro i hi; simp only [Frame.mul]; rw [h i hi]

theorem Off.kick {D : Nat} {F G : Frame} (h : Off D F G) (r : ZMod 2) (P : List (Basis × Nat)) : Off D (F.kick r P) (G.kick r P) := by
  induction P generalizing F G with
  | nil => exact h
  | cons x P ih => exact ih (h.mul _ _)

theorem Off.flips {D : Nat} {F G : Frame} (h : Off D F G) {P : List (Basis × Nat)} (hP : ∀ x ∈ P, x.2 ≠ D) : F.flips P = G.flips P := by
  rw [Frame.flips, Frame.flips]
  congr 1
  exact List.map_congr_left fun x hx => by rw [h _ (hP x hx)]

/-- Actions that do not involve `D`. -/
theorem Sim.refl {D : Nat} {as : List Action} (h : ∀ a ∈ as, D ∉ a.qubits) : Sim D as as := by
  intro F G rec F' hO hr
  induction hr generalizing G with
  | nil F => exact ⟨G, .nil G, hO⟩
  | clifford1 f q _ ih =>
    have hq : q ≠ D := by have := h _ List.mem_cons_self; simp [Action.qubits] at this; exact fun h => this h.symm
    obtain ⟨G', k, o⟩ := ih (fun a ha => h a (List.mem_cons_of_mem _ ha)) _ (hO.set q _)
    exact ⟨G', .clifford1 f q (by rw [← hO q hq]; exact k), o⟩
  | control P Q a b _ ih =>
    have hq := h _ List.mem_cons_self
    simp only [Action.qubits, List.mem_cons, List.not_mem_nil, or_false, not_or] at hq
    obtain ⟨G', k, o⟩ := ih (fun a ha => h a (List.mem_cons_of_mem _ ha)) _ ((hO.kick _ [(P, a)]).kick _ [(Q, b)])
    exact ⟨G', .control P Q a b (by rw [← hO a fun e => hq.1 e.symm, ← hO b fun e => hq.2 e.symm]; exact k), o⟩
  | reset b q r _ ih =>
    obtain ⟨G', k, o⟩ := ih (fun a ha => h a (List.mem_cons_of_mem _ ha)) _ ((hO.set q 0).kick r [(b, q)])
    exact ⟨G', .reset b q r k, o⟩
  | measure P r _ ih =>
    have hq := h _ List.mem_cons_self
    obtain ⟨G', k, o⟩ := ih (fun a ha => h a (List.mem_cons_of_mem _ ha)) _ (hO.kick r P)
    refine ⟨G', ?_, o⟩
    rw [hO.flips (P := P) fun x hx e => hq (List.mem_map.2 ⟨x, hx, e⟩)]
    exact .measure P r k

theorem actions_noise {i : Instr} (h : isNoise i.gate = true) : i.actions = [] := by
  rcases i with ⟨g, ts, as⟩
  cases g <;> simp_all [isNoise, Instr.actions]

theorem actions_removeNoise (l : List Instr) : actions (removeNoise l) = actions l := by
  induction l with
  | nil => rfl
  | cons i l ih =>
    have ih' : List.flatMap Instr.actions (removeNoise l) = List.flatMap Instr.actions l := ih
    rw [removeNoise, List.filter_cons]
    rcases h : isNoise i.gate with _ | _
    · simp only [Bool.not_false, if_true, List.map_cons, actions, List.flatMap_cons]
      rw [show List.flatMap Instr.actions (List.map (fun i => if i.gate = .MPP then { i with args := [] } else i)
        (List.filter (fun i => !isNoise i.gate) l)) = List.flatMap Instr.actions l from ih']
      congr 1
      split_ifs with hg
      · rcases i with ⟨g, ts, as⟩
        simp only at hg
        subst hg
        rfl
      · rfl
    · simp only [Bool.not_true, Bool.false_eq_true, if_false, actions, List.flatMap_cons, actions_noise h, List.nil_append]
      exact ih'

/-! ## The expanded parity measurement -/

theorem actions_errors (q1 q2 a : Nat) (p : Rat) :
    actions ((correlatedErrors q1 q2 a).map fun e => { gate := .E, targets := e, args := [.indep p 5] }) = [] := by
  rw [actions, List.flatMap_eq_nil_iff]
  intro i hi
  obtain ⟨e, _, rfl⟩ := List.mem_map.1 hi
  rfl

theorem actions_parityCX (b : Basis) (q a : Nat) : actions [parityCX b q a] = [.control b .X q a] := by cases b <;> rfl

theorem actions_gadget (b1 : Basis) (q1 : Nat) (b2 : Basis) (q2 a : Nat) (p : Rat) :
    actions (parityMeasurementWithCorrelatedNoise b1 q1 b2 q2 a p) = [.reset .Z a, .control b1 .X q1 a, .control b2 .X q2 a, .measure [(.Z, a)]] := by
  rw [parityMeasurementWithCorrelatedNoise, actions_append, actions_append, actions_errors, List.append_nil,
    show ([.on .R [a], parityCX b1 q1 a, parityCX b2 q2 a] : List Instr) = [.on .R [a]] ++ [parityCX b1 q1 a] ++ [parityCX b2 q2 a] from rfl,
    actions_append, actions_append, actions_parityCX, actions_parityCX]
  rfl

theorem actions_pairMPP (b1 : Basis) (q1 : Nat) (b2 : Basis) (q2 : Nat) : actions [pairMPP b1 q1 b2 q2] = [.measure [(b1, q1), (b2, q2)]] := rfl

/-- The expanded measurement up to its errors. -/
theorem gadget_pre {b1 b2 : Basis} {q1 q2 a : Nat} (h12 : q1 ≠ q2) (h1 : q1 ≠ a) (h2 : q2 ≠ a) {F F' : Frame} {rec : List (ZMod 2)} :
    Runs F [.reset .Z a, .control b1 .X q1 a, .control b2 .X q2 a] rec F' ↔ rec = [] ∧ ∃ r : ZMod 2,
      (∀ q, q ≠ a → F' q = F.kick r [(b1, q1), (b2, q2)] q) ∧ F' a = (F.flips [(b1, q1), (b2, q2)], r) := by
  have hk : ∀ r : ZMod 2, ∀ q, ((((((F.set a 0).kick r [(.Z, a)]).kick (anti (((F.set a 0).kick r [(.Z, a)]) a) Basis.X.pauli) [(b1, q1)]).kick
      (anti (((F.set a 0).kick r [(.Z, a)]) q1) b1.pauli) [(.X, a)]).kick
      (anti (((((F.set a 0).kick r [(.Z, a)]).kick (anti (((F.set a 0).kick r [(.Z, a)]) a) Basis.X.pauli) [(b1, q1)]).kick
      (anti (((F.set a 0).kick r [(.Z, a)]) q1) b1.pauli) [(.X, a)]) a) Basis.X.pauli) [(b2, q2)]).kick
      (anti (((((F.set a 0).kick r [(.Z, a)]).kick (anti (((F.set a 0).kick r [(.Z, a)]) a) Basis.X.pauli) [(b1, q1)]).kick
      (anti (((F.set a 0).kick r [(.Z, a)]) q1) b1.pauli) [(.X, a)]) q2) b2.pauli) [(.X, a)]) q =
      if q = a then (F.flips [(b1, q1), (b2, q2)], r) else F.kick r [(b1, q1), (b2, q2)] q := by
    intro r q
    simp only [Frame.kick, List.foldl_cons, List.foldl_nil, Frame.mul, Frame.set, Frame.flips, List.map_cons, List.map_nil, List.sum_cons, List.sum_nil,
      if_true, h1, h2, h1.symm, h2.symm, h12, h12.symm, if_false]
    have e1 : anti (0 + (r * Basis.Z.pauli.1, r * Basis.Z.pauli.2) : Pauli) Basis.X.pauli = r := by revert r; decide
    have e2 : ∀ s : ZMod 2, anti ((0 + (r * Basis.Z.pauli.1, r * Basis.Z.pauli.2) : Pauli) + (s * Basis.X.pauli.1, s * Basis.X.pauli.2)) Basis.X.pauli = r := by
      revert r; decide
    rw [e1, e2]
    by_cases ha : q = a
    · subst ha
      simp only [if_true, h1.symm, h2.symm, if_false]
      generalize anti (F q1) b1.pauli = s
      generalize anti (F q2) b2.pauli = t
      revert r s t; decide
    · simp only [ha, if_false]
  constructor
  · intro h
    cases h with
    | reset _ _ r h =>
      cases h with
      | control _ _ _ _ h =>
        cases h with
        | control _ _ _ _ h =>
          obtain ⟨rfl, rfl⟩ := runs_nil h
          refine ⟨rfl, r, fun q hq => ?_, ?_⟩
          · rw [hk r q, if_neg hq]
          · rw [hk r a, if_pos rfl]
  · rintro ⟨rfl, r, h3, h4⟩
    refine .reset _ _ r (.control _ _ _ _ (.control _ _ _ _ ?_))
    have : F' = _ := funext fun q => (show F' q = if q = a then (F.flips [(b1, q1), (b2, q2)], r) else F.kick r [(b1, q1), (b2, q2)] q by
      split_ifs with hq
      · rw [hq, h4]
      · exact h3 q hq).trans (hk r q).symm
    rw [this]
    exact .nil _

theorem runs_measure_one {F F' : Frame} {rec : List (ZMod 2)} {P : List (Basis × Nat)} :
    Runs F [.measure P] rec F' ↔ rec = [F.flips P] ∧ ∃ r, F' = F.kick r P := by
  constructor
  · intro h
    cases h with
    | measure _ r h =>
      obtain ⟨rfl, rfl⟩ := runs_nil h
      exact ⟨rfl, r, rfl⟩
  · rintro ⟨rfl, r, rfl⟩
    exact .measure P r (.nil _)

theorem kick_off (F : Frame) (r : ZMod 2) (b : Basis) (a : Nat) {q : Nat} (hq : q ≠ a) : F.kick r [(b, a)] q = F q := by
  simp only [Frame.kick, List.foldl_cons, List.foldl_nil, Frame.mul, if_neg hq]

theorem flips_Z (F : Frame) (a : Nat) : F.flips [(.Z, a)] = (F a).1 := by
  simp only [Frame.flips, List.map_cons, List.map_nil, List.sum_cons, List.sum_nil, add_zero, anti_Z]

/-- The expanded measurement is simulated by the plain one. -/
theorem sim_gadget {b1 b2 : Basis} {q1 q2 D : Nat} (h12 : q1 ≠ q2) (h1 : q1 ≠ D) (h2 : q2 ≠ D) (p : Rat) :
    Sim D (actions (parityMeasurementWithCorrelatedNoise b1 q1 b2 q2 D p)) [.measure [(b1, q1), (b2, q2)]] := by
  intro F G rec F' hO hr
  rw [actions_gadget] at hr
  obtain ⟨r1, r2, F1, g1, g2, rfl⟩ := (runs_append (a := [.reset .Z D, .control b1 .X q1 D, .control b2 .X q2 D])).1 hr
  obtain ⟨rfl, r, e1, e2⟩ := (gadget_pre h12 h1 h2).1 g1
  obtain ⟨rfl, s, rfl⟩ := runs_measure_one.1 g2
  refine ⟨G.kick r [(b1, q1), (b2, q2)], ?_, fun q hq => ?_⟩
  · rw [List.nil_append, flips_Z, e2, hO.flips (P := [(b1, q1), (b2, q2)]) (by simp [h1, h2])]
    exact runs_measure_one.2 ⟨rfl, r, rfl⟩
  · rw [kick_off _ _ _ _ hq, e1 q hq]
    exact hO.kick r _ q hq

/-! ## Circuits -/

theorem perStep_rel {R : List Instr → List Instr → Prop} (h0 : R [] []) (ha : ∀ a b a' b', R a a' → R b b' → R (a ++ b) (a' ++ b'))
    (ht : R [.tick] [.tick]) {f g : Nat → List Instr → List Instr} (P : Instr → Prop)
    (hfg : ∀ a ops, (∀ i ∈ ops, P i) → R (f a ops) (g a ops)) (c : Circuit) :
    (∀ i ∈ c.ops, P i) → ∀ (a : Nat) (acc : List Instr), (∀ i ∈ acc, P i) → R (perStep f c a acc) (perStep g c a acc) := by
  induction c with
  | nil => intro _ a acc hacc; exact hfg a acc hacc
  | op i c ih =>
    intro hP a acc hacc
    have hP' : ∀ j ∈ c.ops, P j := fun j hj => hP j (by simp [Circuit.ops, hj])
    by_cases hi : i.gate = .TICK
    · rw [perStep, if_pos hi, perStep, if_pos hi]
      exact ha _ _ _ _ (ha _ _ _ _ (hfg a acc hacc) ht) (ih hP' a [] (by simp))
    · rw [perStep, if_neg hi, perStep, if_neg hi]
      refine ih hP' a _ ?_
      intro j hj
      rcases List.mem_append.1 hj with hj | hj
      · exact hacc j hj
      · rw [List.mem_singleton] at hj
        subst hj
        exact hP j (by simp [Circuit.ops])
  | rep n b c ihb ihc =>
    intro hP a acc hacc
    have hrep : ∀ (n : Nat) (l l' : List Instr), R l l' → R (List.replicate n l).flatten (List.replicate n l').flatten := by
      intro n l l' h
      induction n with
      | zero => exact h0
      | succ n ih => exact ha _ _ _ _ h ih
    rw [perStep, perStep]
    exact ha _ _ _ _ (ha _ _ _ _ (hfg a acc hacc) (hrep _ _ _ (ihb (fun j hj => hP j (by simp [Circuit.ops, hj])) _ [] (by simp))))
      (ihc (fun j hj => hP j (by simp [Circuit.ops, hj])) a [] (by simp))


theorem mem_timeSteps {l : List Instr} {i : Instr} (hi : i ∈ l) (ht : i.gate ≠ .TICK) : ∃ s ∈ timeSteps l, i ∈ s := by
  induction l with
  | nil => simp at hi
  | cons j l ih =>
    rw [timeSteps]
    split_ifs with hj
    · rcases List.mem_cons.1 hi with rfl | hi
      · exact absurd hj ht
      · obtain ⟨s, hs, h⟩ := ih hi
        exact ⟨s, List.mem_cons_of_mem _ hs, h⟩
    · obtain ⟨s, ss, es⟩ := List.exists_cons_of_ne_nil (timeSteps_ne_nil l)
      rw [es]
      rcases List.mem_cons.1 hi with rfl | hi
      · exact ⟨_, List.mem_cons_self, List.mem_cons_self⟩
      · obtain ⟨s', hs', h⟩ := ih hi
        rw [es] at hs'
        rcases List.mem_cons.1 hs' with rfl | hs'
        · exact ⟨_, List.mem_cons_self, List.mem_cons_of_mem _ h⟩
        · exact ⟨s', List.mem_cons_of_mem _ hs', h⟩

theorem nodup_of_mem_flatMap {α β : Type} {f : α → List β} {l : List α} (h : (l.flatMap f).Nodup) {a : α} (ha : a ∈ l) : (f a).Nodup := by
  induction l with
  | nil => simp at ha
  | cons x l ih =>
    rw [List.flatMap_cons, List.nodup_append] at h
    rcases List.mem_cons.1 ha with rfl | ha
    · exact h.1
    · exact ih h.2.1 ha

/-- Every operation of the unrolled circuit acts on distinct qubits. -/
theorem HoneycombLayout.closed_nodup {lay : HoneycombLayout} (hv : lay.Valid) (hs : lay.Supported) {N : Nat} (hN : lay.sub_rounds = N) {i : Instr}
    (hi : i ∈ lay.closedCircuit N) (hk : kind i.gate ≠ .annotation) : i.qubits.Nodup := by
  obtain ⟨s, h1, h2⟩ := mem_timeSteps hi (fun h => hk (by rw [h]; rfl))
  have := (free_closed hv hs (N := N) (by have := hs.2.2.1; omega) s h1).1
  exact nodup_of_mem_flatMap (f := Instr.qubits) this (List.mem_filter.2 ⟨h2, by simpa using hk⟩)

/-- Operations that the expansion with ancilla `D` leaves intact off `D`. -/
structure Expandable (D : Nat) (i : Instr) : Prop where
  lt : ∀ q ∈ i.qubits, q < D
  clean : isNoise i.gate = false
  mpp : i.gate = .MPP → i.args = [] ∧ ∃ gs, i.targets = pairTargets gs
  nodup : i.gate = .MPP → i.qubits.Nodup

theorem pairTargets_qubits (gs : List ((Basis × Nat) × (Basis × Nat))) :
    (pairTargets gs).filterMap Target.qubit? = gs.flatMap fun g => [g.1.2, g.2.2] := by
  induction gs with
  | nil => rfl
  | cons g gs ih =>
    rw [pairTargets, List.flatMap_cons, List.filterMap_append, List.flatMap_cons]
    exact congrArg₂ _ rfl ih

theorem mem_pairs {l : List Nat} {x : Nat × Nat} (h : x ∈ pairs l) : x.1 ∈ l ∧ x.2 ∈ l := by
  induction l using pairs.induct with
  | case1 a b l ih =>
    rw [pairs] at h
    rcases List.mem_cons.1 h with rfl | h
    · simp
    · have := ih h; simp [this]
  | case2 l hl =>
    exfalso
    match l with
    | [] => simp [pairs] at h
    | [a] => simp [pairs] at h
    | a :: b :: l => exact hl a b l rfl

theorem actions_qubits {D : Nat} {i : Instr} (h : Expandable D i) : ∀ a ∈ i.actions, D ∉ a.qubits := by
  intro a ha hD
  have hlt : D ∉ i.qubits := fun h' => lt_irrefl _ (h.lt _ h')
  have single : ∀ {f : Nat → Action} {g : Nat → List Nat}, (∀ q, (f q).qubits = [q]) → a ∈ i.qubits.map f → False := by
    intro f g hf hm
    obtain ⟨q, hq, rfl⟩ := List.mem_map.1 hm
    rw [hf, List.mem_singleton] at hD
    exact hlt (hD ▸ hq)
  have double : ∀ {P Q : Basis}, a ∈ (pairs i.qubits).map (fun x => .control P Q x.1 x.2) → False := by
    intro P Q hm
    obtain ⟨x, hx, rfl⟩ := List.mem_map.1 hm
    have := mem_pairs hx
    simp only [Action.qubits, List.mem_cons, List.not_mem_nil, or_false] at hD
    rcases hD with rfl | rfl
    · exact hlt this.1
    · exact hlt this.2
  have meas : ∀ {b : Basis}, a ∈ (i.qubits.map fun q => [(b, q)]).map Action.measure → False := by
    intro b hm
    rw [List.map_map] at hm
    exact single (f := Action.measure ∘ fun q => [(b, q)]) (g := fun _ => []) (fun q => rfl) hm
  by_cases hg : i.gate = .MPP
  · obtain ⟨_, gs, e⟩ := h.mpp hg
    simp only [Instr.actions, hg, Instr.measures, e, mppGroups_pair, List.mem_map] at ha
    obtain ⟨_, ⟨g, hg', rfl⟩, rfl⟩ := ha
    have hq : i.qubits = gs.flatMap fun g => [g.1.2, g.2.2] := by rw [Instr.qubits, e, pairTargets_qubits]
    rw [hq] at hlt
    refine hlt (List.mem_flatMap.2 ⟨g, hg', ?_⟩)
    simpa [Action.qubits] using hD
  · rcases i with ⟨g, ts, as⟩
    cases g <;> simp only [Instr.actions, Instr.measures, List.not_mem_nil] at ha
    all_goals first
      | exact double ha
      | exact meas ha
      | exact single (g := fun _ => []) (fun q => rfl) ha
      | exact absurd rfl hg

theorem actions_eq_nil {l : List Instr} (h : ∀ i ∈ l, isNoise i.gate = true) : actions l = [] := by
  rw [actions, List.flatMap_eq_nil_iff]
  exact fun i hi => actions_noise (h i hi)

theorem noiseBefore_noise {nm : NoiseModel} {i : Instr} {p : Rat} : ∀ j ∈ noiseBefore nm i p, isNoise j.gate = true := by
  intro j hj
  rcases i with ⟨g, ts, as⟩
  unfold noiseBefore at hj
  by_cases hp : p ≤ 0
  · rw [if_pos hp] at hj; simp at hj
  · rw [if_neg hp] at hj
    cases g <;> simp only [kind, List.not_mem_nil, List.mem_singleton] at hj <;> try (subst hj; rfl)
    all_goals
      split_ifs at hj
      · simp at hj
      · rw [List.mem_singleton] at hj; subst hj; rfl

theorem noiseAfter_noise {i : Instr} {p : Rat} : ∀ j ∈ noiseAfter i p, isNoise j.gate = true := by
  intro j hj
  rcases i with ⟨g, ts, as⟩
  unfold noiseAfter at hj
  split_ifs at hj
  · simp at hj
  · cases g <;> simp only [kind, List.not_mem_nil, List.mem_singleton] at hj <;> (subst hj; rfl)

theorem sim_core {nm : NoiseModel} (hc : nm.use_correlated_parity_measurement_errors = true) {D : Nat} {i : Instr} (h : Expandable D i) (p : Rat) :
    Sim D (actions (noisyCore nm D i p)) i.actions := by
  have hone : actions [i] = i.actions := by rw [actions, List.flatMap_cons, List.flatMap_nil, List.append_nil]
  unfold noisyCore
  by_cases hp : p ≤ 0
  · rw [if_pos hp, hone]; exact .refl (actions_qubits h)
  · rw [if_neg hp]
    by_cases hg : i.gate = .MPP
    · obtain ⟨_, gs, e⟩ := h.mpp hg
      have hn := h.nodup hg
      have hl := h.lt
      rw [Instr.qubits, e, pairTargets_qubits] at hn hl
      simp only [hg, kind, hc, if_true]
      rw [show i.actions = (mppGroups i.targets).map .measure by simp only [Instr.actions, hg, Instr.measures], e, mppGroups_pair, List.flatMap_map, List.map_map,
        actions, List.flatMap_assoc, ← List.flatMap_pure_eq_map]
      refine Sim.flatMap fun g hg' => ?_
      have hn' := nodup_of_mem_flatMap hn hg'
      refine sim_gadget (b1 := g.1.1) (b2 := g.2.1) (by simpa using hn') ?_ ?_ p
      · exact ne_of_lt (hl _ (List.mem_flatMap.2 ⟨g, hg', by simp⟩))
      · exact ne_of_lt (hl _ (List.mem_flatMap.2 ⟨g, hg', by simp⟩))
    · rcases i with ⟨g, ts, as⟩
      cases g
      case MPP => exact absurd rfl hg
      all_goals
        simp only [kind]
        rw [hone]; exact .refl (actions_qubits h)

theorem sim_ops {nm : NoiseModel} (hc : nm.use_correlated_parity_measurement_errors = true) {D : Nat} {ops idle : List Instr}
    (h : ∀ i ∈ ops, Expandable D i) (hi : ∀ i ∈ idle, i.gate = .DEPOLARIZE1) : Sim D (actions (noisyOps nm D ops ++ idle)) (actions ops) := by
  have e1 : actions idle = [] := actions_eq_nil fun i h => by rw [hi i h]; rfl
  have e2 : actions (ops.flatMap fun i => noiseBefore nm i ((nm.rate i.gate).getD 0)) = [] := actions_eq_nil fun i hm => by
    obtain ⟨j, _, hj⟩ := List.mem_flatMap.1 hm
    exact noiseBefore_noise i hj
  have e3 : actions (ops.flatMap fun i => noiseAfter i ((nm.rate i.gate).getD 0)) = [] := actions_eq_nil fun i hm => by
    obtain ⟨j, _, hj⟩ := List.mem_flatMap.1 hm
    exact noiseAfter_noise i hj
  rw [noisyOps, actions_append, actions_append, actions_append, e1, e2, e3, List.nil_append, List.append_nil, List.append_nil, actions, actions,
    List.flatMap_assoc]
  exact Sim.flatMap fun i hm => sim_core hc (h i hm) _

namespace HoneycombLayout
variable {lay : HoneycombLayout}

/-- The runs of the generated circuit, no error being drawn, are runs of the unrolled noiseless circuit. -/
theorem noisy_run (hv : lay.Valid) (hs : lay.Supported) {N : Nat} (hN : lay.sub_rounds = N) {d : Circuit} (hd : lay.makeCircuit = .ok d) :
    (∀ k, timeline k d.flatten = timeline k (lay.closedCircuit N)) ∧
    ∀ F rec F', Runs F (actions d.flatten) rec F' → ∃ G, Runs F (actions (lay.closedCircuit N)) rec G := by
  obtain ⟨c, nm, d', hc, hf, hsh, hg, hno, htk, hpm, hnorm, hnm, hpre, hacc, hd', hm⟩ := makeCircuit_ok hv hs hN
  rw [hd] at hm
  obtain rfl : d = d' := Except.ok.inj hm
  refine ⟨fun k => ?_, fun F rec F' hr => ?_⟩
  · have := hd'
    rw [noisyCircuit_tracked] at this
    rw [timeline_noisy htk this, hf]
  · by_cases hst : lay.style = "EM3_v2"
    · obtain ⟨c', d', D, hc', hm', hD, hlt, idle, hi, e⟩ := c33_ancilla lay hv hs hst
      rw [hc] at hc'
      obtain rfl : c = c' := Except.ok.inj hc'
      rw [hd] at hm'
      obtain rfl : d = d' := Except.ok.inj hm'
      have hsh2 : c.Shape fun r _ => 2 ≤ r := Shape.mono (fun _ _ h => h.1) hsh
      have hex : ∀ i ∈ c.ops, Expandable D i := fun i him => ⟨hlt i (Circuit.ops_flatten hsh2 him), (hno i him).1, (hg i him).mpp, fun hg' =>
        closed_nodup hv hs hN (hf ▸ Circuit.ops_flatten hsh2 him) (by rw [hg']; decide)⟩
      have := perStep_rel (R := fun l l' => Sim D (actions l) (actions l')) .nil
        (fun a b a' b' h1 h2 => by rw [actions_append, actions_append]; exact h1.append h2) .nil (Expandable D)
        (f := fun _ ops => noisyOps (.EM3_v2 lay.noise) D ops ++ idle ops) (g := fun _ ops => ops)
        (fun _ ops ho => sim_ops rfl ho (fun i hm => (hi ops i hm).1)) c hex c.num_qubits [] (by simp)
      rw [perStep_flatten c htk, List.nil_append, ← e, hf] at this
      obtain ⟨G, h1, _⟩ := this F F rec F' (fun _ _ => rfl) hr
      exact ⟨G, h1⟩
    · have hnc : nm.use_correlated_parity_measurement_errors = false := by
        rcases hs.1 with h | h | h | h | h
        all_goals first
          | (exact absurd h hst)
          | (simp [noise_model, h] at hnm; subst hnm; rfl)
      have := c25_only_adds_noise nm hnc c d none hno htk hd'
      rw [← actions_removeNoise, this, hf] at hr
      exact ⟨F', hr⟩

end HoneycombLayout
end Honeycomb
