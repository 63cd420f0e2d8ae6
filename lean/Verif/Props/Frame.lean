import Verif.Lemmas.FrameNoise

/-!
# Detectors, observable and parity measurements (C18, C19, C32)

The meaning of circuits is stim's Pauli frame semantics (`Spec/Frame.lean`). `CanRecord l rec` says that sampling `l`
without drawing an error from its noise channels can give the record of measurement flips `rec`.
-/

namespace Honeycomb
open HoneycombLayout

/-- C18: in every run of the generated circuit in which no error is drawn, whatever the random bits are, no detector
fires, and every detector refers only to measurements that have been made. The layout's noise strength is arbitrary. -/
theorem c18_no_detector_fires (lay : HoneycombLayout) (hv : lay.Valid) (hs : lay.Supported) :
    ∃ d, lay.makeCircuit = .ok d ∧ ∀ rec, CanRecord d.flatten rec → ∀ v ∈ detectorValues d.flatten rec, v = some 0 := by
  obtain ⟨N, hN⟩ := Int.eq_ofNat_of_zero_le (show 0 ≤ lay.sub_rounds by have := hs.2.2.1; omega)
  obtain ⟨_, _, d, _, _, _, _, _, _, _, _, _, _, _, _, hd⟩ := makeCircuit_ok hv hs hN
  refine ⟨d, hd, ?_⟩
  rintro rec ⟨F, F', -, hr⟩ v hvm
  obtain ⟨ht, hsim⟩ := noisy_run hv hs hN hd
  obtain ⟨G, hG⟩ := hsim F rec F' hr
  obtain ⟨x, hx, rfl⟩ := List.mem_map.1 hvm
  rw [ht, List.mem_filter] at hx
  exact (closed_zero hv hs hN hG).1 x hx.1 (by simpa using hx.2)

/-- C19: in every run of the generated circuit in which no error is drawn the layout's observable (0 for "V", 1 for "H") is not
flipped. -/
theorem c19_observable_not_flipped (lay : HoneycombLayout) (hv : lay.Valid) (hs : lay.Supported) :
    ∃ d, lay.makeCircuit = .ok d ∧ ∀ rec, CanRecord d.flatten rec →
      observableValue (if lay.obs = "V" then 0 else 1) d.flatten rec = some 0 := by
  obtain ⟨N, hN⟩ := Int.eq_ofNat_of_zero_le (show 0 ≤ lay.sub_rounds by have := hs.2.2.1; omega)
  obtain ⟨_, _, d, _, _, _, _, _, _, _, _, _, _, _, _, hd⟩ := makeCircuit_ok hv hs hN
  refine ⟨d, hd, ?_⟩
  rintro rec ⟨F, F', -, hr⟩
  obtain ⟨ht, hsim⟩ := noisy_run hv hs hN hd
  obtain ⟨G, hG⟩ := hsim F rec F' hr
  have := (closed_zero hv hs hN hG).2
  rw [observableValue, ← ht] at this
  exact this

/-- Every circuit has a run from the all-zero state. -/
theorem canRecord_exists (l : List Instr) : ∃ rec, CanRecord l rec := by
  obtain ⟨rec, F', h⟩ := runs_exists (fun _ => 0) (actions l)
  exact ⟨rec, _, F', fun _ => rfl, h⟩

/-- The hypotheses of C18 and C19 are met, with noise and for every style. -/
example : ∃ d, HoneycombLayout.makeCircuit ⟨6, 12, 40, "EM3_v2", "V", 1/1000⟩ = .ok d ∧ ∃ rec, CanRecord d.flatten rec ∧
    (∀ v ∈ detectorValues d.flatten rec, v = some 0) ∧ observableValue 0 d.flatten rec = some 0 := by
  have hv : HoneycombLayout.Valid ⟨6, 12, 40, "EM3_v2", "V", 1/1000⟩ := by constructor <;> decide
  have hs : HoneycombLayout.Supported ⟨6, 12, 40, "EM3_v2", "V", 1/1000⟩ := by refine ⟨?_, ?_, ?_, ?_⟩ <;> simp
  obtain ⟨d, h1, h2⟩ := c18_no_detector_fires _ hv hs
  obtain ⟨d', h1', h3⟩ := c19_observable_not_flipped _ hv hs
  rw [h1] at h1'
  obtain rfl := Except.ok.inj h1'
  obtain ⟨rec, hr⟩ := canRecord_exists d.flatten
  exact ⟨d, h1, rec, hr, h2 rec hr, h3 rec hr⟩

/-- The semantics does not make every detector silent: this one can fire. -/
example : ∃ rec, CanRecord [.on .R [0], .on .H [0], .on .M [0], { gate := .DETECTOR, targets := [.record (-1)] }] rec ∧
    detectorValues [.on .R [0], .on .H [0], .on .M [0], { gate := .DETECTOR, targets := [.record (-1)] }] rec = [some 1] := by
  let F1 : Frame := (Frame.set (fun _ => 0) 0 0).kick 1 [(.Z, 0)]
  let F2 : Frame := F1.set 0 ((F1 0).2, (F1 0).1)
  exact ⟨[F2.flips [(.Z, 0)]], ⟨fun _ => 0, F2.kick 0 [(.Z, 0)], fun _ => rfl, .reset .Z 0 1 (.clifford1 _ 0 (.measure [(.Z, 0)] 0 (.nil _)))⟩, by decide⟩

/-! ## C32 -/

/-- All combinations, in the order of the loops. -/
def parityErrors : List ParityError :=
  ([none, some .X, some .Y, some .Z].flatMap fun a => [none, some .X, some .Y, some .Z].flatMap fun b => [false, true].map fun f => ⟨a, b, f⟩).tail

theorem correlatedErrors_eq (q1 q2 a : Nat) : correlatedErrors q1 q2 a = parityErrors.map fun e => e.targets q1 q2 a := rfl

theorem parityErrors_nodup : parityErrors.Nodup := by decide

theorem mem_parityErrors (e : ParityError) : e ∈ parityErrors ↔ e ≠ ⟨none, none, false⟩ := by
  obtain ⟨a, b, f⟩ := e
  rcases a with _ | (_ | _ | _) <;> rcases b with _ | (_ | _ | _) <;> cases f <;> decide

theorem targets_inj {q1 q2 a : Nat} (h12 : q1 ≠ q2) (h1 : q1 ≠ a) (h2 : q2 ≠ a) {e e' : ParityError} (h : e.targets q1 q2 a = e'.targets q1 q2 a) :
    e = e' := by
  obtain ⟨x, y, f⟩ := e
  obtain ⟨x', y', f'⟩ := e'
  cases x <;> cases y <;> cases f <;> cases x' <;> cases y' <;> cases f' <;>
    simp_all [ParityError.targets]

/-- C32: the expansion consists of the parity extraction, then errors, then the ancilla measurement; the errors are the 31
non-identity elements of {I,X,Y,Z} × {I,X,Y,Z} × {no flip, flip}, each once, each with the independent component
probability of 5 bits of mixing. -/
theorem c32_errors (b1 b2 : Basis) (q1 q2 ancilla : Nat) (p : Rat) (h12 : q1 ≠ q2) (h1 : q1 ≠ ancilla) (h2 : q2 ≠ ancilla) :
    let errors := (parityMeasurementWithCorrelatedNoise b1 q1 b2 q2 ancilla p).filter fun i => isNoise i.gate
    errors.length = 31 ∧ (errors.map (·.targets)).Nodup ∧ (∀ i ∈ errors, i.gate = .E ∧ i.args = [.indep p 5]) ∧
    ∀ ts, ts ∈ errors.map (·.targets) ↔ ∃ e : ParityError, e ≠ ⟨none, none, false⟩ ∧ ts = e.targets q1 q2 ancilla := by
  have he : (parityMeasurementWithCorrelatedNoise b1 q1 b2 q2 ancilla p).filter (fun i => isNoise i.gate) =
      parityErrors.map fun e => { gate := .E, targets := e.targets q1 q2 ancilla, args := [.indep p 5] } := by
    rw [parityMeasurementWithCorrelatedNoise, correlatedErrors_eq, List.map_map, List.filter_append, List.filter_append, List.filter_eq_nil_iff.2,
      List.filter_eq_self.2, List.filter_eq_nil_iff.2, List.nil_append, List.append_nil]
    · rfl
    · simp [Instr.on, isNoise]
    · intro i hi
      obtain ⟨e, _, rfl⟩ := List.mem_map.1 hi
      rfl
    · cases b1 <;> cases b2 <;> simp [Instr.on, isNoise, parityCX, basisCX]
  simp only [he, List.map_map]
  refine ⟨by rw [List.length_map]; rfl, ?_, ?_, ?_⟩
  · exact parityErrors_nodup.map fun e e' h => targets_inj h12 h1 h2 h
  · intro i hi
    obtain ⟨e, _, rfl⟩ := List.mem_map.1 hi
    exact ⟨rfl, rfl⟩
  · intro ts
    simp only [List.mem_map, mem_parityErrors, Function.comp]
    exact ⟨fun ⟨e, h, e'⟩ => ⟨e, h, e'.symm⟩, fun ⟨e, h, e'⟩ => ⟨e, h, e'.symm⟩⟩

theorem drawn_append (a b : List Target) : drawn (a ++ b) = drawn a ++ drawn b := List.filterMap_append ..

theorem runs_drawn {e : ParityError} {q1 q2 a : Nat} {F F' : Frame} {rec : List (ZMod 2)} :
    Runs F (drawn (e.targets q1 q2 a)) rec F' ↔ rec = [] ∧ F' = (e.apply q1 q2 F).mul a (if e.flip then Basis.X.pauli else 0) := by
  have one : ∀ {b : Basis} {q : Nat} {F F' : Frame} {rec : List (ZMod 2)}, Runs F (drawn [.pauli b q]) rec F' ↔ rec = [] ∧ F' = F.mul q b.pauli := by
    intro b q F F' rec
    have hs : F.set q (F q + b.pauli) = F.mul q b.pauli := by
      funext i; simp only [Frame.set, Frame.mul]; split_ifs with h
      · rw [h]
      · rfl
    constructor
    · intro h
      cases h with
      | clifford1 _ _ h =>
        obtain ⟨rfl, rfl⟩ := runs_nil h
        exact ⟨rfl, hs⟩
    · rintro ⟨rfl, rfl⟩
      exact .clifford1 _ _ (by rw [hs]; exact .nil _)
  have zero : ∀ (F : Frame) (q : Nat), F.mul q 0 = F := fun F q => by funext i; simp [Frame.mul]
  have opt : ∀ {b : Option Basis} {q : Nat} {F F' : Frame} {rec : List (ZMod 2)},
      Runs F (drawn (match b with | some b => [.pauli b q] | none => [])) rec F' ↔ rec = [] ∧ F' = F.mul q (optPauli b) := by
    intro b q F F' rec
    cases b with
    | none =>
      simp only [optPauli, zero]
      exact ⟨fun h => runs_nil h, fun ⟨h1, h2⟩ => by subst h1; subst h2; exact .nil _⟩
    | some b => exact one
  have fl : ∀ {F F' : Frame} {rec : List (ZMod 2)}, Runs F (drawn (if e.flip then [.pauli .X a] else [])) rec F' ↔
      rec = [] ∧ F' = F.mul a (if e.flip then Basis.X.pauli else 0) := by
    intro F F' rec
    cases e.flip with
    | false =>
      simp only [Bool.false_eq_true, if_false, zero]
      exact ⟨fun h => runs_nil h, fun ⟨h1, h2⟩ => by subst h1; subst h2; exact .nil _⟩
    | true => exact one
  rw [ParityError.targets, drawn_append, drawn_append, runs_append]
  constructor
  · rintro ⟨r1, r2, F1, h1, h2, rfl⟩
    obtain ⟨r3, r4, F2, h3, h4, rfl⟩ := runs_append.1 h1
    obtain ⟨rfl, rfl⟩ := opt.1 h3
    obtain ⟨rfl, rfl⟩ := opt.1 h4
    obtain ⟨rfl, rfl⟩ := fl.1 h2
    exact ⟨rfl, rfl⟩
  · rintro ⟨rfl, rfl⟩
    exact ⟨[], [], _, runs_append.2 ⟨[], [], _, opt.2 ⟨rfl, rfl⟩, opt.2 ⟨rfl, rfl⟩, rfl⟩, fl.2 ⟨rfl, rfl⟩, rfl⟩

theorem flatMap_pick {α : Type} {l : List (List Target)} (hn : l.Nodup) {t : List Target} (ht : t ∈ l) (f : List Target → List α) :
    (l.flatMap fun x => if x = t then f x else []) = f t := by
  induction l with
  | nil => simp at ht
  | cons a l ih =>
    rw [List.nodup_cons] at hn
    rw [List.flatMap_cons]
    by_cases h : a = t
    · subst h
      rw [if_pos rfl, List.flatMap_eq_nil_iff.2, List.append_nil]
      intro x hx
      rw [if_neg fun h : x = a => hn.1 (h ▸ hx)]
    · rw [if_neg h, List.nil_append]
      exact ih hn.2 ((List.mem_cons.1 ht).resolve_left fun h' => h h'.symm)

/-- The expansion with one error drawn. -/
theorem actionsDrawing_gadget (b1 : Basis) (q1 : Nat) (b2 : Basis) (q2 a : Nat) (p : Rat) (h12 : q1 ≠ q2) (h1 : q1 ≠ a) (h2 : q2 ≠ a) {e : ParityError}
    (he : e ≠ ⟨none, none, false⟩) :
    actionsDrawing (fun i => i.targets = e.targets q1 q2 a) (parityMeasurementWithCorrelatedNoise b1 q1 b2 q2 a p) =
      [.reset .Z a, .control b1 .X q1 a, .control b2 .X q2 a] ++ drawn (e.targets q1 q2 a) ++ [.measure [(.Z, a)]] := by
  rw [parityMeasurementWithCorrelatedNoise, actionsDrawing, List.flatMap_append, List.flatMap_append, List.flatMap_map]
  congr 1
  · congr 1
    · cases b1 <;> cases b2 <;> rfl
    · have := flatMap_pick (l := correlatedErrors q1 q2 a) (t := e.targets q1 q2 a)
        (by rw [correlatedErrors_eq]; exact parityErrors_nodup.map fun e e' h => targets_inj h12 h1 h2 h)
        (by rw [correlatedErrors_eq]; exact List.mem_map.2 ⟨e, (mem_parityErrors e).2 he, rfl⟩) drawn
      rw [← this]
      congr 1
      funext x
      simp only [true_and, decide_eq_true_eq]
      rfl

/-- C32: with the error `e` drawn the expansion acts as the parity measurement it replaces followed by `e` on the two qubits, with the
result flipped if `e` says so: the same results with the same frames, off the ancilla, are possible. -/
theorem c32_error_effect (b1 b2 : Basis) (q1 q2 ancilla : Nat) (p : Rat) (h12 : q1 ≠ q2) (h1 : q1 ≠ ancilla) (h2 : q2 ≠ ancilla)
    (e : ParityError) (he : e ≠ ⟨none, none, false⟩) (F G : Frame) (rec : List (ZMod 2)) :
    (∃ F', Runs F (actionsDrawing (fun i => i.targets = e.targets q1 q2 ancilla)
        (parityMeasurementWithCorrelatedNoise b1 q1 b2 q2 ancilla p)) rec F' ∧ AgreeOff ancilla F' G) ↔
    ∃ m F', Runs F (actions [pairMPP b1 q1 b2 q2]) [m] F' ∧ rec = [m + if e.flip then 1 else 0] ∧ AgreeOff ancilla (e.apply q1 q2 F') G := by
  rw [actionsDrawing_gadget b1 q1 b2 q2 ancilla p h12 h1 h2 he, actions_pairMPP]
  have happly : ∀ {F F' : Frame}, AgreeOff ancilla F F' → AgreeOff ancilla (e.apply q1 q2 F) (e.apply q1 q2 F') := by
    intro F F' h q hq
    simp only [ParityError.apply, Frame.mul]
    rw [h q hq]
  have hoff : ∀ (F : Frame) (x : Pauli), AgreeOff ancilla (F.mul ancilla x) F := fun F x q hq => by simp [Frame.mul, hq]
  have hanc : ∀ (F : Frame), ((e.apply q1 q2 F).mul ancilla (if e.flip then Basis.X.pauli else 0)) ancilla = F ancilla + if e.flip then Basis.X.pauli else 0 := by
    intro F; simp [ParityError.apply, Frame.mul, h1.symm, h2.symm]
  constructor
  · rintro ⟨F', hr, hG⟩
    obtain ⟨r1, r2, F2, g1, g2, rfl⟩ := runs_append.1 hr
    obtain ⟨r3, r4, F1, g3, g4, rfl⟩ := runs_append.1 g1
    obtain ⟨rfl, r, k1, k2⟩ := (gadget_pre h12 h1 h2).1 g3
    obtain ⟨rfl, rfl⟩ := runs_drawn.1 g4
    obtain ⟨rfl, s, rfl⟩ := runs_measure_one.1 g2
    refine ⟨_, _, runs_measure_one.2 ⟨rfl, r, rfl⟩, ?_, ?_⟩
    · rw [List.nil_append, List.nil_append, flips_Z, hanc, k2]
      cases e.flip <;> simp [Basis.pauli]
    · intro q hq
      rw [← hG q hq, kick_off _ _ _ _ hq, hoff _ _ q hq]
      exact (happly k1 q hq).symm
  · rintro ⟨m, F', hr, rfl, hG⟩
    obtain ⟨hm, r, rfl⟩ := runs_measure_one.1 hr
    obtain rfl : m = _ := (List.cons.inj hm).1
    have hF1 : ∃ F1 : Frame, (∀ q, q ≠ ancilla → F1 q = F.kick r [(b1, q1), (b2, q2)] q) ∧ F1 ancilla = (F.flips [(b1, q1), (b2, q2)], r) :=
      ⟨fun q => if q = ancilla then (F.flips [(b1, q1), (b2, q2)], r) else F.kick r [(b1, q1), (b2, q2)] q, fun q hq => by simp [hq], by simp⟩
    obtain ⟨F1, k1, k2⟩ := hF1
    refine ⟨_, runs_append.2 ⟨[], _, _, runs_append.2 ⟨[], [], F1, (gadget_pre h12 h1 h2).2 ⟨rfl, r, k1, k2⟩, runs_drawn.2 ⟨rfl, rfl⟩, rfl⟩,
      runs_measure_one.2 ⟨rfl, 0, rfl⟩, ?_⟩, ?_⟩
    · rw [List.nil_append, flips_Z, hanc, k2]
      cases e.flip <;> simp [Basis.pauli]
    · intro q hq
      rw [← hG q hq, kick_off _ _ _ _ hq, hoff _ _ q hq]
      exact happly k1 q hq

/-- C32: with no error drawn the expansion gives the same results with the same frames, off the ancilla, as the parity measurement it
replaces. -/
theorem c32_no_error (b1 b2 : Basis) (q1 q2 ancilla : Nat) (p : Rat) (h12 : q1 ≠ q2) (h1 : q1 ≠ ancilla) (h2 : q2 ≠ ancilla)
    (F G : Frame) (rec : List (ZMod 2)) :
    (∃ F', Runs F (actions (parityMeasurementWithCorrelatedNoise b1 q1 b2 q2 ancilla p)) rec F' ∧ AgreeOff ancilla F' G) ↔
    ∃ F', Runs F (actions [pairMPP b1 q1 b2 q2]) rec F' ∧ AgreeOff ancilla F' G := by
  rw [actions_pairMPP]
  constructor
  · rintro ⟨F', hr, hG⟩
    obtain ⟨G', hr', hO⟩ := sim_gadget h12 h1 h2 p F F rec F' (fun _ _ => rfl) hr
    exact ⟨G', hr', fun q hq => (hO q hq).symm.trans (hG q hq)⟩
  · rintro ⟨F', hr, hG⟩
    rw [actions_gadget]
    obtain ⟨rfl, r, rfl⟩ := runs_measure_one.1 hr
    have hF1 : ∃ F1 : Frame, (∀ q, q ≠ ancilla → F1 q = F.kick r [(b1, q1), (b2, q2)] q) ∧ F1 ancilla = (F.flips [(b1, q1), (b2, q2)], r) :=
      ⟨fun q => if q = ancilla then (F.flips [(b1, q1), (b2, q2)], r) else F.kick r [(b1, q1), (b2, q2)] q, fun q hq => by simp [hq], by simp⟩
    obtain ⟨F1, k1, k2⟩ := hF1
    refine ⟨_, (runs_append (a := [.reset .Z ancilla, .control b1 .X q1 ancilla, .control b2 .X q2 ancilla])).2
      ⟨[], _, F1, (gadget_pre h12 h1 h2).2 ⟨rfl, r, k1, k2⟩, runs_measure_one.2 ⟨rfl, 0, rfl⟩, ?_⟩, ?_⟩
    · rw [List.nil_append, flips_Z, k2]
    · intro q hq
      rw [← hG q hq, kick_off _ _ _ _ hq, k1 q hq]

/-- The hypotheses are met: `Y3*Y7` with ancilla 20, both with and without the error X3·Z7 with a flip. -/
example : ∃ F', Runs (fun _ => 0) (actions [pairMPP .Y 3 .Y 7]) [0] F' := ⟨_, runs_measure_one.2 ⟨by simp [Frame.flips, anti], 1, rfl⟩⟩
example : (⟨some .X, some .Z, true⟩ : ParityError).targets 3 7 20 = [.pauli .X 3, .pauli .Z 7, .pauli .X 20] := rfl

end Honeycomb
