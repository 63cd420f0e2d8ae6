import Verif.Props.Noise
import Verif.Model.SurfaceCode
import Verif.Model.SurfaceFiles
import Verif.Lemmas.Unused

/-!
# C94: the surface code circuits that the honeycomb code is compared with

`Honeycomb.surfaceCodeCircuit` reads a circuit from a file and adds noise to it.
-/

namespace Honeycomb

/-- C94: a file that cannot be read or parsed is reported before anything else; a noise name other than "SD6" and "SI1000" is refused
with NotImplementedError. -/
theorem c94_errors (read : String → Except PyErr Circuit) (dir name obs : String) (p : Rat) (d : Int) :
    (∀ e, read (surfaceCodePath dir name obs d) = .error e → surfaceCodeCircuit read dir name p obs d = .error e) ∧
    (∀ c, read (surfaceCodePath dir name obs d) = .ok c → name ≠ "SD6" → name ≠ "SI1000" →
      surfaceCodeCircuit read dir name p obs d = .error .notImplemented) := by
  refine ⟨fun e h => ?_, fun c h h1 h2 => ?_⟩
  · unfold surfaceCodeCircuit; rw [h]
  · unfold surfaceCodeCircuit; rw [h]; simp only; rw [if_neg h2, if_neg h1]

/-- The noise model of a surface code circuit. -/
theorem surfaceCodeCircuit_eq {read : String → Except PyErr Circuit} {dir name obs : String} {p : Rat} {d : Int} {c : Circuit}
    (h : read (surfaceCodePath dir name obs d) = .ok c) (hn : name = "SD6" ∨ name = "SI1000") :
    surfaceCodeCircuit read dir name p obs d = (if name = "SD6" then NoiseModel.SD6 p else .SI1000 p).noisyCircuit c none := by
  unfold surfaceCodeCircuit
  rw [h]
  rcases hn with rfl | rfl <;> rfl

/-- C94: the circuit of a surface code problem is the circuit of the file with noise added: the file is accepted exactly when it consists of
single-qubit Clifford gates, annotations, `R`, `M` and the two-qubit gate of the noise model ("SD6": `CX`, "SI1000": `CZ`); the result
without its noise is the file; the measurement record, the detectors and the observables are those of the file; at noise 0 nothing is
added. -/
theorem c94_circuit (read : String → Except PyErr Circuit) (dir name obs : String) (p : Rat) (d : Int) (c : Circuit)
    (h : read (surfaceCodePath dir name obs d) = .ok c) (hname : name = "SD6" ∨ name = "SI1000")
    (hn : Noiseless c) (ht : TickOK c) (hp : PairMPP c) :
    ((∃ r, surfaceCodeCircuit read dir name p obs d = .ok r) ↔ ∀ i ∈ c.ops,
      kind i.gate = .clifford1 ∨ kind i.gate = .annotation ∨ i.gate = .R ∨ i.gate = .M ∨
        (name = "SD6" ∧ i.gate = .CX) ∨ (name = "SI1000" ∧ i.gate = .CZ)) ∧
    ∀ r, surfaceCodeCircuit read dir name p obs d = .ok r →
      removeNoise r.flatten = c.flatten ∧
      r.num_measurements = c.num_measurements ∧ r.num_detectors = c.num_detectors ∧
      recordUses 0 r.flatten = recordUses 0 c.flatten ∧
      (p = 0 → r.flatten = c.flatten) := by
  rw [surfaceCodeCircuit_eq h hname]
  generalize hm : (if name = "SD6" then NoiseModel.SD6 p else .SI1000 p) = nm
  have hmem : nm ∈ predefined p := by
    rw [← hm]; split_ifs <;> simp [predefined]
  have hcor : nm.use_correlated_parity_measurement_errors = false := by
    rw [← hm]; split_ifs <;> rfl
  have hacc := (c29_refused nm (predefined_sensible p nm hmem) c none hp hn).2
  refine ⟨hacc.trans (forall₂_congr fun i _ => ?_), fun r hr => ?_⟩
  · have hs := c29_supported p i.gate
    rcases hname with rfl | rfl
    · have e : nm = .SD6 p := hm.symm.trans (if_pos rfl)
      have hx : ¬ ("SD6" : String) = "SI1000" := by decide
      rw [e, hs.1]
      clear hm hacc hmem hcor hs
      constructor
      · rintro (h | h | h | h | h) <;> simp [h]
      · rintro (h | h | h | h | h | h)
        · exact .inl h
        · exact .inr (.inl h)
        · exact .inr (.inr (.inr (.inl h)))
        · exact .inr (.inr (.inr (.inr h)))
        · exact .inr (.inr (.inl h.2))
        · exact absurd h.1 hx
    · have hx : ¬ ("SI1000" : String) = "SD6" := by decide
      have e : nm = .SI1000 p := hm.symm.trans (if_neg hx)
      rw [e, hs.2.2.2.2]
      clear hm hacc hmem hcor hs
      constructor
      · rintro (h | h | h | h | h) <;> simp [h]
      · rintro (h | h | h | h | h | h)
        · exact .inl h
        · exact .inr (.inl h)
        · exact .inr (.inr (.inr (.inl h)))
        · exact .inr (.inr (.inr (.inr h)))
        · exact absurd h.1 hx
        · exact .inr (.inr (.inl h.2))
  · obtain ⟨h1, h2, h3⟩ := c30_record_preserved nm c r none ht hr
    refine ⟨c25_only_adds_noise nm hcor c r none hn ht hr, h1, h2, h3, fun hz => ?_⟩
    subst hz
    obtain ⟨r', hr', hf, _⟩ := c26_zero_noise nm hmem c none ht (hacc.1 ⟨r, hr⟩)
    rw [hr] at hr'
    exact (Except.ok.inj hr') ▸ hf

/-- C94: in both noise models an identity gate has the strength of idling, so that writing `I` on an idle qubit, as the files do, gives it the
noise that the honeycomb circuits' idle qubits get. -/
theorem c94_idle (p : Rat) :
    (NoiseModel.SD6 p).rate .I = some (NoiseModel.SD6 p).idle ∧ (NoiseModel.SI1000 p).rate .I = some (NoiseModel.SI1000 p).idle :=
  ⟨rfl, rfl⟩

/-! ## Which file -/

/-- C94: the surface code problems of the collection script are those of the descriptions, and a problem's circuit does not depend on its
decoder. -/
theorem c94_problems (read : String → Except PyErr Circuit) (dir : String) :
    (surfaceCodeProblems read dir).map Prod.fst = surfaceCodeDescs ∧
    ∀ x ∈ surfaceCodeProblems read dir, ∃ name ∈ ["SD6", "SI1000"], ∃ obs ∈ ["X", "Z"],
      x.1.circuit_style = "surface_" ++ name ∧ x.1.preserved_observable = obs ∧
      x.2 = surfaceCodeCircuit read dir name x.1.noise obs x.1.code_distance := by
  refine ⟨?_, ?_⟩
  · simp only [surfaceCodeProblems, surfaceCodeDescs, List.map_flatMap, List.map_map]
    rfl
  · intro x hx
    simp only [surfaceCodeProblems, List.mem_flatMap, List.mem_map] at hx
    obtain ⟨dec, _, d, _, p, _, name, hname, obs, hobs, rfl⟩ := hx
    exact ⟨name, hname, obs, hobs, rfl, rfl, rfl⟩

/-- C94: whatever the directory, each noise model, observable and distance of the script has a file of its own. -/
theorem c94_files (dir : String) : ∀ n ∈ ["SD6", "SI1000"], ∀ n' ∈ ["SD6", "SI1000"], ∀ o ∈ ["X", "Z"], ∀ o' ∈ ["X", "Z"],
    ∀ d ∈ ([3, 7, 11, 15, 19] : List Int), ∀ d' ∈ ([3, 7, 11, 15, 19] : List Int),
    surfaceCodePath dir n o d = surfaceCodePath dir n' o' d' → n = n' ∧ o = o' ∧ d = d' := by
  have hsplit : ∀ n o d, surfaceCodePath dir n o d = dir ++ surfaceCodePath "" n o d := by
    intro n o d
    simp only [surfaceCodePath, String.append_assoc, String.empty_append]
  have hinj : ∀ n ∈ ["SD6", "SI1000"], ∀ n' ∈ ["SD6", "SI1000"], ∀ o ∈ ["X", "Z"], ∀ o' ∈ ["X", "Z"],
      ∀ d ∈ ([3, 7, 11, 15, 19] : List Int), ∀ d' ∈ ([3, 7, 11, 15, 19] : List Int),
      (surfaceCodePath "" n o d).toList = (surfaceCodePath "" n' o' d').toList → n = n' ∧ o = o' ∧ d = d' := by
    decide +kernel
  intro n hn n' hn' o ho o' ho' d hd d' hd' h
  rw [hsplit n, hsplit n'] at h
  refine hinj n hn n' hn' o ho o' ho' d hd d' hd' ?_
  have := congrArg String.toList h
  rw [String.toList_append, String.toList_append] at this
  exact List.append_cancel_left this

/-! ## Qubits that are never used -/

section
variable {S : Nat → Prop} [DecidablePred S]

theorem noisyOps_targets {nm : NoiseModel} (hc : nm.use_correlated_parity_measurement_errors = false) {a : Nat} {ops : List Instr}
    (h : ∀ i ∈ ops, ∀ q ∈ i.qubits, S q) : ∀ i ∈ noisyOps nm a ops, ∀ q ∈ i.qubits, S q := by
  have hq : ∀ l : List Nat, (l.map Target.q).filterMap Target.qubit? = l := by
    intro l
    induction l with
    | nil => rfl
    | cons x l ih => rw [List.map_cons, List.filterMap_cons]; simp only [Target.qubit?]; rw [ih]
  intro j hj q hjq
  simp only [noisyOps, List.mem_append, List.mem_flatMap] at hj
  rcases hj with (⟨i, hi, hj⟩ | ⟨i, hi, hj⟩) | ⟨i, hi, hj⟩ <;> refine h i hi q ?_
  · unfold noiseBefore at hj
    rw [hc, if_neg (show ¬ (false = true) by decide)] at hj
    split_ifs at hj
    · simp at hj
    · split at hj
      · rw [List.mem_singleton.1 hj] at hjq; exact hjq
      · rw [List.mem_singleton.1 hj] at hjq
        simp only [channel, Instr.qubits] at hjq
        rw [hq] at hjq
        exact hjq
      · simp at hj
  · unfold noisyCore at hj
    rw [hc, if_neg (show ¬ (false = true) by decide)] at hj
    split_ifs at hj
    · rw [List.mem_singleton.1 hj] at hjq; exact hjq
    · split at hj
      · rw [List.mem_singleton.1 hj] at hjq; exact hjq
      · rw [List.mem_singleton.1 hj] at hjq; exact hjq
  · unfold noiseAfter at hj
    split_ifs at hj
    · simp at hj
    · split at hj
      all_goals first
        | (rw [List.mem_singleton.1 hj] at hjq; exact hjq)
        | simp at hj

theorem idleOf_gate {nm : NoiseModel} {qs : Finset Nat} {ops : List Instr} : ∀ i ∈ idleOf nm qs ops, i.gate = .DEPOLARIZE1 := by
  intro i hi
  unfold idleOf NoiseModel.idleErrors at hi
  simp only [List.mem_append] at hi
  rcases hi with hi | hi <;> split_ifs at hi <;> simp at hi <;> subst hi <;> rfl

theorem keepUsed_idle {nm : NoiseModel} {A B : Finset Nat} (h : ∀ q, S q → (q ∈ A ↔ q ∈ B)) (ops : List Instr) :
    keepUsed S (idleOf nm A ops) = keepUsed S (idleOf nm B ops) := by
  have key : ∀ (U : Finset Nat) (p : Rat) (A : Finset Nat),
      keepUsed S (if U.Nonempty ∧ (A \ U).sort (· ≤ ·) ≠ [] ∧ p > 0 then
        [{ gate := .DEPOLARIZE1, targets := ((A \ U).sort (· ≤ ·)).map .q, args := [.lit p] }] else []) =
      if U.Nonempty ∧ p > 0 ∧ keepTargets S (((A \ U).sort (· ≤ ·)).map .q) ≠ [] then
        [{ gate := .DEPOLARIZE1, targets := keepTargets S (((A \ U).sort (· ≤ ·)).map .q), args := [.lit p] }] else [] := by
    intro U p A
    by_cases hk : keepTargets S (((A \ U).sort (· ≤ ·)).map .q) = []
    · have hn : ¬ (U.Nonempty ∧ p > 0 ∧ keepTargets S (((A \ U).sort (· ≤ ·)).map .q) ≠ []) := fun x => x.2.2 hk
      rw [if_neg hn]
      split_ifs
      · rw [keepUsed, List.filterMap_cons, keepInstr, if_pos rfl, if_pos hk]; rfl
      · rfl
    · have hne : (A \ U).sort (· ≤ ·) ≠ [] := fun e => hk (by rw [e]; rfl)
      by_cases hc : U.Nonempty ∧ p > 0
      · rw [if_pos ⟨hc.1, hne, hc.2⟩, if_pos ⟨hc.1, hc.2, hk⟩, keepUsed, List.filterMap_cons, keepInstr, if_pos rfl, if_neg hk]; rfl
      · rw [if_neg fun x => hc ⟨x.1, x.2.2⟩, if_neg fun x => hc ⟨x.1, x.2.1⟩]; rfl
  have hd : ∀ U : Finset Nat, keepTargets S (((A \ U).sort (· ≤ ·)).map .q) = keepTargets S (((B \ U).sort (· ≤ ·)).map .q) :=
    fun U => sort_keep _ _ fun q hq => by simp only [Finset.mem_sdiff, h q hq]
  simp only [idleOf, NoiseModel.idleErrors, keepUsed_append, key, hd]

end

/-- C94: the files leave out qubit indices, and without the argument `qs` idle noise is put on every index below the largest. This is
harmless: whatever record of measurement flips the circuit can produce with `n` errors it can produce with at most `n` errors when idle noise
is put on exactly the qubits `qs`, where `qs` holds at least the qubits that the circuit uses, and conversely. -/
theorem c94_unused (nm : NoiseModel) (hc : nm.use_correlated_parity_measurement_errors = false) (c r r' : Circuit) (qs : Finset Nat)
    (hq : ∀ i ∈ c.ops, ∀ q ∈ i.qubits, q ∈ qs) (h : nm.noisyCircuit c none = .ok r) (h' : nm.noisyCircuit c (some qs) = .ok r')
    (n : Nat) (rec : List (ZMod 2)) :
    (CanSample n r.flatten rec → ∃ m ≤ n, CanSample m r'.flatten rec) ∧
    (CanSample n r'.flatten rec → ∃ m ≤ n, CanSample m r.flatten rec) := by
  classical
  rw [noisyCircuit_tracked] at h
  let S : Nat → Prop := fun q => ∃ i ∈ c.ops, q ∈ i.qubits
  have hS : ∀ q, S q → (q ∈ trackedQubits c none ↔ q ∈ qs) := by
    rintro q ⟨i, hi, hqi⟩
    exact ⟨fun _ => hq i hi q hqi, fun _ => Finset.mem_range.2 (lt_num_qubits hi hqi)⟩
  have hR := perStep_rel
    (R := fun l l' => (∀ i ∈ l, i.gate ≠ .DEPOLARIZE1 → ∀ q ∈ i.qubits, S q) ∧ (∀ i ∈ l', i.gate ≠ .DEPOLARIZE1 → ∀ q ∈ i.qubits, S q) ∧
      keepUsed S l = keepUsed S l')
    ⟨by simp, by simp, rfl⟩
    (fun a b a' b' x y => ⟨fun i hi => (List.mem_append.1 hi).elim (x.1 i) (y.1 i), fun i hi => (List.mem_append.1 hi).elim (x.2.1 i) (y.2.1 i),
      by rw [keepUsed_append, keepUsed_append, x.2.2, y.2.2]⟩)
    (by
      have : ∀ i ∈ [Instr.tick], i.gate ≠ .DEPOLARIZE1 → ∀ q ∈ i.qubits, S q := by
        intro i hi _ q hq
        rw [List.mem_singleton.1 hi] at hq
        simp [Instr.tick, Instr.qubits] at hq
      exact ⟨this, this, rfl⟩)
    (f := stepOf nm (trackedQubits c none)) (g := stepOf nm qs) (fun i => ∀ q ∈ i.qubits, S q)
    (fun a ops hops => by
      have : ∀ A, ∀ i ∈ stepOf nm A a ops, i.gate ≠ .DEPOLARIZE1 → ∀ q ∈ i.qubits, S q := by
        intro A i hi hg
        rcases List.mem_append.1 hi with hi | hi
        · exact noisyOps_targets hc hops i hi
        · exact absurd (idleOf_gate i hi) hg
      refine ⟨this _, this _, ?_⟩
      rw [stepOf, stepOf, keepUsed_append, keepUsed_append, keepUsed_idle hS])
    c (fun i hi q hqi => ⟨i, hi, hqi⟩) c.num_qubits [] (by simp)
  rw [← noisyCircuit_ok h, ← noisyCircuit_ok h'] at hR
  exact ⟨canSample_keep hR.1 hR.2.2, canSample_keep hR.2.1 hR.2.2.symm⟩

/-! ## A concrete case: the distance 3 files -/

/-- The shipped directory, as far as distance 3 is concerned. -/
def exampleRead : String → Except PyErr Circuit := fun path =>
  if path = "surface_code_circuits/sd6_X/d3_p0.0.stim" then .ok sd6Xd3
  else if path = "surface_code_circuits/sd6_Z/d3_p0.0.stim" then .ok sd6Zd3
  else if path = "surface_code_circuits/si1000_X/d3_p0.0.stim" then .ok si1000Xd3
  else if path = "surface_code_circuits/si1000_Z/d3_p0.0.stim" then .ok si1000Zd3
  else .error .runtimeError

theorem exampleRead_ok :
    exampleRead (surfaceCodePath "surface_code_circuits" "SD6" "X" 3) = .ok sd6Xd3 ∧
    exampleRead (surfaceCodePath "surface_code_circuits" "SD6" "Z" 3) = .ok sd6Zd3 ∧
    exampleRead (surfaceCodePath "surface_code_circuits" "SI1000" "X" 3) = .ok si1000Xd3 ∧
    exampleRead (surfaceCodePath "surface_code_circuits" "SI1000" "Z" 3) = .ok si1000Zd3 := by
  have h : ∀ n ∈ ["SD6", "SI1000"], ∀ o ∈ ["X", "Z"], surfaceCodePath "surface_code_circuits" n o 3 =
      "surface_code_circuits/" ++ (if n = "SD6" then "sd6" else "si1000") ++ "_" ++ o ++ "/d3_p0.0.stim" := by decide +kernel
  rw [h _ (by simp) _ (by simp), h _ (by simp) _ (by simp), h _ (by simp) _ (by simp), h _ (by simp) _ (by simp)]
  exact ⟨rfl, rfl, rfl, rfl⟩

/-- What C94 asks of a file. -/
def fileOK (two : Gate) (c : Circuit) : Bool :=
  c.ops.all fun i => !isNoise i.gate && i.gate ≠ .MPP && (i.gate ≠ .TICK || i = .tick) &&
    (kind i.gate = .clifford1 || kind i.gate = .annotation || i.gate = .R || i.gate = .M || i.gate = two)

theorem fileOK_spec {two : Gate} {c : Circuit} (h : fileOK two c = true) : Noiseless c ∧ TickOK c ∧ PairMPP c ∧
    ∀ i ∈ c.ops, kind i.gate = .clifford1 ∨ kind i.gate = .annotation ∨ i.gate = .R ∨ i.gate = .M ∨ i.gate = two := by
  have h' : ∀ i ∈ c.ops, _ := List.all_eq_true.1 h
  simp only [Bool.and_eq_true, Bool.or_eq_true, Bool.not_eq_true', decide_eq_true_eq] at h'
  refine ⟨fun i hi => ⟨(h' i hi).1.1.1, fun e => absurd e (h' i hi).1.1.2⟩, fun i hi e => (h' i hi).1.2.resolve_left (not_not.2 e),
    fun i hi e => absurd e (h' i hi).1.1.2, fun i hi => ?_⟩
  rcases (h' i hi).2 with (((h | h) | h) | h) | h <;> simp [h]

theorem d3_ok : fileOK .CX sd6Xd3 = true ∧ fileOK .CX sd6Zd3 = true ∧ fileOK .CZ si1000Xd3 = true ∧ fileOK .CZ si1000Zd3 = true := by
  decide +kernel

/-- The distance 3 files meet the hypotheses of `c94_circuit` at every noise strength, and match their description: 2·3²-1 qubits, 3·3
rounds of 8 stabilizer measurements and a final measurement of the 9 data qubits. -/
example (p : Rat) :
    (∃ r, surfaceCodeCircuit exampleRead "surface_code_circuits" "SD6" p "X" 3 = .ok r ∧ r.num_measurements = 9 * 8 + 9 ∧
      removeNoise r.flatten = sd6Xd3.flatten) ∧
    (∃ r, surfaceCodeCircuit exampleRead "surface_code_circuits" "SI1000" p "Z" 3 = .ok r ∧ r.num_measurements = 9 * 8 + 9 ∧
      removeNoise r.flatten = si1000Zd3.flatten) ∧
    ((sd6Xd3.ops.flatMap Instr.qubits).dedup.length : Int) = (surfaceCodeDesc "SD6" p "X" 3 "internal").num_qubits ∧
    sd6Xd3.num_qubits = 45 := by
  refine ⟨?_, ?_, by rw [show (sd6Xd3.ops.flatMap Instr.qubits).dedup.length = 17 by decide +kernel]; rfl, by decide +kernel⟩
  · obtain ⟨h1, h2, h3, h4⟩ := fileOK_spec d3_ok.1
    obtain ⟨ha, hb⟩ := c94_circuit exampleRead "surface_code_circuits" "SD6" "X" p 3 sd6Xd3 exampleRead_ok.1 (.inl rfl) h1 h2 h3
    obtain ⟨r, hr⟩ := ha.2 fun i hi => by rcases h4 i hi with h | h | h | h | h <;> simp [h]
    exact ⟨r, hr, (hb r hr).2.1.trans (by decide +kernel), (hb r hr).1⟩
  · obtain ⟨h1, h2, h3, h4⟩ := fileOK_spec d3_ok.2.2.2
    obtain ⟨ha, hb⟩ := c94_circuit exampleRead "surface_code_circuits" "SI1000" "Z" p 3 si1000Zd3 exampleRead_ok.2.2.2 (.inr rfl) h1 h2 h3
    obtain ⟨r, hr⟩ := ha.2 fun i hi => by rcases h4 i hi with h | h | h | h | h <;> simp [h]
    exact ⟨r, hr, (hb r hr).2.1.trans (by decide +kernel), (hb r hr).1⟩

/-- `c94_unused` at the 17 qubits of a distance 3 file: qubit 0 is below 45 and not among them. -/
example (p : Rat) : ∃ r r', (NoiseModel.SD6 p).noisyCircuit sd6Xd3 none = .ok r ∧
    (NoiseModel.SD6 p).noisyCircuit sd6Xd3 (some (sd6Xd3.ops.flatMap Instr.qubits).toFinset) = .ok r' ∧
    0 ∉ (sd6Xd3.ops.flatMap Instr.qubits).toFinset ∧
    ∀ n rec, CanSample n r.flatten rec → ∃ m ≤ n, CanSample m r'.flatten rec := by
  obtain ⟨h1, h2, h3, h4⟩ := fileOK_spec d3_ok.1
  have hs := predefined_sensible p (.SD6 p) (by simp [predefined])
  have hr : ∀ i ∈ sd6Xd3.ops, (NoiseModel.SD6 p).rate i.gate ≠ none := fun i hi => by
    rw [(c29_supported p i.gate).1]
    rcases h4 i hi with h | h | h | h | h <;> simp [h]
  obtain ⟨r, e⟩ := (c29_refused _ hs sd6Xd3 none h3 h1).2.2 hr
  obtain ⟨r', e'⟩ := (c29_refused _ hs sd6Xd3 (some (sd6Xd3.ops.flatMap Instr.qubits).toFinset) h3 h1).2.2 hr
  refine ⟨r, r', e, e', ?_, fun n rec => (c94_unused _ rfl _ r r' _ ?_ e e' n rec).1⟩
  · rw [List.mem_toFinset]
    have : (0 ∈ sd6Xd3.ops.flatMap Instr.qubits) = False := eq_false (by decide +kernel)
    rw [this]; exact id
  · exact fun i hi q hq => List.mem_toFinset.2 (List.mem_flatMap.2 ⟨i, hi, hq⟩)

end Honeycomb
