import Verif.Lemmas.CircuitPlot6
import Verif.Props.Qubits
import Verif.Lemmas.AttainedEM3

/-!
# Qubits without coordinates; the parts of the generated circuits (C83, C84)
-/

namespace Honeycomb
open PyDict

theorem foldlM_keeps {α : Type} {f : PlotState → α → Except PyErr PlotState} (hf : ∀ s a s', f s a = .ok s' → s'.i2q = s.i2q) :
    ∀ (l : List α) (s s' : PlotState), l.foldlM f s = .ok s' → s'.i2q = s.i2q
  | [], s, s', h => by cases h; rfl
  | a :: l, s, s', h => by
    simp only [List.foldlM_cons, bind, Except.bind] at h
    rcases h1 : f s a with e | s1
    · rw [h1] at h; cases h
    · rw [h1] at h
      exact (foldlM_keeps hf l s1 s' h).trans (hf s a s1 h1)

theorem mark_keeps {s s' : PlotState} {p : Cx} {c : Char} (h : s.mark p c = .ok s') : s'.i2q = s.i2q := by
  unfold PlotState.mark at h
  split_ifs at h
  cases h
  rfl

theorem plot1_keeps {c : Char} {s s' : PlotState} {t : Target} (h : PlotState.plot1 c s t = .ok s') : s'.i2q = s.i2q := by
  simp only [PlotState.plot1, bind, Except.bind] at h
  rcases h1 : s.at t.value with e | p
  · rw [h1] at h; cases h
  · rw [h1] at h; exact mark_keeps h

theorem plot2_keeps {c1 c2 : Char} (l : List Target) : ∀ {s s' : PlotState}, s.plot2 c1 c2 l = .ok s' → s'.i2q = s.i2q := by
  match l with
  | [] => intro s s' h; cases h; rfl
  | [t] =>
    intro s s' h
    simp only [PlotState.plot2, bind, Except.bind] at h
    rcases h1 : s.at t.value with e | p <;> rw [h1] at h <;> cases h
  | t1 :: t2 :: rest =>
    intro s s' h
    simp only [PlotState.plot2, bind, Except.bind] at h
    rcases h1 : s.at t1.value with e | p1
    · rw [h1] at h; cases h
    rw [h1] at h
    rcases h2 : s.at t2.value with e | p2
    · rw [h2] at h; cases h
    rw [h2] at h
    simp only at h
    rcases h3 : s.mark p1 c1 with e | s1
    · rw [h3] at h; cases h
    rw [h3] at h
    simp only at h
    rcases h4 : s1.mark p2 c2 with e | s2
    · rw [h4] at h; cases h
    rw [h4] at h
    exact (plot2_keeps rest h).trans ((mark_keeps h4).trans (mark_keeps h3))

theorem factor_keeps {s s' : PlotState} {t : Target} (h : s.plotFactor t = .ok s') : s'.i2q = s.i2q := by
  simp only [PlotState.plotFactor, bind, Except.bind] at h
  rcases h1 : s.at t.value with e | p
  · rw [h1] at h; cases h
  rw [h1] at h
  simp only at h
  split at h
  · exact mark_keeps h
  · exact mark_keeps h
  · exact mark_keeps h
  · split_ifs at h <;> cases h

theorem product_keeps {s s' : PlotState} {g : List Target} (h : s.plotProduct g = .ok s') : s'.i2q = s.i2q := by
  simp only [PlotState.plotProduct, bind, Except.bind, pure, Except.pure] at h
  split_ifs at h with hg
  clear hg
  rcases h1 : g.foldlM PlotState.plotFactor s with e | s1
  · rw [h1] at h; cases h
  have hk := foldlM_keeps (fun _ _ _ => factor_keeps) g s s1 h1
  rw [h1] at h
  simp only at h
  split at h
  · rename_i t1 t2
    rcases h2 : s1.at t1.value with e | p
    · rw [h2] at h; cases h
    rw [h2] at h
    simp only at h
    rcases h3 : s1.at t2.value with e | p
    · rw [h3] at h; cases h
    rw [h3] at h
    cases h
    exact hk
  · cases h
    exact hk

theorem coords_keys {args : List Arg} : ∀ (l : List Target) {s s' : PlotState}, l.foldlM (PlotState.addCoords args) s = .ok s' →
    ∀ k ∈ s'.i2q.keys, k ∈ s.i2q.keys ∨ k ∈ l.map Target.value
  | [], s, s', h, k, hk => by cases h; exact .inl hk
  | t :: l, s, s', h, k, hk => by
    simp only [List.foldlM_cons, bind, Except.bind] at h
    rcases h1 : PlotState.addCoords args s t with e | s1
    · rw [h1] at h; cases h
    rw [h1] at h
    rcases coords_keys l h k hk with h2 | h2
    · unfold PlotState.addCoords at h1
      split at h1
      · simp only at h1
        split_ifs at h1
        cases h1
        simp only [PyDict.keys, map_fst_set] at h2 ⊢
        split_ifs at h2
        · exact .inl h2
        · rcases List.mem_append.1 h2 with h3 | h3
          · exact .inl h3
          · exact .inr (by simp_all)
      · cases h1
    · exact .inr (List.mem_cons_of_mem _ h2)

theorem step_keys {s s' : PlotState} {i : Instr} (h : s.step i = .ok s') {k : Int} (hk : k ∈ s'.i2q.keys) :
    k ∈ s.i2q.keys ∨ (i.gate = .QUBIT_COORDS ∧ k ∈ i.targets.map Target.value) := by
  unfold PlotState.step at h
  by_cases hq : i.gate = .QUBIT_COORDS
  · rw [if_pos hq] at h
    exact (coords_keys _ h k hk).imp id fun h => ⟨hq, h⟩
  · rw [if_neg hq] at h
    left
    have : s'.i2q = s.i2q := by
      split at h
      · exact foldlM_keeps (fun _ _ _ => plot1_keeps) _ _ _ h
      · split at h
        · exact plot2_keeps _ h
        · split_ifs at h
          · cases h; rfl
          · cases h; rfl
          · simp only [bind, Except.bind] at h
            split at h
            · cases h
            · exact foldlM_keeps (fun _ _ _ => product_keeps) _ _ _ h
    rwa [this] at hk

/-- The qubits that have coordinates. -/
theorem fold_keys : ∀ (l : List Instr) {s s' : PlotState}, l.foldlM PlotState.step s = .ok s' →
    ∀ k ∈ s'.i2q.keys, k ∈ s.i2q.keys ∨ ∃ i ∈ l, i.gate = .QUBIT_COORDS ∧ k ∈ i.targets.map Target.value
  | [], s, s', h, k, hk => by cases h; exact .inl hk
  | i :: l, s, s', h, k, hk => by
    simp only [List.foldlM_cons, bind, Except.bind] at h
    rcases h1 : s.step i with e | s1
    · rw [h1] at h; cases h
    rw [h1] at h
    rcases fold_keys l h k hk with h2 | ⟨j, hj, h2⟩
    · rcases step_keys h1 h2 with h3 | h3
      · exact .inl h3
      · exact .inr ⟨i, List.mem_cons_self, h3⟩
    · exact .inr ⟨j, List.mem_cons_of_mem _ hj, h2⟩

/-- An operation with a letter on a qubit without coordinates. -/
theorem fold_unknown {l : List Instr} {i : Instr} {c : Char} {t : Target} (hi : i ∈ l) (hs : plotSymbol1 i.gate = some c) (ht : t ∈ i.targets)
    (hq : ∀ j ∈ l, j.gate = .QUBIT_COORDS → t.value ∉ j.targets.map Target.value) : ∃ e, l.foldlM PlotState.step {} = .error e := by
  rcases h : l.foldlM PlotState.step {} with e | s
  · exact ⟨e, rfl⟩
  exfalso
  obtain ⟨a, b, rfl⟩ := List.append_of_mem hi
  rw [List.foldlM_append] at h
  simp only [bind, Except.bind] at h
  rcases h1 : a.foldlM PlotState.step {} with e | s1
  · rw [h1] at h; cases h
  rw [h1] at h
  simp only [List.foldlM_cons, bind, Except.bind] at h
  rcases h2 : s1.step i with e | s2
  · rw [h2] at h; cases h
  have hk : t.value ∉ s1.i2q.keys := by
    intro hk
    rcases fold_keys a h1 _ hk with h3 | ⟨j, hj, h3, h4⟩
    · simp [PyDict.keys] at h3
    · exact hq j (by simp [hj]) h3 h4
  have hne : i.gate ≠ .QUBIT_COORDS := by intro e; rw [e] at hs; simp [plotSymbol1] at hs
  rw [PlotState.step, if_neg hne, hs] at h2
  simp only at h2
  obtain ⟨u, v, huv⟩ := List.append_of_mem ht
  rw [huv, List.foldlM_append] at h2
  simp only [bind, Except.bind] at h2
  rcases h3 : u.foldlM (PlotState.plot1 c) s1 with e | s3
  · rw [h3] at h2; cases h2
  have hk3 := foldlM_keeps (fun _ _ _ => plot1_keeps) _ _ _ h3
  rw [h3] at h2
  have : PlotState.plot1 c s3 t = .error .keyError := by
    simp only [PlotState.plot1, PlotState.at, bind, Except.bind]
    rw [hk3, (get?_eq_none_iff _ _).2 hk]
  simp only [List.foldlM_cons, bind, Except.bind, this] at h2
  cases h2

/-- A parity measurement of at least one pair of qubits. -/
def IsParity (i : Instr) : Prop := i.gate = .MPP ∧ ∃ gs, gs ≠ [] ∧ i.targets = pairTargets gs

/-- What correlated noise makes of a time step: coordinates are kept and every parity measurement is expanded. -/
def Expanded (D : Nat) (l l' : List Instr) : Prop :=
  (∀ i ∈ l, i.gate = .QUBIT_COORDS → i ∈ l') ∧ ∀ i ∈ l', IsParity i → .on .R [D] ∈ l

theorem basisCX_coords (b : Basis) : HoneycombLayout.basisCX b ≠ .QUBIT_COORDS := by cases b <;> decide

theorem noisyOps_expanded {p : Rat} (hp : 0 < p) (D : Nat) (ops idle : List Instr) (hidle : ∀ i ∈ idle, i.gate = .DEPOLARIZE1) :
    Expanded D (noisyOps (.EM3_v2 p) D ops ++ idle) ops := by
  constructor
  · intro i hi hq
    rcases List.mem_append.1 hi with hi | hi
    swap
    · rw [hidle i hi] at hq; cases hq
    rw [noisyOps] at hi
    rcases List.mem_append.1 hi with hi | hi
    · rcases List.mem_append.1 hi with hi | hi <;> obtain ⟨j, hj, hi⟩ := List.mem_flatMap.1 hi
      · unfold noiseBefore at hi
        by_cases h0 : ((NoiseModel.EM3_v2 p).rate j.gate).getD 0 ≤ 0
        · rw [if_pos h0] at hi; cases hi
        · rw [if_neg h0] at hi
          cases hg : j.gate <;> simp [hg, kind, channel, NoiseModel.EM3_v2] at hi <;> subst hi <;> simp at hq
      · unfold noisyCore at hi
        by_cases h0 : ((NoiseModel.EM3_v2 p).rate j.gate).getD 0 ≤ 0
        · rw [if_pos h0] at hi
          rw [List.mem_singleton.1 hi]; exact hj
        · rw [if_neg h0] at hi
          cases hg : j.gate <;> simp only [hg, kind, List.mem_singleton] at hi
          all_goals try (rw [hi]; exact hj)
          all_goals
            simp only [NoiseModel.EM3_v2, if_true, List.mem_flatMap] at hi
            obtain ⟨g, _, hi⟩ := hi
            split at hi
            · simp only [parityMeasurementWithCorrelatedNoise, List.mem_append, List.mem_cons, List.mem_map, List.not_mem_nil, or_false] at hi
              rcases hi with (((rfl | rfl | rfl) | ⟨e, _, rfl⟩) | rfl) <;> simp [Instr.on, parityCX] at hq
              all_goals exact absurd hq (basisCX_coords _)
            · cases hi
    · obtain ⟨j, hj, hi⟩ := List.mem_flatMap.1 hi
      unfold noiseAfter at hi
      by_cases h0 : ((NoiseModel.EM3_v2 p).rate j.gate).getD 0 ≤ 0
      · rw [if_pos h0] at hi; cases hi
      · rw [if_neg h0] at hi
        cases hg : j.gate <;> simp [hg, kind, channel] at hi <;> subst hi <;> simp at hq
  · rintro i hi ⟨hg, gs, hne, e⟩
    refine List.mem_append_left _ ?_
    rw [noisyOps]
    refine List.mem_append_left _ (List.mem_append_right _ (List.mem_flatMap.2 ⟨i, hi, ?_⟩))
    have hr : ((NoiseModel.EM3_v2 p).rate i.gate).getD 0 = p := by rw [hg]; rfl
    rw [hr, noisyCore, if_neg (by linarith), hg]
    obtain ⟨g, gs, rfl⟩ := List.exists_cons_of_ne_nil hne
    simp only [kind, NoiseModel.EM3_v2, if_true, e, mppGroups_pair]
    simp [parityMeasurementWithCorrelatedNoise]

theorem shape_of_flat {c : Circuit} (h : c.FlatBlocks) : c.Shape (fun n _ => 2 ≤ n) := by
  induction c with
  | nil => trivial
  | op i c ih => exact ih h
  | rep n b c _ ih => exact ⟨⟨_, h.1.2.choose_spec, h.1.1⟩, ih h.2⟩

theorem flat_of_shape {P : Nat → List Instr → Prop} (hP : ∀ n l, P n l → 2 ≤ n) {c : Circuit} (h : c.Shape P) : c.FlatBlocks := by
  induction c with
  | nil => trivial
  | op i c ih => exact ih h
  | rep n b c _ ih =>
    obtain ⟨⟨l, e, hl⟩, h2⟩ := h
    exact ⟨⟨hP _ _ hl, l, e⟩, ih h2⟩

namespace HoneycombLayout

theorem keepsForm {lay : HoneycombLayout} (hst : lay.style ≠ "EM3_v2" ∨ lay.noise ≤ 0) {nm : NoiseModel} (h : lay.noise_model = .ok nm) :
    nm.use_correlated_parity_measurement_errors = false ∨ ∀ g p, nm.rate g = some p → p ≤ 0 := by
  unfold noise_model at h
  split_ifs at h <;> cases h
  · exact Or.inl rfl
  · exact Or.inl rfl
  · exact Or.inl rfl
  · rcases hst with hst | hst
    · contradiction
    · right
      intro g p hp
      cases g <;> simp [NoiseModel.rate, NoiseModel.EM3_v2, kind] at hp <;> linarith
  · exact Or.inl rfl

theorem blockFrom_eq (lay : HoneycombLayout) : (lay.blockFrom : Int) = lay.subRoundsOfBlock := by
  rw [blockFrom, subRoundsOfBlock, isEM3]
  by_cases h1 : lay.style = "EM3" <;> by_cases h2 : lay.style = "EM3_v2" <;> by_cases h3 : lay.style = "PC3" <;> simp_all

theorem usesGate_zBased {lay : HoneycombLayout} {g : Gate} (h : lay.UsesGate g) : g ≠ .MX ∧ g ≠ .RX := by
  cases g <;> simp_all [UsesGate, kind]

/-- What comes after the coordinates. -/
def afterCoords (lay : HoneycombLayout) (N : Nat) : List Instr :=
  [.on .R lay.used_qubit_indices, .tick] ++ lay.basisChange (lay.obsAt 0).1 ++ lay.allRounds N ++
    (lay.basisChange (lay.obsAt N).1 ++ [.on .M lay.data_qubit_indices] ++ lay.emitFinal N N)

theorem closed_after {lay : HoneycombLayout} (hv : lay.Valid) (N : Nat) :
    lay.closedCircuit N = lay.diagramCoords.map coordsInstr ++ lay.afterCoords N := by
  rw [coords_instrs hv, closedCircuit, afterCoords]
  simp only [List.append_assoc]

theorem after_free {lay : HoneycombLayout} (hv : lay.Valid) (hs : lay.Supported) {N : Nat} (h1 : 1 ≤ N) : lay.StepsFree (lay.afterCoords N) := by
  have h := free_closed hv hs h1
  rw [closed_after hv] at h
  exact StepsFree.infix (a := lay.diagramCoords.map coordsInstr) (c := []) (by rwa [List.append_nil])

end HoneycombLayout
end Honeycomb
