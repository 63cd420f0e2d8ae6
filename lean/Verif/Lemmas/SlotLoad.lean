import Verif.Lemmas.SlotPlace

/-!
# How many places a qubit has in a part of the circuit
-/

namespace Honeycomb
open HoneycombLayout

/-- The number of places of `l` that involve qubit `q`. -/
def load (q : Nat) (l : List Instr) : Nat := (slotList l).countP (q ∈ ·)

theorem load_append (q : Nat) (a b : List Instr) : load q (a ++ b) = load q a + load q b := by
  rw [load, slotList_append, List.countP_append]; rfl

theorem load_cons (q : Nat) (i : Instr) (l : List Instr) : load q (i :: l) = i.slotQubits.countP (q ∈ ·) + load q l := by
  rw [load, slotList, List.flatMap_cons, List.countP_append]; rfl

theorem load_flatMap_le {α : Type} {q : Nat} {l : List α} {f : α → List Instr} {p : α → Bool} (h : ∀ x ∈ l, load q (f x) ≤ if p x then 1 else 0) :
    load q (l.flatMap f) ≤ l.countP p := by
  induction l with
  | nil => simp [load, slotList]
  | cons x l ih =>
    rw [List.flatMap_cons, load_append, List.countP_cons]
    have := h x (by simp)
    have := ih fun y hy => h y (by simp [hy])
    omega

/-- The number of operations. -/
def opCount (l : List Instr) : Nat := l.countP fun i => kind i.gate ≠ .annotation

theorem opCount_append (a b : List Instr) : opCount (a ++ b) = opCount a + opCount b := List.countP_append

theorem singles_count (q : Nat) (l : List Nat) : (l.map fun x => [x]).countP (q ∈ ·) = l.count q := by
  rw [List.countP_map, List.count]
  refine List.countP_congr fun x _ => ?_
  simp only [Function.comp_apply, List.mem_singleton, decide_eq_true_eq, beq_iff_eq]
  exact eq_comm

theorem pairs_count (q : Nat) : ∀ l : List Nat, ((pairs l).map fun x => [x.1, x.2]).countP (q ∈ ·) ≤ l.count q
  | [] => by simp [pairs]
  | [a] => by simp [pairs]
  | a :: b :: l => by
    have := pairs_count q l
    rw [pairs, List.map_cons, List.countP_cons, List.count_cons, List.count_cons]
    simp only [List.mem_cons, List.not_mem_nil, or_false, decide_eq_true_eq, beq_iff_eq]
    split_ifs <;> (simp_all; try omega)

theorem groups_count (q : Nat) : ∀ gs : List ((Basis × Nat) × (Basis × Nat)),
    (gs.map fun g => [g.1.2, g.2.2]).countP (q ∈ ·) ≤ (gs.flatMap fun g => [g.1.2, g.2.2]).count q
  | [] => by simp
  | g :: gs => by
    have := groups_count q gs
    rw [List.map_cons, List.countP_cons, List.flatMap_cons, List.count_append, List.count_cons, List.count_cons]
    simp only [List.mem_cons, List.not_mem_nil, or_false, decide_eq_true_eq, beq_iff_eq]
    split_ifs <;> (simp_all; try omega)

theorem load_count_le {q : Nat} {l : List Nat} (h : l.Nodup) : l.count q ≤ 1 := List.nodup_iff_count_le_one.1 h q

/-- A noise channel. -/
theorem noise_load {i : Instr} (hg : i.gate = .DEPOLARIZE1 ∨ i.gate = .DEPOLARIZE2 ∨ i.gate = .X_ERROR ∨ i.gate = .Z_ERROR) (q : Nat) :
    load q [i] ≤ i.qubits.count q := by
  rw [load, slotList, List.flatMap_singleton, Instr.slotQubits, Instr.channels, Instr.measures]
  rcases hg with hg | hg | hg | hg <;> rw [hg] <;> simp only [List.map_nil, List.append_nil]
  · exact le_of_eq (singles_count q _)
  · exact pairs_count q _
  · exact le_of_eq (singles_count q _)
  · exact le_of_eq (singles_count q _)

theorem channel_load {g : Gate} {ts : List Target} {p : Rat} (hg : g = .DEPOLARIZE1 ∨ g = .DEPOLARIZE2 ∨ g = .X_ERROR ∨ g = .Z_ERROR)
    (hn : (ts.filterMap Target.qubit?).Nodup) (q : Nat) : load q [channel g ts p] ≤ 1 :=
  (noise_load (i := channel g ts p) hg q).trans (load_count_le hn)

/-- An operation. -/
theorem core_load {D : Nat} {i : Instr} (h : Expandable D i) (hn : kind i.gate ≠ .annotation → i.qubits.Nodup) (as : List Arg) (q : Nat) :
    load q [{ i with args := as }] ≤ if kind i.gate ≠ .annotation then 1 else 0 := by
  have hc := channels_clean h.clean
  have e : load q [{ i with args := as }] = (i.measures.map fun P => P.map Prod.snd).countP (q ∈ ·) := by
    have h1 : Instr.channels { i with args := as } = [] := hc
    have h2 : Instr.measures { i with args := as } = i.measures := rfl
    rw [load, slotList, List.flatMap_singleton, Instr.slotQubits, h1, h2, List.nil_append]
  rw [e]
  by_cases hk : kind i.gate = .annotation
  · rcases i with ⟨g, ts, as⟩
    cases g <;> simp_all [kind, Instr.measures]
  · rw [if_pos hk]
    refine le_trans ?_ (load_count_le (q := q) (hn hk))
    by_cases hg : i.gate = .MPP
    · obtain ⟨_, gs, et⟩ := h.mpp hg
      rw [Instr.measures, hg, Instr.qubits, et, pairTargets_qubits]
      simp only [mppGroups_pair, List.map_map]
      exact groups_count q gs
    · rcases i with ⟨g, ts, as⟩
      cases g <;> first
        | exact absurd rfl hg
        | (simp only [Instr.measures, List.map_nil, List.countP_nil]; exact Nat.zero_le _)
        | (simp only [Instr.measures, List.map_map]; exact le_of_eq (singles_count q _))

theorem load_nil (q : Nat) : load q [] = 0 := rfl

/-- A layer of single-qubit noise. -/
theorem idle_load {l : List Instr} (h : ∀ i ∈ l, i.gate = .DEPOLARIZE1) (q : Nat) : load q l ≤ (l.flatMap Instr.qubits).count q := by
  induction l with
  | nil => simp [load_nil]
  | cons i l ih =>
    rw [← List.singleton_append, load_append, List.flatMap_append, List.count_append, List.flatMap_singleton]
    exact Nat.add_le_add (noise_load (.inl (h i (by simp))) q) (ih fun j hj => h j (by simp [hj]))

theorem before_load {nm : NoiseModel} {i : Instr} (hn : kind i.gate ≠ .annotation → i.qubits.Nodup) (p : Rat) (q : Nat) :
    load q (noiseBefore nm i p) ≤ if kind i.gate ≠ .annotation then 1 else 0 := by
  unfold noiseBefore
  by_cases hp : p ≤ 0
  · rw [if_pos hp, load_nil]; exact Nat.zero_le _
  · rw [if_neg hp]
    rcases i with ⟨g, ts, as⟩
    cases g <;> simp only [kind] at hn ⊢ <;> first
      | (rw [load_nil]; exact Nat.zero_le _)
      | exact (channel_load (by simp) (hn (by simp)) q).trans (by simp)
      | skip
    by_cases hc : nm.use_correlated_parity_measurement_errors = true
    · rw [if_pos hc, load_nil]; exact Nat.zero_le _
    · rw [if_neg hc]
      exact (channel_load (by simp) (by rw [filterMap_q]; exact hn (by simp)) q).trans (by simp)

theorem after_load {i : Instr} (hn : kind i.gate ≠ .annotation → i.qubits.Nodup) (p : Rat) (q : Nat) :
    load q (noiseAfter i p) ≤ if kind i.gate ≠ .annotation then 1 else 0 := by
  unfold noiseAfter
  by_cases hp : p ≤ 0
  · rw [if_pos hp, load_nil]; exact Nat.zero_le _
  · rw [if_neg hp]
    rcases i with ⟨g, ts, as⟩
    cases g <;> simp only [kind] at hn ⊢ <;> first
      | (rw [load_nil]; exact Nat.zero_le _)
      | exact (channel_load (by simp) (hn (by simp)) q).trans (by simp)

theorem before_gate {nm : NoiseModel} {i j : Instr} {p : Rat} (h : j ∈ noiseBefore nm i p) : j.gate ≠ .E := by
  unfold noiseBefore at h
  by_cases hp : p ≤ 0
  · rw [if_pos hp] at h; simp at h
  · rw [if_neg hp] at h
    rcases i with ⟨g, ts, as⟩
    cases g <;> simp only [kind, List.not_mem_nil, List.mem_singleton] at h
    case MPP =>
      split_ifs at h
      · simp at h
      · rw [List.mem_singleton] at h; subst h; simp [channel]
    all_goals subst h; simp [channel]

theorem after_gate {i j : Instr} {p : Rat} (h : j ∈ noiseAfter i p) : j.gate ≠ .E := by
  unfold noiseAfter at h
  by_cases hp : p ≤ 0
  · rw [if_pos hp] at h; simp at h
  · rw [if_neg hp] at h
    rcases i with ⟨g, ts, as⟩
    cases g <;> simp only [kind, List.not_mem_nil, List.mem_singleton] at h
    all_goals subst h; simp [channel]

theorem clean_gate {i : Instr} (h : isNoise i.gate = false) : i.gate ≠ .E := by
  rintro e
  rw [e] at h
  simp [isNoise] at h

end Honeycomb
