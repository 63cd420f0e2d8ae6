import Mathlib.Data.Rat.Floor
import Verif.Lemmas.Steps
import Verif.Model.Problem
import Verif.Props.Circuit

/-!
# Which qubits a generated circuit uses: C13, C21, C33

`timeSteps`, `actedOn` and `usedQubits` are defined in `Verif/Spec/Steps.lean`.
-/

namespace Honeycomb
open HoneycombLayout

/-! ## C21 -/

/-- C21: in the noiseless circuit no qubit is acted on twice between two consecutive `TICK`s. -/
theorem c21_one_operation_per_step (lay : HoneycombLayout) (hv : lay.Valid) (hs : lay.Supported) :
    ∃ c, lay.generateNoiseless = .ok c ∧ ∀ s ∈ timeSteps c.flatten, (actedOn s).Nodup := by
  obtain ⟨N, hN⟩ := Int.eq_ofNat_of_zero_le (show 0 ≤ lay.sub_rounds by have := hs.2.2.1; omega)
  obtain ⟨c, hc, hf, _⟩ := generateNoiseless_closed hv hs hN
  refine ⟨c, hc, fun s h => ?_⟩
  rw [hf] at h
  exact (free_closed hv hs (by have := hs.2.2.1; omega) s h).1

/-- A time step that would violate C21. -/
example : ¬ (actedOn [.on .CX [0, 1], .on .H [1]]).Nodup := by decide

/-! ## C13 -/

theorem mem_actedOn {l : List Instr} {q : Nat} (h : q ∈ actedOn l) : ∃ s ∈ timeSteps l, q ∈ actedOn s := by
  induction l with
  | nil => simp [actedOn] at h
  | cons i l ih =>
    rw [timeSteps]
    have e : actedOn (i :: l) = actedOn [i] ++ actedOn l := by rw [← actedOn_append]; rfl
    rw [e, List.mem_append] at h
    split_ifs with ht
    · rcases h with h | h
      · simp [actedOn, ht, kind] at h
      · obtain ⟨s, hs, hq⟩ := ih h
        exact ⟨s, List.mem_cons_of_mem _ hs, hq⟩
    · obtain ⟨s, ss, es⟩ := List.exists_cons_of_ne_nil (timeSteps_ne_nil l)
      rw [es]
      have e' : actedOn (i :: s) = actedOn [i] ++ actedOn s := by rw [← actedOn_append]; rfl
      rcases h with h | h
      · exact ⟨i :: s, List.mem_cons_self, by rw [e']; exact List.mem_append_left _ h⟩
      · obtain ⟨s', hs', hq⟩ := ih h
        rw [es] at hs'
        rcases List.mem_cons.1 hs' with rfl | hs'
        · exact ⟨i :: s', List.mem_cons_self, by rw [e']; exact List.mem_append_right _ hq⟩
        · exact ⟨s', List.mem_cons_of_mem _ hs', hq⟩

theorem class_bound {lay : HoneycombLayout} (hv : lay.Valid) {q : Pt} (hq : q ∈ qubitOrder lay) (hc : lay.ptClass q ∈ lay.usedClasses) :
    lay.idx q < lay.num_qubits.toNat := by
  have hlen := length_data_qubit_coords hv
  have hm := length_measure_qubit_coords hv
  have hdw := Valid.dw hv
  have hdh := Valid.dh hv
  have hb := (map_idx_qubitOrder hv)
  rw [num_qubits]
  split_ifs with he
  · rw [usedClasses, if_pos he] at hc
    have hd : q ∈ lay.data_qubit_coords := by
      by_contra h
      rw [ptClass, if_neg h] at hc
      split_ifs at hc <;> simp at hc
    have : lay.idx q ∈ lay.data_qubit_indices := List.mem_map_of_mem hd
    rw [data_qubit_indices_eq hv, List.mem_range] at this
    omega
  · have : lay.idx q ∈ (qubitOrder lay).map lay.idx := List.mem_map_of_mem hq
    rw [hb, List.mem_range, qubitOrder, List.length_append] at this
    have e : (lay.data_width * lay.data_height * 5).tdiv 2 = lay.data_width * lay.data_height * 5 / 2 :=
      Int.tdiv_eq_ediv_of_nonneg (by
        have := Int.mul_pos hv.width_pos hv.height_pos
        omega)
    rw [e]
    have h2 : 2 * (lay.measure_qubit_coords.length : Int) = 3 * (lay.data_width * lay.data_height) := (c06_counts lay hv).2.2.1.2
    omega

theorem mem_used {lay : HoneycombLayout} (hv : lay.Valid) {i : Nat} (hi : i < lay.num_qubits.toNat) : i ∈ lay.used_qubit_indices := by
  obtain ⟨hn, hb⟩ := covers_used hv
  have hlen := (c06_counts lay hv).2.2.2.2.2
  have hsub : lay.used_qubit_indices ⊆ List.range lay.num_qubits.toNat := by
    intro j hj
    obtain ⟨q, hq, rfl, hc⟩ := hb j hj
    exact List.mem_range.2 (class_bound hv hq hc)
  have := (List.subperm_of_subset hn hsub).perm_of_length_le (by rw [List.length_range]; omega)
  exact this.mem_iff.2 (List.mem_range.2 hi)

/-- C13: the description attached to a layout. `rounds` is the number of groups of three sub-rounds, rounded up; `num_qubits`
is the number of qubits on which the noiseless circuit operates, which are `0, …, num_qubits - 1` (the noisy
EM3_v2 circuit uses one more, see `c33_ancilla`). -/
theorem c13_description (lay : HoneycombLayout) (decoder : String) (hv : lay.Valid) (hs : lay.Supported) :
    let d := lay.asDecoderProblemDesc decoder
    d.data_width = lay.data_width ∧ d.data_height = lay.data_height ∧ d.noise = lay.noise ∧ d.preserved_observable = lay.obs ∧
    d.decoder = decoder ∧ d.circuit_style = "honeycomb_" ++ lay.style ∧
    (lay.sub_rounds ≤ 3 * d.rounds ∧ 3 * d.rounds < lay.sub_rounds + 3) ∧
    (d.code_distance ≤ lay.data_width ∧ 3 * d.code_distance ≤ 2 * lay.data_height ∧
      (d.code_distance = lay.data_width ∨ 3 * d.code_distance = 2 * lay.data_height)) ∧
    ∃ c, lay.generateNoiseless = .ok c ∧ (∀ q : Nat, q ∈ usedQubits c.flatten ↔ (q : Int) < d.num_qubits) ∧
      ((usedQubits c.flatten).dedup.length : Int) = d.num_qubits := by
  obtain ⟨N, hN⟩ := Int.eq_ofNat_of_zero_le (show 0 ≤ lay.sub_rounds by have := hs.2.2.1; omega)
  obtain ⟨c, hc, hf, _⟩ := generateNoiseless_closed hv hs hN
  have hnn : 0 ≤ lay.num_qubits := by rw [← (c06_counts lay hv).2.2.2.2.2]; omega
  have hiff : ∀ q : Nat, q ∈ usedQubits c.flatten ↔ (q : Int) < lay.num_qubits := by
    intro q
    rw [hf, usedQubits]
    constructor
    · intro h
      obtain ⟨s, hs', hq⟩ := mem_actedOn h
      obtain ⟨p, hp, rfl, hcl⟩ := (free_closed hv hs (by have := hs.2.2.1; omega) s hs').2 q hq
      have := class_bound hv hp hcl
      omega
    · intro h
      have := mem_used hv (i := q) (by omega)
      rw [closedCircuit, actedOn_append, actedOn_append, actedOn_append,
        show [Instr.on .R lay.used_qubit_indices, .tick] ++ lay.basisChange (lay.obsAt 0).1 =
          [Instr.on .R lay.used_qubit_indices] ++ ([.tick] ++ lay.basisChange (lay.obsAt 0).1) from rfl, actedOn_append, actedOn_on (by decide)]
      simp [this]
  refine ⟨rfl, rfl, rfl, rfl, rfl, rfl, ?_, ?_, c, hc, hiff, ?_⟩
  · show lay.sub_rounds ≤ 3 * ⌈(lay.sub_rounds : Rat) / 3⌉ ∧ 3 * ⌈(lay.sub_rounds : Rat) / 3⌉ < lay.sub_rounds + 3
    have h1 := Int.le_ceil ((lay.sub_rounds : Rat) / 3)
    have h2 := Int.ceil_lt_add_one ((lay.sub_rounds : Rat) / 3)
    constructor
    · have : (lay.sub_rounds : Rat) ≤ ((3 * ⌈(lay.sub_rounds : Rat) / 3⌉ : Int) : Rat) := by push_cast; linarith
      exact_mod_cast this
    · have : ((3 * ⌈(lay.sub_rounds : Rat) / 3⌉ : Int) : Rat) < ((lay.sub_rounds + 3 : Int) : Rat) := by push_cast; linarith
      exact_mod_cast this
  · show lay.code_distance_1qdep ≤ _ ∧ 3 * lay.code_distance_1qdep ≤ _ ∧ (lay.code_distance_1qdep = _ ∨ 3 * lay.code_distance_1qdep = _)
    have := hv.height_six
    rw [code_distance_1qdep]
    omega
  · show _ = lay.num_qubits
    have : (usedQubits c.flatten).dedup.Perm (List.range lay.num_qubits.toNat) := by
      refine (List.perm_ext_iff_of_nodup (List.nodup_dedup _) List.nodup_range).2 fun q => ?_
      rw [List.mem_dedup, hiff q, List.mem_range]
      omega
    rw [this.length_eq, List.length_range]
    omega

example : (exampleLayout.asDecoderProblemDesc "pymatching").rounds = 3 ∧ (exampleLayout.asDecoderProblemDesc "pymatching").num_qubits = 180 ∧
    (exampleLayout.asDecoderProblemDesc "pymatching").code_distance = 6 := by
  refine ⟨?_, by decide, by decide⟩
  show ⌈((7 : Int) : Rat) / 3⌉ = 3
  rw [Int.ceil_eq_iff]; norm_num

/-! ## C33 -/

theorem le_qubitBound {l : List Nat} {q : Nat} (h : q ∈ l) : q < qubitBound l := by
  induction l with
  | nil => simp at h
  | cons a l ih =>
    simp only [qubitBound, List.foldr_cons]
    rcases List.mem_cons.1 h with rfl | h
    · omega
    · have := ih h
      simp only [qubitBound] at this
      omega

theorem qubitBound_le {l : List Nat} {n : Nat} (h : ∀ q ∈ l, q < n) : qubitBound l ≤ n := by
  induction l with
  | nil => simp [qubitBound]
  | cons a l ih =>
    have := ih fun q hq => h q (List.mem_cons_of_mem _ hq)
    have := h a List.mem_cons_self
    simp only [qubitBound, List.foldr_cons] at *
    omega

theorem lt_num_qubits {c : Circuit} {i : Instr} (hi : i ∈ c.ops) {q : Nat} (hq : q ∈ i.qubits) : q < c.num_qubits := by
  induction c with
  | nil => simp [Circuit.ops] at hi
  | op j c ih =>
    simp only [Circuit.num_qubits]
    rcases List.mem_cons.1 hi with rfl | hi
    · have := le_qubitBound hq; omega
    · have := ih hi; omega
  | rep n b c ihb ihc =>
    simp only [Circuit.num_qubits]
    rcases List.mem_append.1 hi with hi | hi
    · have := ihb hi; omega
    · have := ihc hi; omega

theorem num_qubits_le {c : Circuit} {n : Nat} (h : ∀ i ∈ c.ops, ∀ q ∈ i.qubits, q < n) : c.num_qubits ≤ n := by
  induction c with
  | nil => simp [Circuit.num_qubits]
  | op j c ih =>
    simp only [Circuit.num_qubits]
    have := ih fun i hi => h i (List.mem_cons_of_mem _ hi)
    have := qubitBound_le (h j List.mem_cons_self)
    omega
  | rep m b c ihb ihc =>
    simp only [Circuit.num_qubits]
    have := ihb fun i hi => h i (List.mem_append_left _ hi)
    have := ihc fun i hi => h i (List.mem_append_right _ hi)
    omega

theorem flatten_ops {c : Circuit} {i : Instr} (h : i ∈ c.flatten) : i ∈ c.ops := by
  induction c with
  | nil => exact h
  | op j c ih =>
    simp only [Circuit.ops, Circuit.flatten, List.mem_cons] at h ⊢
    exact h.imp_right ih
  | rep n b c ihb ihc =>
    simp only [Circuit.ops, Circuit.flatten, List.mem_append, List.mem_flatten] at h ⊢
    rcases h with ⟨l, hl, h⟩ | h
    · rw [(List.mem_replicate.1 hl).2] at h
      exact Or.inl (ihb h)
    · exact Or.inr (ihc h)

theorem perStep_const {f : Nat → List Instr → List Instr} {D : Nat} {c : Circuit} (h : c.Shape fun _ l => (Circuit.ofList l).num_qubits = D) :
    ∀ acc, perStep f c D acc = perStep (fun _ => f D) c D acc := by
  have hl : ∀ (l : List Instr) acc, perStep f (.ofList l) D acc = perStep (fun _ => f D) (.ofList l) D acc := by
    intro l
    induction l with
    | nil => intro acc; rfl
    | cons i l ih =>
      intro acc
      simp only [Circuit.ofList, perStep, ih]
  induction c with
  | nil => intro acc; rfl
  | op i c ih =>
    intro acc
    simp only [perStep, ih h]
  | rep n b c _ ihc =>
    intro acc
    obtain ⟨⟨l, rfl, hD⟩, hc⟩ := h
    simp only [perStep, ihc hc, hD, hl]

theorem mem_em3_data {lay : HoneycombLayout} (hv : lay.Valid) {k : Nat} {q : Nat} (hq : q < lay.data_qubit_coords.length) :
    ∃ i ∈ lay.em3Emit k, q ∈ i.qubits := by
  have hq' : q ∈ lay.data_qubit_indices := by rw [data_qubit_indices_eq hv]; exact List.mem_range.2 hq
  obtain ⟨p, hp, rfl⟩ := List.mem_map.1 hq'
  obtain ⟨e, he, ht⟩ := exists_edge hv hp (k : Int)
  refine ⟨_, by rw [em3Emit]; exact List.mem_append_left _ (List.mem_append_left _ (List.mem_singleton.2 rfl)), ?_⟩
  simp only [Instr.qubits, List.mem_filterMap, List.mem_flatMap]
  rcases ht with rfl | rfl
  · exact ⟨_, ⟨e, he, List.mem_cons_self⟩, rfl⟩
  · exact ⟨.pauli (sub_round_edge_basis k) (lay.idx e.right), ⟨e, he, by simp⟩, rfl⟩

theorem mem_timeline {l : List Instr} {i : Instr} (hi : i ∈ l) (hm : isMark i = true) (n : Nat) : ∃ k, (i, k) ∈ timeline n l := by
  induction l generalizing n with
  | nil => simp at hi
  | cons j l ih =>
    rw [timeline]
    rcases List.mem_cons.1 hi with rfl | hi
    · rw [if_pos hm]; exact ⟨n, List.mem_cons_self⟩
    · split_ifs
      · obtain ⟨k, hk⟩ := ih hi n
        exact ⟨k, List.mem_cons_of_mem _ hk⟩
      · exact ih hi _

theorem closed_qubits {lay : HoneycombLayout} (hv : lay.Valid) (hs : lay.Supported) {N : Nat} (hN : lay.sub_rounds = N) {i : Instr}
    (hi : i ∈ lay.closedCircuit N) {q : Nat} (hq : q ∈ i.qubits) : q < lay.num_qubits.toNat := by
  by_cases hk : kind i.gate = .annotation
  · have hg := goodL_closed hs N i hi
    have hcases : i.gate = .QUBIT_COORDS ∨ isMark i = true ∨ i.gate = .TICK := by
      rw [isMark_iff]
      cases hg : i.gate <;> simp_all [kind]
    rcases hcases with h | h | h
    · obtain ⟨p, hp, rfl⟩ := List.mem_map.1 (hg.coords h)
      simp only [Instr.qubits, List.filterMap_cons, Target.qubit?, List.filterMap_nil, List.mem_singleton] at hq
      subst hq
      obtain ⟨p', hp', e, hc⟩ := (covers_used hv).2 _ (List.mem_map_of_mem (f := lay.idx) hp)
      rw [← e]
      exact class_bound hv hp' hc
    · exfalso
      obtain ⟨k, hk⟩ := mem_timeline hi h 0
      obtain ⟨t, ht, e⟩ := List.mem_filterMap.1 hq
      obtain ⟨o, rfl, _⟩ := offsets_closed hv hs hN _ hk t ht
      simp [Target.qubit?] at e
    · have := hg.tick h
      subst this
      simp [Instr.qubits, Instr.tick] at hq
  · obtain ⟨s, hs', hq'⟩ := mem_actedOn (l := lay.closedCircuit N) (q := q)
      (List.mem_flatMap.2 ⟨i, List.mem_filter.2 ⟨hi, by simpa using hk⟩, hq⟩)
    obtain ⟨p, hp, rfl, hc⟩ := (free_closed hv hs (by have := hs.2.2.1; omega) s hs').2 q hq'
    exact class_bound hv hp hc

theorem em3_num_qubits {lay : HoneycombLayout} (hv : lay.Valid) {c : Circuit} {n : Nat} (hn : n = lay.data_qubit_coords.length)
    (h1 : ∀ i ∈ c.ops, ∀ q ∈ i.qubits, q < n) {k : Nat} (h2 : ∀ i ∈ lay.em3Emit k, i ∈ c.ops) : c.num_qubits = n := by
  refine le_antisymm (num_qubits_le h1) ?_
  by_contra h
  push Not at h
  obtain ⟨i, hi, hq⟩ := mem_em3_data hv (k := k) (q := n - 1) (by omega)
  have := lt_num_qubits (h2 i hi) hq
  omega

theorem em3_allRounds {lay : HoneycombLayout} (he : lay.isEM3 = true) (N : Nat) :
    lay.allRounds N = (List.range N).flatMap lay.em3Emit := by
  have : lay.style ≠ "SD6" ∧ lay.style ≠ "PC3" := by
    constructor <;> intro h <;> simp [isEM3, h] at he
  rw [allRounds, if_neg this.1, if_neg this.2, if_pos he, em3All]

/-- C33: in a noisy EM3_v2 circuit every expanded parity measurement, inside or outside `REPEAT` blocks, uses the
same ancilla `data_width * data_height`, which is larger than every qubit of the circuit. (`perStep` with the
constant ancilla is `c27_channels` without the dependence on the enclosing block.) -/
theorem c33_ancilla (lay : HoneycombLayout) (hv : lay.Valid) (hs : lay.Supported) (hst : lay.style = "EM3_v2") :
    ∃ c d, ∃ D : Nat, lay.generateNoiseless = .ok c ∧ lay.makeCircuit = .ok d ∧ (D : Int) = lay.data_width * lay.data_height ∧
      (∀ i ∈ c.flatten, ∀ q ∈ i.qubits, q < D) ∧
      ∃ idle : List Instr → List Instr, (∀ ops, ∀ i ∈ idle ops, i.gate = .DEPOLARIZE1 ∧ ∀ q ∈ i.qubits, q < D) ∧
        d.flatten = perStep (fun _ ops => noisyOps (.EM3_v2 lay.noise) D ops ++ idle ops) c c.num_qubits [] := by
  obtain ⟨N, hN⟩ := Int.eq_ofNat_of_zero_le (show 0 ≤ lay.sub_rounds by have := hs.2.2.1; omega)
  have he : lay.isEM3 = true := by simp [isEM3, hst]
  obtain ⟨c, nm, d, hc, hf, hsh, _, _, _, _, _, hnm, _, _, hd, hm⟩ := makeCircuit_ok hv hs hN
  have hlen := length_data_qubit_coords hv
  have hdw := Valid.dw hv
  have hdh := Valid.dh hv
  have hD : (lay.data_qubit_coords.length : Int) = lay.data_width * lay.data_height := (c06_counts lay hv).2.1.2
  have hnq : lay.num_qubits.toNat = lay.data_qubit_coords.length := by rw [num_qubits, if_pos he]; omega
  have hq : ∀ i ∈ c.flatten, ∀ q ∈ i.qubits, q < lay.data_qubit_coords.length := by
    intro i hi q hq
    rw [hf] at hi
    rw [← hnq]
    exact closed_qubits hv hs hN hi hq
  have hsh2 : c.Shape fun r _ => 2 ≤ r := Shape.mono (fun _ _ h => h.1) hsh
  have hops : ∀ i ∈ c.ops, ∀ q ∈ i.qubits, q < lay.data_qubit_coords.length := fun i hi => hq i (Circuit.ops_flatten hsh2 hi)
  have hbody : ∀ (c' : Circuit), (∀ i ∈ c'.ops, ∀ q ∈ i.qubits, q < lay.data_qubit_coords.length) →
      (c'.Shape fun r l => 2 ≤ r ∧ (lay.isEM3 = true → ∃ k, l = (List.range 3).flatMap fun j => lay.em3Emit (k + j))) →
      c'.Shape fun _ l => (Circuit.ofList l).num_qubits = lay.data_qubit_coords.length := by
    intro c'
    induction c' with
    | nil => intros; trivial
    | op i c' ih => intro h1 h2; exact ih (fun j hj => h1 j (List.mem_cons_of_mem _ hj)) h2
    | rep r b c' _ ih =>
      intro h1 h2
      obtain ⟨⟨l, rfl, _, hl⟩, h2⟩ := h2
      refine ⟨⟨l, rfl, ?_⟩, ih (fun j hj => h1 j (List.mem_append_right _ hj)) h2⟩
      obtain ⟨k, hk⟩ := hl he
      refine em3_num_qubits hv rfl (fun i hi => h1 i (List.mem_append_left _ hi)) (k := k) ?_
      intro i hi
      rw [Circuit.ops_ofList, hk]
      exact List.mem_flatMap.2 ⟨0, by simp, by simpa using hi⟩
  have hnum : c.num_qubits = lay.data_qubit_coords.length := by
    refine le_antisymm (num_qubits_le hops) ?_
    by_contra h
    push Not at h
    obtain ⟨i, hi, hq'⟩ := mem_em3_data hv (k := 0) (q := lay.data_qubit_coords.length - 1) (by omega)
    have hi' : i ∈ c.flatten := by
      rw [hf, closedCircuit, em3_allRounds he]
      refine List.mem_append_left _ (List.mem_append_right _ (List.mem_flatMap.2 ⟨0, ?_, hi⟩))
      rw [List.mem_range]
      have := hs.2.2.1
      omega
    have hi'' : i ∈ c.ops := flatten_ops hi'
    have := lt_num_qubits hi'' hq'
    omega
  have hnm' : nm = .EM3_v2 lay.noise := by
    simp [noise_model, hst] at hnm
    exact hnm.symm
  subst hnm'
  obtain ⟨idle1, idle2, h1, h2, h3⟩ := c28_idle _ c d none hd
  have hidle : ∀ {p : Rat} {S : Nat → Prop} {l : List Instr}, DepolarizesExactly p S l → (∀ q, S q → q < c.num_qubits) →
      ∀ i ∈ l, i.gate = .DEPOLARIZE1 ∧ ∀ q ∈ i.qubits, q < lay.data_qubit_coords.length := by
    intro p S l h hS i hi
    refine ⟨(h.1 i hi).1, fun q hq => ?_⟩
    rw [← hnum]
    refine hS q ?_
    by_contra hn
    exact List.count_eq_zero.1 (h.2.2 q hn) (List.mem_flatMap.2 ⟨i, hi, hq⟩)
  refine ⟨c, d, lay.data_qubit_coords.length, hc, hm, hD, hq, fun ops => idle1 ops ++ idle2 ops, fun ops i hi => ?_, ?_⟩
  · rcases List.mem_append.1 hi with hi | hi
    · exact hidle (h1 ops) (fun q hq => by simpa [trackedQubits] using hq.2.2.1) i hi
    · exact hidle (h2 ops) (fun q hq => by simpa [trackedQubits] using hq.2.2.1) i hi
  · rw [h3, hnum, perStep_const (hbody c hops hsh)]
    simp only [List.append_assoc]

example : (∃ c d, ∃ D : Nat, HoneycombLayout.generateNoiseless ⟨6, 12, 40, "EM3_v2", "V", 1/1000⟩ = .ok c ∧
    HoneycombLayout.makeCircuit ⟨6, 12, 40, "EM3_v2", "V", 1/1000⟩ = .ok d ∧ (D : Int) = 6 * 12 ∧ ∀ i ∈ c.flatten, ∀ q ∈ i.qubits, q < D) := by
  obtain ⟨c, d, D, h1, h2, h3, h4, _⟩ := c33_ancilla ⟨6, 12, 40, "EM3_v2", "V", 1/1000⟩ (by constructor <;> decide) (by
    refine ⟨?_, ?_, ?_, ?_⟩ <;> simp) rfl
  exact ⟨c, d, D, h1, h2, h3, h4⟩

/-- C33, for circuits in general, is false: in `R 0 1 2; REPEAT 2 { MPP X0*X1 }; M 2` the expanded parity measurements
in the block reset the qubit 2 that the circuit measures after the block. -/
theorem c33_general_false : ∃ c d : Circuit, (NoiseModel.EM3_v2 (1/1000)).noisyCircuit c = .ok d ∧
    Noiseless c ∧ TickOK c ∧ PairMPP c ∧ c.Normal ∧ 2 ∈ usedQubits c.flatten ∧
    Instr.on .R [2] ∉ c.flatten ∧ Instr.on .R [2] ∈ d.flatten := by
  let mpp : Instr := { gate := .MPP, targets := [.pauli .X 0, .comb, .pauli .X 1] }
  let c : Circuit := .op (.on .R [0, 1, 2]) (.rep 2 (.op mpp .nil) (.op (.on .M [2]) .nil))
  have hp : PairMPP c := by
    intro i hi hg
    simp only [c, Circuit.ops, List.cons_append, List.nil_append, List.mem_cons, List.not_mem_nil, or_false] at hi
    rcases hi with rfl | rfl | rfl
    · simp [Instr.on] at hg
    · exact ⟨[((.X, 0), (.X, 1))], rfl⟩
    · simp [Instr.on] at hg
  have hn : Noiseless c := by
    intro i hi
    simp only [c, Circuit.ops, List.cons_append, List.nil_append, List.mem_cons, List.not_mem_nil, or_false] at hi
    rcases hi with rfl | rfl | rfl <;> decide
  have ht : TickOK c := by
    intro i hi
    simp only [c, Circuit.ops, List.cons_append, List.nil_append, List.mem_cons, List.not_mem_nil, or_false] at hi
    rcases hi with rfl | rfl | rfl <;> decide
  obtain ⟨d, hd⟩ := (c29_refused (.EM3_v2 (1/1000)) (predefined_sensible (1/1000) _ (by simp [predefined])) c none hp hn).2.2 (by
    intro i hi
    rw [(c29_supported (1/1000) i.gate).2.2.2.1]
    simp only [c, Circuit.ops, List.cons_append, List.nil_append, List.mem_cons, List.not_mem_nil, or_false] at hi
    rcases hi with rfl | rfl | rfl <;> decide)
  refine ⟨c, d, hd, hn, ht, hp, ⟨by decide, by simp, trivial, trivial⟩, by decide, by decide, ?_⟩
  obtain ⟨idle, _, h⟩ := c27_channels _ _ _ _ hd
  rw [h]
  simp only [c, perStep, Instr.on, List.mem_append, reduceCtorEq, if_false]
  left; right
  simp only [List.replicate, List.flatten_cons, List.mem_append]
  left; left
  simp only [noisyOps, List.mem_append]
  left; right
  have hr : (((NoiseModel.EM3_v2 (1/1000)).rate .MPP).getD 0) = 1/1000 := by
    rw [(c27_strengths (1/1000)).2.2.2.1]; simp
  simp only [mpp, List.nil_append, List.flatMap_cons, List.flatMap_nil, List.append_nil, hr, noisyCore, kind]
  rw [if_neg (by norm_num), if_pos (show (NoiseModel.EM3_v2 (1/1000)).use_correlated_parity_measurement_errors = true from rfl)]
  simp [mppGroups, parityMeasurementWithCorrelatedNoise, Instr.on, Circuit.num_qubits, qubitBound, Instr.qubits, Target.qubit?]
  left; decide

end Honeycomb
