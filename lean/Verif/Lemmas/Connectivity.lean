import Verif.Lemmas.NoiseEvents

/-! # Every instruction of the generated circuit stays near one edge -/

namespace Honeycomb
namespace HoneycombLayout
variable {lay : HoneycombLayout}

/-- What C73 says of one instruction. -/
def Local (lay : HoneycombLayout) (i : Instr) : Prop :=
  (kind i.gate = .clifford2 → ∀ x ∈ pairs i.qubits, ∃ e ∈ lay.all_edges, (x.1 = lay.idx e.left ∨ x.1 = lay.idx e.right) ∧ x.2 = lay.ancilla e) ∧
  (i.gate = .MPP → ∀ P ∈ i.measures, ∃ e ∈ lay.all_edges, P.map (·.2) = [lay.idx e.left, lay.idx e.right]) ∧
  ∀ c ∈ i.channels, ∃ e ∈ lay.all_edges, ∀ q ∈ c, q ∈ [lay.idx e.left, lay.idx e.right, lay.ancilla e]

theorem ancilla_em3 (h : lay.isEM3 = true) (e : Edge) : lay.ancilla e = lay.num_qubits.toNat := by
  have : lay.style = "EM3" ∨ lay.style = "EM3_v2" := by simpa [isEM3] using h
  rw [ancilla, if_pos this, num_qubits, if_pos h]

theorem ancilla_other (h : lay.isEM3 = false) (e : Edge) : lay.ancilla e = lay.idx e.center := by
  have : ¬ (lay.style = "EM3" ∨ lay.style = "EM3_v2") := by
    intro hc
    have : lay.isEM3 = true := by simpa [isEM3] using hc
    rw [h] at this; cases this
  rw [ancilla, if_neg this]

theorem Narrow.local {i : Instr} (h : lay.Narrow i) : lay.Local i := by
  refine ⟨fun hk => ?_, fun hg => ?_, fun c hc => ?_⟩
  · rcases i with ⟨g, ts, as⟩
    have := h.1
    cases g <;> simp_all [isNoise, kind]
  · have := h.1
    rw [hg] at this; cases this
  · obtain ⟨e, he, hr⟩ := h.2 c hc
    refine ⟨e, he, fun q hq => ?_⟩
    rcases hr q hq with h | h | ⟨h0, h⟩
    · simp [h]
    · simp [h]
    · simp [h, ancilla_other h0]

theorem bond_groups {i : Instr} (h : lay.GoodI i) (hg : i.gate = .MPP) {gs : List ((Basis × Nat) × (Basis × Nat))} (hgs : i.targets = pairTargets gs) :
    ∀ g ∈ gs, ∃ e ∈ lay.all_edges, g.1.2 = lay.idx e.left ∧ g.2.2 = lay.idx e.right := by
  intro g hm
  have hb := (h.bond hg).2
  rw [Instr.qubits, hgs, pairTargets_qubits, pairs_targets gs (fun g => g.1.2) (fun g => g.2.2)] at hb
  obtain ⟨k, e, he, hx⟩ := hb _ (List.mem_map.2 ⟨g, hm, rfl⟩)
  rw [Prod.mk.injEq] at hx
  exact ⟨e, round_edges_subset_all he, hx⟩

theorem GoodI.local {i : Instr} (h : lay.GoodI i) (hc : isNoise i.gate = false) {as : List Arg} : lay.Local { i with args := as } := by
  refine ⟨fun hk x hx => ?_, fun hg P hP => ?_, fun c hcm => ?_⟩
  · obtain ⟨h0, hl⟩ := h.link hk
    obtain ⟨k, e, he, h1, h2⟩ := hl x hx
    exact ⟨e, round_edges_subset_all he, h1, by rw [h2, ancilla_other h0]⟩
  · obtain ⟨_, gs, e⟩ := h.mpp hg
    replace hg : i.gate = .MPP := hg
    simp only [Instr.measures, hg, e, mppGroups_pair, List.mem_map] at hP
    obtain ⟨g, hgm, rfl⟩ := hP
    obtain ⟨e, he, h1, h2⟩ := bond_groups h hg e g hgm
    exact ⟨e, he, by simp [h1, h2]⟩
  · rw [channels_clean (i := { i with args := as }) hc] at hcm
    cases hcm

theorem gadget_local {e : Edge} (he : e ∈ lay.all_edges) (h0 : lay.isEM3 = true) {b1 b2 : Basis} {p : Rat} :
    ∀ i ∈ parityMeasurementWithCorrelatedNoise b1 (lay.idx e.left) b2 (lay.idx e.right) lay.num_qubits.toNat p, lay.Local i := by
  intro i hi
  refine ⟨fun hk x hx => ?_, fun hg => ?_, fun c hc => ⟨e, he, fun q hq => ?_⟩⟩
  · rw [parityMeasurementWithCorrelatedNoise] at hi
    simp only [List.mem_append, List.mem_cons, List.not_mem_nil, or_false, List.mem_map] at hi
    refine ⟨e, he, ?_⟩
    rw [ancilla_em3 h0]
    rcases hi with ((rfl | rfl | rfl) | ⟨_, _, rfl⟩) | rfl
    · simp [Instr.on, kind] at hk
    · rw [parityCX, qubits_on] at hx
      simp only [pairs, List.mem_singleton] at hx
      subst hx
      exact ⟨.inl rfl, rfl⟩
    · rw [parityCX, qubits_on] at hx
      simp only [pairs, List.mem_singleton] at hx
      subst hx
      exact ⟨.inr rfl, rfl⟩
    · simp [kind] at hk
    · simp [Instr.on, kind] at hk
  · rw [parityMeasurementWithCorrelatedNoise] at hi
    simp only [List.mem_append, List.mem_cons, List.not_mem_nil, or_false, List.mem_map] at hi
    rcases hi with ((rfl | rfl | rfl) | ⟨_, _, rfl⟩) | rfl
    · simp [Instr.on] at hg
    · cases b1 <;> simp [parityCX, basisCX, Instr.on] at hg
    · cases b2 <;> simp [parityCX, basisCX, Instr.on] at hg
    · simp at hg
    · simp [Instr.on] at hg
  · by_contra hn
    simp only [List.mem_cons, List.not_mem_nil, or_false, not_or, ancilla_em3 h0] at hn
    exact (channels_gadget hn.1 hn.2.1 hn.2.2).2 i hi c hc hq

theorem core_local {nm : NoiseModel} {i : Instr} (ht : lay.Tame lay.num_qubits.toNat i) (h : lay.GoodI i) (p : Rat) :
    ∀ j ∈ noisyCore nm lay.num_qubits.toNat i p, lay.Local j := by
  intro j hj
  have hself : lay.Local i := h.local (as := i.args) ht.ex.clean
  unfold noisyCore at hj
  by_cases hp : p ≤ 0
  · rw [if_pos hp, List.mem_singleton] at hj
    exact hj ▸ hself
  · rw [if_neg hp] at hj
    by_cases hg : i.gate = .MPP
    · simp only [hg, kind] at hj
      obtain ⟨_, gs, e⟩ := h.mpp hg
      split_ifs at hj
      · rw [e, mppGroups_pair, List.flatMap_map] at hj
        obtain ⟨g, hgm, hj⟩ := List.mem_flatMap.1 hj
        obtain ⟨e, he, h1, h2⟩ := bond_groups h hg e g hgm
        simp only [h1, h2] at hj
        exact gadget_local he (h.bond hg).1 j hj
      · rw [List.mem_singleton] at hj
        have := h.local (as := [.lit p]) ht.ex.clean
        subst hj
        rcases i with ⟨g, ts, as⟩
        cases hg
        exact this
    · rcases i with ⟨g, ts, as⟩
      cases g
      case MPP => exact absurd rfl hg
      all_goals
        simp only [kind, List.mem_singleton] at hj
        exact hj ▸ hself

theorem local_all (hv : lay.Valid) (hs : lay.Supported) {N : Nat} (hN : lay.sub_rounds = N) {d : Circuit} (hd : lay.makeCircuit = .ok d) :
    ∀ i ∈ d.flatten, lay.Local i := by
  obtain ⟨c, nm, idle, -, -, -, -, -, ht, hi, e⟩ := noisy_form hv hs hN hd
  replace hi := fun ops i h => (hi ops i h).1
  rw [e]
  refine perStep_rel (R := fun l _ => ∀ i ∈ l, lay.Local i) (by simp) (fun a b _ _ h1 h2 i hm => (List.mem_append.1 hm).elim (h1 i) (h2 i)) ?_
    (fun i => lay.Tame lay.num_qubits.toNat i ∧ lay.GoodI i) (g := fun _ ops => ops) (fun _ ops ho i hm => ?_) c ht c.num_qubits [] (by simp)
  · intro i hm
    rw [List.mem_singleton] at hm
    subst hm
    exact ⟨fun h => by simp [Instr.tick, kind] at h, fun h => by simp [Instr.tick] at h, fun c hc => by simp [Instr.tick, Instr.channels] at hc⟩
  · simp only [noisyOps, List.mem_append, List.mem_flatMap] at hm
    rcases hm with ((⟨j, hj, hm⟩ | ⟨j, hj, hm⟩) | ⟨j, hj, hm⟩) | hm
    · exact ((ho j hj).1.before _ i hm).local
    · exact core_local (ho j hj).1 (ho j hj).2 _ i hm
    · exact ((ho j hj).1.after _ i hm).local
    · exact (hi ops i hm).local

end HoneycombLayout
end Honeycomb
