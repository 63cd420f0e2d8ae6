import Verif.Lemmas.DoubleEpr
import Verif.Lemmas.AttainedEM3
import Verif.Props.Noise

/-! The double EPR circuit with noise: what it does when no error is drawn. -/

namespace Honeycomb
namespace HoneycombLayout
variable {lay : HoneycombLayout}

theorem ops_ofList (l : List Instr) : (Circuit.ofList l).ops = l := by
  induction l with
  | nil => rfl
  | cons i l ih => rw [Circuit.ofList, Circuit.ops, ih]

theorem eprMpp_eq (k : Nat) : lay.eprMpp k = lay.mppOf k := rfl

theorem eprAnn_gate {k : Nat} {i : Instr} (h : i ∈ lay.eprAnn k) : i.gate = .OBSERVABLE_INCLUDE ∨ i.gate = .DETECTOR := by
  rcases List.mem_append.1 h with h | h
  · obtain ⟨j, _, rfl⟩ := List.mem_map.1 h
    exact Or.inl rfl
  · split_ifs at h
    · obtain ⟨x, _, hi⟩ := List.mem_flatMap.1 h
      revert hi
      generalize xorO _ _ = o
      intro hi
      cases o with
      | none => simp [detI] at hi
      | some s =>
        simp only [detI, List.mem_singleton] at hi
        subst hi
        exact Or.inr rfl
    · simp at h

theorem eprEmit_cases {k : Nat} {i : Instr} (h : i ∈ lay.eprEmit k) :
    i = lay.mppOf k ∨ (i.gate = .OBSERVABLE_INCLUDE ∨ i.gate = .DETECTOR) ∨ i = .tick := by
  simp only [eprEmit, List.mem_append, List.mem_singleton] at h
  rcases h with (h | h) | h
  · exact Or.inl h
  · exact Or.inr (Or.inl (eprAnn_gate h))
  · exact Or.inr (Or.inr h)

theorem eprEmit_ok (k : Nat) : Noiseless (.ofList (lay.eprEmit k)) ∧ TickOK (.ofList (lay.eprEmit k)) ∧ PairMPP (.ofList (lay.eprEmit k)) ∧
    ∀ p : Rat, ∀ i ∈ (Circuit.ofList (lay.eprEmit k)).ops, (NoiseModel.EM3_v1 p).rate i.gate ≠ none := by
  have key : ∀ i ∈ (Circuit.ofList (lay.eprEmit k)).ops, i = lay.mppOf k ∨ (i.gate = .OBSERVABLE_INCLUDE ∨ i.gate = .DETECTOR) ∨ i = .tick := by
    intro i hi
    rw [ops_ofList] at hi
    exact eprEmit_cases hi
  refine ⟨fun i hi => ?_, fun i hi hg => ?_, fun i hi hg => ?_, fun p i hi => ?_⟩
  · rcases key i hi with rfl | (h | h) | rfl
    · exact ⟨rfl, fun _ => rfl⟩
    · rw [h]; exact ⟨rfl, by simp⟩
    · rw [h]; exact ⟨rfl, by simp⟩
    · exact ⟨rfl, fun h => by simp [Instr.tick] at h⟩
  · rcases key i hi with rfl | (h | h) | rfl
    · simp [mppOf] at hg
    · rw [h] at hg; simp at hg
    · rw [h] at hg; simp at hg
    · rfl
  · rcases key i hi with rfl | (h | h) | rfl
    · exact ⟨_, mpp_targets k⟩
    · rw [h] at hg; simp at hg
    · rw [h] at hg; simp at hg
    · simp [Instr.tick] at hg
  · refine ((c29_supported p i.gate).2.2.1).2 ?_
    rcases key i hi with rfl | (h | h) | rfl
    · simp [mppOf]
    · rw [h]; simp [kind]
    · rw [h]; simp [kind]
    · simp [Instr.tick, kind]

/-- The noise of one sub-round. -/
theorem eprNoise_ok (hs : lay.style = "EM3") (k : Nat) :
    ∃ d, lay.eprNoise k (.ofList (lay.eprEmit k)) = .ok d ∧ removeNoise d.flatten = lay.eprEmit k ∧
      (∀ t, timeline t d.flatten = timeline t (lay.eprEmit k)) ∧
      (3 ≤ k → (k : Int) ≤ lay.sub_rounds →
        (NoiseModel.EM3_v1 lay.noise).noisyCircuit (.ofList (lay.eprEmit k)) (some (Finset.range lay.num_qubits.toNat)) = .ok d) := by
  obtain ⟨h1, h2, h3, h4⟩ := eprEmit_ok (lay := lay) k
  by_cases hk : (3 : Int) ≤ k ∧ (k : Int) ≤ lay.sub_rounds
  · obtain ⟨d, hd⟩ := ((c29_refused (.EM3_v1 lay.noise) (predefined_sensible lay.noise _ (by simp [predefined])) (.ofList (lay.eprEmit k))
      (some (Finset.range lay.num_qubits.toNat)) h3 h1).2).2 (h4 lay.noise)
    refine ⟨d, ?_, ?_, fun t => ?_, fun _ _ => hd⟩
    · rw [eprNoise, if_pos hk]
      simp only [noise_model, hs]
      exact hd
    · rw [c25_only_adds_noise _ rfl _ _ _ h1 h2 hd, Circuit.flatten_ofList]
    · rw [timeline_noisy h2 hd, Circuit.flatten_ofList]
  · refine ⟨_, by rw [eprNoise, if_neg hk], ?_, fun t => by rw [Circuit.flatten_ofList], fun a b => absurd ⟨by omega, b⟩ hk⟩
    rw [Circuit.flatten_ofList]
    refine removeNoise_self fun i hi => h1 i ?_
    rwa [ops_ofList]

/-- What the memory looks like: `g k` is sub-round `k` with its noise. -/
structure EprRounds (lay : HoneycombLayout) (g : Nat → List Instr) : Prop where
  clean : ∀ k, removeNoise (g k) = lay.eprEmit k
  marks : ∀ k t, timeline t (g k) = timeline t (lay.eprEmit k)
  noisy : ∀ k : Nat, 3 ≤ k → (k : Int) ≤ lay.sub_rounds → ∃ d,
    (NoiseModel.EM3_v1 lay.noise).noisyCircuit (.ofList (lay.eprEmit k)) (some (Finset.range lay.num_qubits.toNat)) = .ok d ∧ g k = d.flatten

theorem eprMemory_ok (hv : lay.Valid) (hs : lay.style = "EM3") :
    ∃ g, lay.EprRounds g ∧ ∀ (c k : Nat) (m : MT), lay.EprSnap k m →
      ∃ d, lay.eprMemory m (roundsFrom k c) = .ok d ∧ d.flatten = (List.range c).flatMap fun j => g (k + j) := by
  have hp : lay.isPC3 = false := by simp [isPC3, hs]
  choose d h1 h2 h3 h4 using fun k => eprNoise_ok (lay := lay) hs k
  refine ⟨fun k => (d k).flatten, ⟨h2, h3, fun k a b => ⟨d k, h4 k a b, rfl⟩⟩, fun c => ?_⟩
  induction c with
  | zero => exact fun k m _ => ⟨.nil, rfl, rfl⟩
  | succ c ih =>
    intro k m hm
    obtain ⟨m1, e1, s1⟩ := eprSubRound_ok hv hp hm
    obtain ⟨d', e2, e3⟩ := ih (k + 1) m1 s1
    refine ⟨d k ++ d', ?_, ?_⟩
    · rw [roundsFrom_succ, eprMemory, e1]
      simp only
      rw [h1]
      simp only
      rw [show (k : Int) + 1 = ((k + 1 : Nat) : Int) by push_cast; rfl, e2]
    · rw [Circuit.flatten_append, e3, List.range_succ_eq_map, List.flatMap_cons, List.flatMap_map, Nat.add_zero]
      congr 2
      funext j
      exact congrArg (fun i => (d i).flatten) (by omega)

/-- The generated circuit. -/
theorem doubleEpr_ok (hv : lay.Valid) (hs : lay.style = "EM3") :
    ∃ d g, lay.doubleEpr = .ok d ∧ lay.EprRounds g ∧ d.flatten = lay.measureObsAncParities 0 [0, 1, 2, 3] ++
      (List.range lay.sub_rounds.toNat).flatMap g ++ lay.measureObsAncParities lay.sub_rounds [0, 1, 2, 3] := by
  obtain ⟨g, hg, h⟩ := eprMemory_ok hv hs
  obtain ⟨d, e1, e2⟩ := h lay.sub_rounds.toNat 0 _ eprSnap_zero
  refine ⟨.ofList (lay.measureObsAncParities 0 [0, 1, 2, 3]) ++ d ++ .ofList (lay.measureObsAncParities lay.sub_rounds [0, 1, 2, 3]), g, ?_, hg, ?_⟩
  · rw [doubleEpr, pyRange_eq]
    rw [show ((0 : Nat) : Int) = 0 from rfl] at e1
    rw [e1]
  · rw [Circuit.flatten_append, Circuit.flatten_append, Circuit.flatten_ofList, Circuit.flatten_ofList, e2]
    simp

end HoneycombLayout
end Honeycomb
