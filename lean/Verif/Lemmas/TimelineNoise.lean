import Verif.Lemmas.Noise
import Verif.Spec.Timeline

/-! The annotation timeline is not changed by noise. -/

namespace Honeycomb

/-- Marks and measurements in order. -/
def markTrace (l : List Instr) : List (Instr ⊕ Unit) :=
  l.flatMap fun i => if isMark i then [.inl i] else List.replicate i.measureCount (.inr ())

theorem timeline_eq (l : List Instr) : ∀ k, timeline k l = usesOfTrace k (markTrace l) := by
  induction l with
  | nil => intro k; rfl
  | cons i l ih =>
    intro k
    rw [timeline]
    have hc : markTrace (i :: l) = (if isMark i then [.inl i] else List.replicate i.measureCount (.inr ())) ++ markTrace l := rfl
    rw [hc]
    split_ifs with h
    · rw [ih]; rfl
    · rw [ih, usesOfTrace_replicate]

theorem markTrace_append (a b) : markTrace (a ++ b) = markTrace a ++ markTrace b := by
  simp [markTrace]

theorem markTrace_nil_of {l : List Instr} (h : ∀ i ∈ l, isNoise i.gate = true) : markTrace l = [] := by
  rw [markTrace, List.flatMap_eq_nil_iff]
  intro i hi
  have := h i hi
  revert this
  cases hg : i.gate <;> simp [isNoise, isMark, Instr.measureCount, hg]

theorem markTrace_gadget (b1 q1 b2 q2 a p) :
    markTrace (parityMeasurementWithCorrelatedNoise b1 q1 b2 q2 a p) = [.inr ()] := by
  unfold parityMeasurementWithCorrelatedNoise
  rw [markTrace_append, markTrace_append,
    markTrace_nil_of (l := (correlatedErrors q1 q2 a).map _)]
  · cases b1 <;> cases b2 <;>
      simp [markTrace, isMark, Instr.on, parityCX, HoneycombLayout.basisCX, Instr.measureCount]
  · intro i hi
    obtain ⟨e, _, rfl⟩ := List.mem_map.1 hi
    rfl

theorem markTrace_core {nm : NoiseModel} {a i p} {r} (h : nm.noisyOp i p a = .ok r) :
    markTrace (noisyCore nm a i p) = markTrace [i] := by
  obtain ⟨pre, mid, post⟩ := r
  unfold noisyCore
  split_ifs with hp hc
  · rfl
  · split
    · rename_i hk
      have hg : i.gate = .MPP := by revert hk; cases i.gate <;> simp [kind]
      unfold NoiseModel.noisyOp at h
      rw [if_pos (not_le.1 hp)] at h
      simp only [hg, hc, ANY_CLIFFORD_1_OPS, ANY_CLIFFORD_2_OPS, RESET_OPS, MEASURE_OPS, if_true] at h
      simp at h
      split_ifs at h
      split at h
      · exact absurd h (by simp)
      · rename_i l hm
        obtain ⟨gs, hgs⟩ := correlatedMPP_ok hm
        rw [hgs, mppGroups_pair]
        have h1 : markTrace [i] = List.replicate gs.length (.inr ()) := by
          simp [markTrace, isMark, hg, Instr.measureCount, hgs, mppGroups_pair]
        rw [h1]
        clear h1 hm hgs
        induction gs with
        | nil => rfl
        | cons g gs ih =>
          rw [List.map_cons, List.flatMap_cons, markTrace_append, ih, markTrace_gadget]
          rfl
    · rfl
  · split
    · rename_i hk
      have hg : i.gate = .MPP := by revert hk; cases i.gate <;> simp [kind]
      simp [markTrace, isMark, hg, Instr.measureCount]
    · rfl

theorem markTrace_step {nm : NoiseModel} (qs) (a : Nat)
    {ops : List Instr} (hi : ∀ i ∈ ops, Accepted nm 0 i) :
    markTrace (stepOf nm qs a ops) = markTrace ops := by
  unfold stepOf noisyOps
  rw [markTrace_append, markTrace_append, markTrace_append]
  rw [markTrace_nil_of (l := ops.flatMap fun i => noiseBefore nm i ((nm.rate i.gate).getD 0)),
    markTrace_nil_of (l := ops.flatMap fun i => noiseAfter i ((nm.rate i.gate).getD 0)),
    markTrace_nil_of (l := idleOf nm qs ops)]
  · simp only [List.nil_append, List.append_nil]
    induction ops with
    | nil => rfl
    | cons i ops ih =>
      obtain ⟨p, r, hr, hn⟩ := accepted_ancilla (b := a) (hi i (by simp))
      rw [List.flatMap_cons, markTrace_append, ih fun j hj => hi j (by simp [hj]), hr, Option.getD_some,
        markTrace_core hn, ← markTrace_append]
      rfl
  · exact fun j hj => idleOf_isNoise hj
  · intro j hj
    obtain ⟨i, _, hj⟩ := List.mem_flatMap.1 hj
    exact noiseAfter_isNoise hj
  · intro j hj
    obtain ⟨i, _, hj⟩ := List.mem_flatMap.1 hj
    exact noiseBefore_isNoise hj


theorem timeline_noisy {nm : NoiseModel} {c d : Circuit} {qs : Finset Nat} (ht : TickOK c)
    (h : nm.noisyCircuit c (some qs) = .ok d) (k : Nat) : timeline k d.flatten = timeline k c.flatten := by
  have hacc := noisyCircuit_accepts.1 ⟨d, h⟩
  have htr : markTrace d.flatten = markTrace c.flatten := by
    rw [noisyCircuit_ok h, perStep_congr (g := fun _ ops => ops) markTrace_append (Accepted nm 0)
      (fun a ops hi => markTrace_step _ a hi) c
      (fun i hi hne => (hacc i hi).resolve_left hne) _ [] (by simp), perStep_flatten c ht]
    rfl
  rw [timeline_eq, timeline_eq, htr]

/-- The annotations that refer to measurements are the detectors and observables of the timeline. -/
theorem recordUses_timeline (l : List Instr) : ∀ k, recordUses k l =
    (timeline k l).filter fun x => decide (x.1.gate = .DETECTOR ∨ x.1.gate = .OBSERVABLE_INCLUDE) := by
  induction l with
  | nil => intro k; rfl
  | cons i l ih =>
    intro k
    rcases i with ⟨g, ts, as⟩
    cases g <;> simp [recordUses, timeline, isMark, Instr.measureCount, ih]

end Honeycomb
