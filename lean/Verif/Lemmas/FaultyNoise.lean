import Verif.Lemmas.FaultyClosed
import Verif.Lemmas.FrameNoise

/-! Faulty runs of the circuit with noise annotations are faulty runs of the unrolled noiseless circuit. -/

namespace Honeycomb
variable {S : Nat → Prop} {D n : Nat} {F F' G : Frame} {rec : List (ZMod 2)}

theorem FaultyRuns.join {a b : List Instr} {F1 : Frame} {r1 r2 : List (ZMod 2)} {n1 n2 : Nat} (h1 : FaultyRuns S F a r1 F1 n1)
    (h2 : FaultyRuns S F1 b r2 F' n2) : FaultyRuns S F (a ++ b) (r1 ++ r2) F' (n1 + n2) := by
  induction h1 with
  | nil F => simpa using h2
  | step hr _ ih => rw [List.append_assoc]; exact .step hr (ih h2)
  | @fault F F' l rec n q p hq _ ih => rw [Nat.add_right_comm]; exact .fault q p hq (ih h2)

/-- Frames that differ on `qs` are connected by faults on `qs`. -/
theorem FaultyRuns.near {l : List Instr} {F1 : Frame} : ∀ {qs : List Nat} {F : Frame}, Near qs F F1 → (∀ q ∈ qs, S q) →
    FaultyRuns S F1 l rec F' n → FaultyRuns S F l rec F' (n + qs.length)
  | [], F, hn, _, h => by
    obtain rfl : F1 = F := funext fun q => hn q (by simp)
    exact h
  | q :: qs, F, hn, hS, h => by
    have hm : Near qs (F.mul q (F1 q - F q)) F1 := by
      intro x hx
      rw [Frame.mul]
      split_ifs with e
      · subst e; abel
      · exact hn x (by simp [e, hx])
    exact .fault q _ (hS q (by simp)) (near hm (fun x hx => hS x (by simp [hx])) h)

/-- Every faulty run of `l` is a faulty run of `l'`, except for what happens on qubit `D`. -/
def SimF (S : Nat → Prop) (D : Nat) (l l' : List Instr) : Prop :=
  ∀ F G rec F' n, Off D F G → FaultyRuns S F l rec F' n → ∃ G', FaultyRuns S G l' rec G' n ∧ Off D F' G'

theorem SimF.nil : SimF S D [] [] := by
  intro F G rec F' n ho h
  generalize hl : ([] : List Instr) = l at h
  induction h generalizing G with
  | nil F => exact ⟨G, .nil G, ho⟩
  | step => cases hl
  | @fault F F' l rec n q p hq _ ih =>
    obtain ⟨G', g, o⟩ := ih _ (ho.mul q p) hl
    exact ⟨G', .fault q p hq g, o⟩

theorem SimF.append {a b a' b' : List Instr} (h1 : SimF S D a a') (h2 : SimF S D b b') : SimF S D (a ++ b) (a' ++ b') := by
  intro F G rec F' n ho h
  obtain ⟨r1, r2, F1, n1, n2, g1, g2, rfl, rfl⟩ := h.append
  obtain ⟨G1, k1, o1⟩ := h1 _ _ _ _ _ ho g1
  obtain ⟨G2, k2, o2⟩ := h2 _ _ _ _ _ o1 g2
  exact ⟨G2, k1.join k2, o2⟩

theorem SimF.flatMap {α : Type} {l : List α} {f g : α → List Instr} (h : ∀ x ∈ l, SimF S D (f x) (g x)) : SimF S D (l.flatMap f) (l.flatMap g) := by
  induction l with
  | nil => exact .nil
  | cons x l ih =>
    rw [List.flatMap_cons, List.flatMap_cons]
    exact (h x (by simp)).append (ih fun y hy => h y (by simp [hy]))

/-- A list of instructions in which every fault qubit interacts at most once. -/
theorem SimF.of_once {l : List Instr} {l' : List Instr} (ho : Once S l) (hs : ∀ F G rec F', Off D F G → Runs F (actions l) rec F' →
    ∃ G', FaultyRuns S G l' rec G' 0 ∧ Off D F' G') : SimF S D l l' := by
  intro F G rec F' n hoff h
  obtain ⟨qs1, qs2, F1, F2, n1, hr, n2, s1, s2, rfl⟩ := h.normal ho
  have key : ∀ {qs : List Nat} {A B A' : Frame}, Near qs A A' → Off D A B → ∃ B', Near qs B B' ∧ Off D A' B' := by
    intro qs A B A' hn ho
    refine ⟨fun q => if q ∈ qs then A' q else B q, fun q hq => if_neg hq, fun q hq => ?_⟩
    beta_reduce
    split_ifs with hm
    · rfl
    · rw [hn q hm, ho q hq]
  obtain ⟨G1, m1, o1⟩ := key n1 hoff
  obtain ⟨G2, g2, o2⟩ := hs _ _ _ _ o1 hr
  obtain ⟨G3, m3, o3⟩ := key n2 o2
  refine ⟨G3, ?_, o3⟩
  have h3 := FaultyRuns.near m3 s2 (.nil G3)
  have h2 := g2.join h3
  have h1 := FaultyRuns.near m1 s1 h2
  rw [List.append_nil, List.append_nil] at h1
  convert h1 using 1
  omega

theorem runs_to_faulty {l : List Instr} (h : Runs F (actions l) rec F') : FaultyRuns S F l rec F' 0 := by
  induction l generalizing F rec with
  | nil =>
    obtain ⟨rfl, rfl⟩ := runs_nil h
    exact .nil _
  | cons i l ih =>
    obtain ⟨r1, r2, F1, h1, h2, rfl⟩ := (runs_append (a := i.actions)).1 (show Runs F (i.actions ++ actions l) rec F' from h)
    exact .step h1 (ih h2)

theorem SimF.sim {l l' : List Instr} (ho : Once S l) (hs : Sim D (actions l) (actions l')) : SimF S D l l' :=
  .of_once ho fun F G rec F' hoff hr => by
    obtain ⟨G', h, o⟩ := hs F G rec F' hoff hr
    exact ⟨G', runs_to_faulty h, o⟩

theorem SimF.idle {l : List Instr} (h : ∀ i ∈ l, i.actions = []) : SimF S D l [] := by
  refine .sim ?_ ?_
  · refine (List.pairwise_of_forall_mem_list fun i hi j hj q _ _ => couples_nil (h j hj))
  · rw [show actions l = [] from List.flatMap_eq_nil_iff.2 h]
    exact .nil

theorem couples_parityCX {b : Basis} {q a x : Nat} (h : (parityCX b q a).Couples x) : x = q ∨ x = a := by
  cases b <;>
  · obtain ⟨y, hy, hx⟩ := h
    simp [parityCX, HoneycombLayout.basisCX, Instr.on, Instr.actions, Instr.qubits, pairs, Target.qubit?] at hy
    subst hy
    exact hx

theorem couples_gadget {b1 b2 : Basis} {q1 q2 a x : Nat} {p : Rat} (hx : x ≠ a) {i : Instr}
    (hi : i ∈ parityMeasurementWithCorrelatedNoise b1 q1 b2 q2 a p) (h : i.Couples x) : x = q1 ∨ x = q2 := by
  rw [parityMeasurementWithCorrelatedNoise] at hi
  simp only [List.mem_append, List.mem_cons, List.not_mem_nil, or_false, List.mem_map] at hi
  rcases hi with ((rfl | rfl | rfl) | ⟨e, _, rfl⟩) | rfl
  · exact absurd (by simpa using couples_on (by decide) h) hx
  · exact .inl ((couples_parityCX h).resolve_right hx)
  · exact .inr ((couples_parityCX h).resolve_right hx)
  · exact absurd h (couples_nil rfl)
  · exact absurd (by simpa using couples_on (by decide) h) hx

theorem once_gadget {b1 b2 : Basis} {q1 q2 a : Nat} {p : Rat} (ha : ¬ S a) (h12 : q1 ≠ q2) :
    Once S (parityMeasurementWithCorrelatedNoise b1 q1 b2 q2 a p) := by
  have h0 : ∀ {g : Gate} {x}, g ≠ .MPP → S x → ¬ (Instr.on g [a]).Couples x := fun hg hS h =>
    ha (by rw [← show _ = a by simpa using couples_on hg h]; exact hS)
  rw [Once, parityMeasurementWithCorrelatedNoise, List.pairwise_append, List.pairwise_append]
  refine ⟨⟨?_, ?_, ?_⟩, by simp, ?_⟩
  · simp only [List.pairwise_cons, List.mem_cons, List.not_mem_nil, or_false, forall_eq_or_imp, forall_eq, List.Pairwise.nil]
    refine ⟨⟨fun x hS h => absurd h (h0 (by decide) hS), fun x hS h => absurd h (h0 (by decide) hS)⟩, fun x hS h h' => ?_, by simp⟩
    have hxa : x ≠ a := fun e => ha (e ▸ hS)
    exact h12 ((couples_parityCX h).resolve_right hxa ▸ (couples_parityCX h').resolve_right hxa)
  · refine List.pairwise_of_forall_mem_list fun i _ j hj q _ _ => ?_
    obtain ⟨e, _, rfl⟩ := List.mem_map.1 hj
    exact couples_nil rfl
  · intro i _ j hj q _ _
    obtain ⟨e, _, rfl⟩ := List.mem_map.1 hj
    exact couples_nil rfl
  · intro i _ j hj q hS _
    rw [List.mem_singleton.1 hj]
    exact h0 (by decide) hS

theorem once_core {nm : NoiseModel} (hc : nm.use_correlated_parity_measurement_errors = true) {i : Instr} (hD : ¬ S D) (h : Expandable D i) (p : Rat) :
    Once S (noisyCore nm D i p) := by
  unfold noisyCore
  by_cases hp : p ≤ 0
  · rw [if_pos hp]; simp [Once]
  · rw [if_neg hp]
    by_cases hg : i.gate = .MPP
    · obtain ⟨_, gs, e⟩ := h.mpp hg
      have hn := h.nodup hg
      rw [Instr.qubits, e, pairTargets_qubits] at hn
      simp only [hg, kind, hc, if_true]
      rw [e, mppGroups_pair, List.flatMap_map, Once, List.pairwise_flatMap]
      rw [List.nodup_flatMap] at hn
      refine ⟨fun g hgm => ?_, ?_⟩
      · exact once_gadget hD (by simpa using hn.1 g hgm)
      · refine hn.2.imp fun {g g'} hd i hi j hj q hS hqi hqj => ?_
        have hqD : q ≠ D := fun e => hD (e ▸ hS)
        have h1 := couples_gadget hqD hi hqi
        have h2 := couples_gadget hqD hj hqj
        exact hd (a := q) (by simpa using h1) (by simpa using h2)
    · rcases i with ⟨g, ts, as⟩
      cases g
      case MPP => exact absurd rfl hg
      all_goals simp [kind, Once]

theorem simF_ops {nm : NoiseModel} (hc : nm.use_correlated_parity_measurement_errors = true) (hD : ¬ S D) {ops idle : List Instr}
    (h : ∀ i ∈ ops, Expandable D i) (hi : ∀ i ∈ idle, i.gate = .DEPOLARIZE1) : SimF S D (noisyOps nm D ops ++ idle) ops := by
  have e1 : SimF S D idle [] := .idle fun i h => actions_noise (by rw [hi i h]; rfl)
  have e2 : SimF S D (ops.flatMap fun i => noiseBefore nm i ((nm.rate i.gate).getD 0)) [] := .idle fun i hm => by
    obtain ⟨j, _, hj⟩ := List.mem_flatMap.1 hm
    exact actions_noise (noiseBefore_noise i hj)
  have e3 : SimF S D (ops.flatMap fun i => noiseAfter i ((nm.rate i.gate).getD 0)) [] := .idle fun i hm => by
    obtain ⟨j, _, hj⟩ := List.mem_flatMap.1 hm
    exact actions_noise (noiseAfter_noise i hj)
  have e4 : SimF S D (ops.flatMap fun i => noisyCore nm D i ((nm.rate i.gate).getD 0)) (ops.flatMap fun i => [i]) :=
    SimF.flatMap fun i hm => .sim (once_core hc hD (h i hm) _) (by
      rw [show actions [i] = i.actions by rw [actions, List.flatMap_cons, List.flatMap_nil, List.append_nil]]
      exact sim_core hc (h i hm) _)
  have := ((e2.append e4).append e3).append e1
  rwa [List.nil_append, List.append_nil, List.append_nil, List.flatMap_singleton'] at this

theorem FaultyRuns.removeNoise {l : List Instr} (h : FaultyRuns S F l rec F' n) : FaultyRuns S F (Honeycomb.removeNoise l) rec F' n := by
  induction h with
  | nil F => exact .nil F
  | @step F F1 F' i l r1 r2 n hr _ ih =>
    rw [Honeycomb.removeNoise, List.filter_cons]
    rcases hi : isNoise i.gate with _ | _
    · simp only [Bool.not_false, if_true, List.map_cons]
      refine .step (?_ : Runs F _ r1 F1) ih
      split_ifs with hg
      · rw [show ({ i with args := [] } : Instr).actions = i.actions by
          rcases i with ⟨g, ts, as⟩
          cases hg
          rfl]
        exact hr
      · exact hr
    · simp only [Bool.not_true, Bool.false_eq_true, if_false]
      rw [actions_noise hi] at hr
      obtain ⟨rfl, rfl⟩ := runs_nil hr
      exact ih
  | fault q p hq _ ih => exact .fault q p hq ih

theorem FaultyRuns.mono {T : Nat → Prop} (hST : ∀ q, S q → T q) {l : List Instr} (h : FaultyRuns S F l rec F' n) : FaultyRuns T F l rec F' n := by
  induction h with
  | nil F => exact .nil F
  | step hr _ ih => exact .step hr ih
  | fault q p hq _ ih => exact .fault q p (hST q hq) ih

namespace HoneycombLayout
variable {lay : HoneycombLayout}

/-- The faulty runs of the generated circuit are faulty runs of the unrolled noiseless circuit. -/
theorem noisy_frun_of (hv : lay.Valid) (hs : lay.Supported) {N : Nat} (hN : lay.sub_rounds = N) {d : Circuit} (hd : lay.makeCircuit = .ok d)
    (hS : lay.style = "EM3_v2" → ∀ q, S q → lay.IsData q) (hr : FaultyRuns S F d.flatten rec F' n) : ∃ G, FaultyRuns S F (lay.closedCircuit N) rec G n := by
  obtain ⟨c, nm, d', hc, hf, hsh, hg, hno, htk, hpm, hnorm, hnm, hpre, hacc, hd', hm⟩ := makeCircuit_ok hv hs hN
  rw [hd] at hm
  obtain rfl : d = d' := Except.ok.inj hm
  by_cases hst : lay.style = "EM3_v2"
  · obtain ⟨c', d', D, hc', hm', hD, hlt, idle, hi, e⟩ := c33_ancilla lay hv hs hst
    rw [hc] at hc'
    obtain rfl : c = c' := Except.ok.inj hc'
    rw [hd] at hm'
    obtain rfl : d = d' := Except.ok.inj hm'
    have hsh2 : c.Shape fun r _ => 2 ≤ r := Shape.mono (fun _ _ h => h.1) hsh
    have hex : ∀ i ∈ c.ops, Expandable D i := fun i him => ⟨hlt i (Circuit.ops_flatten hsh2 him), (hno i him).1, (hg i him).mpp, fun hg' =>
      closed_nodup hv hs hN (hf ▸ Circuit.ops_flatten hsh2 him) (by rw [hg']; decide)⟩
    have hDS : ¬ lay.IsData D := by
      intro hm
      refine lt_irrefl D (hlt (.on .M lay.data_qubit_indices) ?_ D (by rw [qubits_on]; exact hm))
      rw [hf, closedCircuit]
      simp
    have := perStep_rel (R := fun l l' => SimF S D l l') .nil
      (fun a b a' b' h1 h2 => h1.append h2) (SimF.sim (by simp [Once]) .nil) (Expandable D)
      (f := fun _ ops => noisyOps (.EM3_v2 lay.noise) D ops ++ idle ops) (g := fun _ ops => ops)
      (fun _ ops ho => simF_ops rfl (fun h => hDS (hS hst _ h)) ho (fun i hm => (hi ops i hm).1)) c hex c.num_qubits [] (by simp)
    rw [perStep_flatten c htk, List.nil_append, ← e, hf] at this
    obtain ⟨G, h1, _⟩ := this F F rec F' n (fun _ _ => rfl) hr
    exact ⟨G, h1⟩
  · have hnc : nm.use_correlated_parity_measurement_errors = false := by
      rcases hs.1 with h | h | h | h | h
      all_goals first
        | (exact absurd h hst)
        | (simp [noise_model, h] at hnm; subst hnm; rfl)
    have := c25_only_adds_noise nm hnc c d none hno htk hd'
    have hr := hr.removeNoise
    rw [this, hf] at hr
    exact ⟨F', hr⟩

theorem noisy_frun (hv : lay.Valid) (hs : lay.Supported) {N : Nat} (hN : lay.sub_rounds = N) {d : Circuit} (hd : lay.makeCircuit = .ok d)
    (hr : FaultyRuns (lay.IsIn B) F d.flatten rec F' n) : ∃ G, FaultyRuns (lay.IsIn B) F (lay.closedCircuit N) rec G n :=
  noisy_frun_of hv hs hN hd (fun _ _ h => h.data) hr

end HoneycombLayout
end Honeycomb
