import Verif.Lemmas.GlitchStyles
import Verif.Lemmas.NoiseEvents
import Verif.Spec.Glitch

/-! # The end of the noisy circuit behaves like the end of the unrolled noiseless circuit -/

namespace Honeycomb
variable {F F' : Frame} {rec : List (ZMod 2)}

/-- However `l'` is cut in two, `l` can be cut in two such that the parts are related. -/
def Cuts (R : List Instr → List Instr → Prop) (l l' : List Instr) : Prop := ∀ a' b', l' = a' ++ b' → ∃ a b, l = a ++ b ∧ R a a' ∧ R b b'

theorem Cuts.append {R : List Instr → List Instr → Prop} (ha : ∀ a b a' b', R a a' → R b b' → R (a ++ b) (a' ++ b')) {a b a' b' : List Instr}
    (h1 : R a a' ∧ Cuts R a a') (h2 : R b b' ∧ Cuts R b b') : R (a ++ b) (a' ++ b') ∧ Cuts R (a ++ b) (a' ++ b') := by
  refine ⟨ha _ _ _ _ h1.1 h2.1, fun x y e => ?_⟩
  rcases List.append_eq_append_iff.1 e with ⟨z, rfl, rfl⟩ | ⟨z, rfl, rfl⟩
  · obtain ⟨u, v, rfl, hu, hw⟩ := h2.2 z y rfl
    exact ⟨a ++ u, v, by rw [List.append_assoc], ha _ _ _ _ h1.1 hu, hw⟩
  · obtain ⟨u, v, rfl, hu, hw⟩ := h1.2 x z rfl
    exact ⟨u, v ++ b, by rw [List.append_assoc], hu, ha _ _ _ _ hw h2.1⟩

theorem Cuts.nil {R : List Instr → List Instr → Prop} (h0 : R [] []) {l : List Instr} (h : R l []) : R l [] ∧ Cuts R l [] := by
  refine ⟨h, fun x y e => ?_⟩
  obtain ⟨rfl, rfl⟩ := List.append_eq_nil_iff.1 e.symm
  exact ⟨[], l, rfl, h0, h⟩

theorem Cuts.single {R : List Instr → List Instr → Prop} (h0 : R [] []) {l : List Instr} {i : Instr} (h : R l [i]) : R l [i] ∧ Cuts R l [i] := by
  refine ⟨h, fun x y e => ?_⟩
  rcases List.cons_eq_append_iff.1 e with ⟨rfl, rfl⟩ | ⟨z, rfl, he⟩
  · exact ⟨[], l, rfl, h0, h⟩
  · obtain ⟨rfl, rfl⟩ := List.append_eq_nil_iff.1 he.symm
    exact ⟨l, [], by simp, h, h0⟩

theorem Cuts.flatMap {R : List Instr → List Instr → Prop} (h0 : R [] []) (ha : ∀ a b a' b', R a a' → R b b' → R (a ++ b) (a' ++ b'))
    {f : Instr → List Instr} {l : List Instr} (h : ∀ i ∈ l, R (f i) [i]) : R (l.flatMap f) l ∧ Cuts R (l.flatMap f) l := by
  induction l with
  | nil => exact Cuts.nil h0 h0
  | cons i l ih =>
    rw [List.flatMap_cons, ← List.singleton_append]
    exact Cuts.append ha (Cuts.single h0 (h i (by simp))) (ih fun j hj => h j (by simp [hj]))

/-- The instructions of `l` and `l'` do the same, except for what happens on qubit `D`. -/
def SimI (D : Nat) (l l' : List Instr) : Prop := Sim D (actions l) (actions l')

theorem SimI.append {D : Nat} (a b a' b' : List Instr) (h1 : SimI D a a') (h2 : SimI D b b') : SimI D (a ++ b) (a' ++ b') := by
  rw [SimI, actions_append, actions_append]; exact Sim.append h1 h2

theorem cuts_ops {nm : NoiseModel} (hc : nm.use_correlated_parity_measurement_errors = true) {D : Nat} {ops idle : List Instr}
    (h : ∀ i ∈ ops, Expandable D i) (hi : ∀ i ∈ idle, i.gate = .DEPOLARIZE1) :
    SimI D (noisyOps nm D ops ++ idle) ops ∧ Cuts (SimI D) (noisyOps nm D ops ++ idle) ops := by
  have e1 : actions idle = [] := actions_eq_nil fun i h => by rw [hi i h]; rfl
  have e2 : actions (ops.flatMap fun i => noiseBefore nm i ((nm.rate i.gate).getD 0)) = [] := actions_eq_nil fun i hm => by
    obtain ⟨j, _, hj⟩ := List.mem_flatMap.1 hm
    exact noiseBefore_noise i hj
  have e3 : actions (ops.flatMap fun i => noiseAfter i ((nm.rate i.gate).getD 0)) = [] := actions_eq_nil fun i hm => by
    obtain ⟨j, _, hj⟩ := List.mem_flatMap.1 hm
    exact noiseAfter_noise i hj
  have h0 : SimI D [] [] := Sim.nil
  have quiet : ∀ l : List Instr, actions l = [] → SimI D l [] := fun l e => by rw [SimI, e]; exact Sim.nil
  rw [noisyOps]
  have := Cuts.append SimI.append (Cuts.append SimI.append (Cuts.append SimI.append (Cuts.nil h0 (quiet _ e2))
    (Cuts.flatMap h0 SimI.append (f := fun i => noisyCore nm D i ((nm.rate i.gate).getD 0)) (l := ops) fun i hm => by
      rw [SimI, show actions [i] = i.actions by rw [actions, List.flatMap_cons, List.flatMap_nil, List.append_nil]]
      exact sim_core hc (h i hm) _)) (Cuts.nil h0 (quiet _ e3))) (Cuts.nil h0 (quiet _ e1))
  simpa only [List.nil_append, List.append_nil] using this

theorem cuts_removeNoise (l : List Instr) : Cuts (fun a b => removeNoise a = b) l (removeNoise l) := by
  intro x y e
  rw [removeNoise] at e
  obtain ⟨u, v, e1, rfl, rfl⟩ := List.map_eq_append_iff.1 e
  obtain ⟨a, b, rfl, rfl, rfl⟩ := List.filter_eq_append_iff.1 e1
  exact ⟨a, b, rfl, rfl, rfl⟩

namespace HoneycombLayout
variable {lay : HoneycombLayout}

/-- Every run of `l` is a run of `l'`. -/
def Follows (l l' : List Instr) : Prop := ∀ F rec F', Runs F (actions l) rec F' → ∃ G, Runs F (actions l') rec G

theorem noisy_cuts (hv : lay.Valid) (hs : lay.Supported) {N : Nat} (hN : lay.sub_rounds = N) {d : Circuit} (hd : lay.makeCircuit = .ok d) :
    Cuts Follows d.flatten (lay.closedCircuit N) := by
  obtain ⟨c, nm, d', hc, hf, hsh, hg, hno, htk, hpm, hnorm, hnm, hpre, hacc, hd', hm⟩ := makeCircuit_ok hv hs hN
  rw [hd] at hm
  obtain rfl : d = d' := Except.ok.inj hm
  by_cases hst : lay.style = "EM3_v2"
  · obtain ⟨c', d', D, hc', hm', hD, hlt, idle, hi, e⟩ := c33_ancilla lay hv hs hst
    rw [hc] at hc'
    obtain rfl : c = c' := Except.ok.inj hc'
    rw [hd] at hm'
    obtain rfl : d = d' := Except.ok.inj hm'
    have hsh2 : c.Shape fun r _ => 2 ≤ r := Shape.mono (fun _ _ h => h.1) hsh
    have hex : ∀ i ∈ c.ops, Expandable D i := fun i him => ⟨hlt i (Circuit.ops_flatten hsh2 him), (hno i him).1, (hg i him).mpp, fun hg' =>
      closed_nodup hv hs hN (hf ▸ Circuit.ops_flatten hsh2 him) (by rw [hg']; decide)⟩
    have h0 : SimI D [] [] := Sim.nil
    have := perStep_rel (R := fun l l' => SimI D l l' ∧ Cuts (SimI D) l l') (Cuts.nil h0 h0)
      (fun a b a' b' h1 h2 => Cuts.append SimI.append h1 h2) (Cuts.single h0 Sim.nil) (Expandable D)
      (f := fun _ ops => noisyOps (.EM3_v2 lay.noise) D ops ++ idle ops) (g := fun _ ops => ops)
      (fun _ ops ho => cuts_ops rfl ho (fun i hm => (hi ops i hm).1)) c hex c.num_qubits [] (by simp)
    rw [perStep_flatten c htk, List.nil_append, ← e, hf] at this
    intro x y e
    obtain ⟨a, b, e', h1, h2⟩ := this.2 x y e
    refine ⟨a, b, e', fun F rec F' h => ?_, fun F rec F' h => ?_⟩
    · obtain ⟨G, g, _⟩ := h1 F F rec F' (fun _ _ => rfl) h
      exact ⟨G, g⟩
    · obtain ⟨G, g, _⟩ := h2 F F rec F' (fun _ _ => rfl) h
      exact ⟨G, g⟩
  · have hnc : nm.use_correlated_parity_measurement_errors = false := by
      rcases hs.1 with h | h | h | h | h
      all_goals first
        | (exact absurd h hst)
        | (simp [noise_model, h] at hnm; subst hnm; rfl)
    have := c25_only_adds_noise nm hnc c d none hno htk hd'
    rw [hf] at this
    intro x y e
    obtain ⟨a, b, e', h1, h2⟩ := cuts_removeNoise d.flatten x y (by rw [this, e])
    exact ⟨a, b, e', fun F rec F' h => ⟨F', by rw [← h1, actions_removeNoise]; exact h⟩, fun F rec F' h => ⟨F', by rw [← h2, actions_removeNoise]; exact h⟩⟩

/-- The unrolled circuit has a cut after more than `t` results from which the circuit settles quickly. -/
theorem settles_exists (hv : lay.Valid) (hs : lay.Supported) {N : Nat} (hN : lay.sub_rounds = N) {t : Nat} (ht : t / lay.perRound + lay.glitchReach < N) :
    ∃ a b n J, lay.closedCircuit N = a ++ b ∧ lay.Settles N n J b ∧ t < n ∧ J ≤ t / lay.perRound + lay.glitchReach := by
  have hP := perRound_pos hv
  have hlt : t < (t / lay.perRound + 1) * lay.perRound := by
    have := Nat.div_add_mod t lay.perRound
    have := Nat.mod_lt t hP
    rw [Nat.add_mul, Nat.mul_comm (t / lay.perRound)]
    omega
  generalize t / lay.perRound = k at *
  have hcl : lay.closedCircuit N = lay.qubitCoordOps ++ ([.on .R lay.used_qubit_indices, .tick] ++ lay.basisChange (lay.obsAt 0).1) ++ lay.allRounds N ++ lay.epilogue N := rfl
  generalize lay.qubitCoordOps ++ ([.on .R lay.used_qubit_indices, .tick] ++ lay.basisChange (lay.obsAt 0).1) = pre at hcl
  rcases supported_style hs with ⟨hst, he⟩ | ⟨hst, he⟩ | ⟨hn1, hn2, he⟩ | ⟨hst, he⟩
  · rw [show lay.glitchReach = 6 by simp [glitchReach, hst]] at *
    obtain ⟨M, rfl⟩ : ∃ M, N = k + 1 + 2 + M + 2 := ⟨N - (k + 1 + 2 + 2), by omega⟩
    refine ⟨pre ++ (lay.sd6Start ++ (List.range (k + 1)).flatMap lay.sd6Emit), _, _, _, ?_, settles_sd6 hv hs he (by simp [isPC3, hst]) hN, hlt, by omega⟩
    rw [hcl, allRounds, if_pos hst, sd6All, if_neg (by omega), show k + 1 + 2 + M + 2 - 2 = k + 1 + (2 + M) by omega, range_split]
    simp only [List.append_assoc]
  · rw [show lay.glitchReach = 8 by simp [glitchReach, hst]] at *
    obtain ⟨M, rfl⟩ : ∃ M, N = k + 2 + 3 + M + 1 := ⟨N - (k + 2 + 3 + 1), by omega⟩
    refine ⟨pre ++ (List.range (k + 2 + 1)).flatMap (lay.pc3Emit (k + 2 + 3 + M + 1)), _, _, _, ?_,
      settles_pc3 hv hs he (by simp [isPC3, hst]) (by omega) hN, hlt, by omega⟩
    rw [hcl, allRounds, if_neg (by rw [hst]; decide), if_pos hst, pc3All, show k + 2 + 3 + M + 1 + 2 = k + 2 + 3 + M + 1 + 1 + 1 by omega,
      range_succ_flatMap, range_succ_flatMap, show List.range (k + 2 + 3 + M + 1) = List.range (k + 2 + 1 + (3 + M)) by congr 1; omega,
      range_split]
    simp only [List.append_assoc]
  · rw [show lay.glitchReach = 4 by rw [glitchReach, if_pos (by simpa [isEM3] using he)]] at *
    obtain ⟨M, rfl⟩ : ∃ M, N = k + 1 + M := ⟨N - (k + 1), by omega⟩
    refine ⟨pre ++ (List.range (k + 1)).flatMap lay.em3Emit, _, _, _, ?_, settles_em3 hv hs he (by simp [isPC3, hn2]) hN, hlt, by omega⟩
    rw [hcl, allRounds, if_neg hn1, if_neg hn2, if_pos he, em3All, range_split]
    simp only [List.append_assoc]
  · have h3 := hs.2.2.2 hst
    rw [show lay.glitchReach = 6 by simp [glitchReach, hst]] at *
    obtain ⟨M, rfl⟩ : ∃ M, N = 3 * (k / 3 + 1 + M) := ⟨N / 3 - (k / 3 + 1), by omega⟩
    refine ⟨pre ++ (List.range (k / 3 + 1)).flatMap lay.si1000Emit, _, _, _, ?_, settles_si hv hs he (by simp [isPC3, hst]) (by omega) hN, ?_, by omega⟩
    · rw [hcl, allRounds, if_neg (by rw [hst]; decide), if_neg (by rw [hst]; decide), if_neg (by simp [he]), si1000All,
        show 3 * (k / 3 + 1 + M) / 3 = k / 3 + 1 + M by omega, range_split]
      simp only [List.append_assoc]
    · exact lt_of_lt_of_le hlt (Nat.mul_le_mul_right _ (by omega))

end HoneycombLayout
end Honeycomb
