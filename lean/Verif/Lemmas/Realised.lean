import Verif.Lemmas.Realise
import Verif.Lemmas.FaultyNoise
import Verif.Lemmas.Attained

/-! # The circuit around an elementary fault -/

namespace Honeycomb
namespace HoneycombLayout
variable {lay : HoneycombLayout} {F F' : Frame} {rec : List (ZMod 2)} {N : Nat}

theorem closed_parts : lay.closedCircuit N = lay.prologue ++ (lay.allRounds N ++ lay.epilogue N) := by
  rw [closed_split, mainPart, epilogue]

/-- The instruction list ends with a `TICK`. -/
def Ticked (l : List Instr) : Prop := ∃ l', l = l' ++ [.tick]

theorem prologue_ticked : Ticked lay.prologue := by
  rw [prologue, basisChange]
  split_ifs
  · exact ⟨lay.qubitCoordOps ++ [.on .R lay.used_qubit_indices, .tick, .on (toZGate (lay.obsAt 0).1) lay.data_qubit_indices], by simp⟩
  · exact ⟨lay.qubitCoordOps ++ [.on .R lay.used_qubit_indices], by simp⟩

theorem em3_ticked (j : Nat) : Ticked (lay.prologue ++ (List.range j).flatMap lay.em3Emit) := by
  cases j with
  | zero => simpa using prologue_ticked
  | succ j =>
    rw [range_succ_flatMap, em3Emit]
    exact ⟨_, by rw [← List.append_assoc, ← List.append_assoc]⟩

/-- Every elementary fault enters somewhere. -/
theorem realise (hv : lay.Valid) (hs : lay.Supported) (hN : lay.sub_rounds = N) {x : Nat × Pt × Pauli} (hx : lay.Elem N x) :
    ∃ a b j P P', lay.closedCircuit N = a ++ b ∧ (lay.style = "EM3_v2" → Ticked a) ∧ lay.Enters N j x.2.1 P P' b ∧
      ∀ ψ, lay.Meter N ψ → ψ (oneFault j x.2.1 P) = ψ (oneFault x.1 x.2.1 x.2.2) := by
  obtain ⟨j, q, P⟩ := x
  obtain ⟨hq, hx⟩ := hx
  simp only at hq hx ⊢
  rcases Nat.eq_zero_or_pos j with rfl | h0
  · exact ⟨_, _, 0, P, _, closed_parts, fun _ => prologue_ticked, enters_start hv hs hN hq P, fun _ _ => rfl⟩
  obtain ⟨hj, rfl⟩ : j ≤ N ∧ P = (Basis.ofIdx j).pauli := by
    rcases hx with h | h
    · exact h
    · omega
  have hend : lay.closedCircuit N = (lay.prologue ++ lay.allRounds N) ++ lay.epilogue N := by rw [closed_parts, List.append_assoc]
  by_cases hst : lay.style = "EM3" ∨ lay.style = "EM3_v2"
  · have hE : lay.isEM3 = true := by rcases hst with h | h <;> simp [isEM3, h]
    have hp : lay.isPC3 = false := by rcases hst with h | h <;> simp [isPC3, h]
    have ha : lay.allRounds N = lay.em3All N := by rcases hst with h | h <;> simp [allRounds, h, hE]
    obtain ⟨M, rfl⟩ := Nat.exists_eq_add_of_le hj
    refine ⟨lay.prologue ++ (List.range j).flatMap lay.em3Emit, _, j, _, _, ?_, fun _ => em3_ticked j, enters_em3 hv hE hp hq _, fun _ _ => rfl⟩
    rw [closed_parts, ha, em3All, range_split]
    simp only [List.append_assoc]
  have hn2 : ¬ lay.style = "EM3_v2" := fun h => hst (Or.inr h)
  rcases Nat.lt_or_eq_of_le hj with hlt | rfl
  swap
  · exact ⟨_, _, j, _, _, hend, fun h => absurd h hn2, enters_end hv hq _, fun _ _ => rfl⟩
  by_cases hsd : lay.style = "SD6"
  · have hE : lay.isEM3 = false := by simp [isEM3, hsd]
    have hp : lay.isPC3 = false := by simp [isPC3, hsd]
    by_cases h2 : j + 1 = N
    · subst h2
      exact ⟨_, _, j + 1, (Basis.ofIdx j).pauli, _, hend, fun h => absurd h hn2, enters_end hv hq _, fun ψ hψ => hψ.slide hv (by omega) q⟩
    obtain ⟨M, rfl⟩ : ∃ M, N = j + M + 2 := ⟨N - j - 2, by omega⟩
    refine ⟨lay.prologue ++ (lay.sd6Start ++ (List.range j).flatMap lay.sd6Emit), _, j, _, _, ?_, fun h => absurd h hn2, enters_sd6 hv hE hp hN hq, fun _ _ => rfl⟩
    rw [closed_parts, allRounds, if_pos hsd, sd6All, if_neg (by omega), show j + M + 2 - 2 = j + M by omega, range_split]
    simp only [List.append_assoc]
  by_cases hpc : lay.style = "PC3"
  · have hE : lay.isEM3 = false := by simp [isEM3, hpc]
    have hp : lay.isPC3 = true := by simp [isPC3, hpc]
    obtain ⟨M, rfl⟩ : ∃ M, N = j + M + 1 := ⟨N - j - 1, by omega⟩
    refine ⟨lay.prologue ++ (List.range (j + 1)).flatMap (lay.pc3Emit (j + M + 1)), _, j, _, _, ?_, fun h => absurd h hn2, enters_pc3 (M := M) hv hE hp hq, fun _ _ => rfl⟩
    rw [closed_parts, allRounds, if_neg hsd, if_pos hpc, pc3All, show j + M + 1 + 2 = (j + 1 + M) + 1 + 1 by omega, range_succ_flatMap, range_succ_flatMap, range_split,
      show j + 1 + M = j + M + 1 by omega]
    simp only [List.append_assoc]
  have hsi : lay.style = "SI1000" := by
    rcases hs.1 with h | h | h | h | h
    all_goals first
      | exact h
      | (exact absurd h hsd)
      | (exact absurd h hpc)
      | (exact absurd (Or.inl h) hst)
      | (exact absurd (Or.inr h) hst)
  have hE : lay.isEM3 = false := by simp [isEM3, hsi]
  have hp : lay.isPC3 = false := by simp [isPC3, hsi]
  have ha : lay.allRounds N = lay.si1000All N := by simp [allRounds, hsi, hE]
  have h3 : 3 ∣ N := by
    have := hs.2.2.2 hsi
    omega
  obtain ⟨K, rfl⟩ := h3
  have hdiv : 3 * K / 3 = K := by omega
  obtain ⟨k, hk⟩ : ∃ k, j = 3 * k ∨ j = 3 * k + 1 ∨ j = 3 * k + 2 := ⟨j / 3, by omega⟩
  rcases hk with rfl | rfl | rfl
  · obtain ⟨M, rfl⟩ : ∃ M, K = k + M := ⟨K - k, by omega⟩
    refine ⟨lay.prologue ++ (List.range k).flatMap lay.si1000Emit, _, 3 * k, _, _, ?_, fun h => absurd h hn2, enters_si hv hE hp (by omega) hq _, fun _ _ => rfl⟩
    rw [closed_parts, ha, si1000All, hdiv, range_split]
    simp only [List.append_assoc]
  · obtain ⟨M, rfl⟩ : ∃ M, K = k + 1 + M := ⟨K - k - 1, by omega⟩
    refine ⟨lay.prologue ++ ((List.range k).flatMap lay.si1000Emit ++ lay.siPre k), _, 3 * k + 1, (Basis.ofIdx 1).pauli, _, ?_, fun h => absurd h hn2,
      enters_si_mid hv hE hp hq, fun _ _ => by rw [show Basis.ofIdx ((3 * k + 1 : Nat) : Int) = Basis.ofIdx 1 from ofIdx_congr (by omega)]⟩
    rw [closed_parts, ha, si1000All, hdiv, range_split, range_succ_flatMap, si_split]
    simp only [List.append_assoc]
  · obtain ⟨M, rfl⟩ : ∃ M, K = k + 1 + M := ⟨K - k - 1, by omega⟩
    refine ⟨lay.prologue ++ (List.range (k + 1)).flatMap lay.si1000Emit, _, 3 * (k + 1), (Basis.ofIdx ((3 * k + 2 : Nat) : Int)).pauli, _, ?_, fun h => absurd h hn2,
      enters_si hv hE hp (by omega) hq _, fun ψ hψ => hψ.slide hv (by omega) q⟩
    rw [closed_parts, ha, si1000All, hdiv, range_split]
    simp only [List.append_assoc]

end HoneycombLayout

/-! ## The generated circuit around a fault -/

/-- Like `perStep_rel`, for what holds of the instructions other than `TICK`. -/
theorem perStep_rel' {R : List Instr → List Instr → Prop} (h0 : R [] []) (ha : ∀ a b a' b', R a a' → R b b' → R (a ++ b) (a' ++ b'))
    (ht : R [.tick] [.tick]) {f g : Nat → List Instr → List Instr} (P : Instr → Prop)
    (hfg : ∀ a ops, (∀ i ∈ ops, i.gate ≠ .TICK ∧ P i) → R (f a ops) (g a ops)) (c : Circuit) :
    (∀ i ∈ c.ops, P i) → ∀ (a : Nat) (acc : List Instr), (∀ i ∈ acc, i.gate ≠ .TICK ∧ P i) → R (perStep f c a acc) (perStep g c a acc) := by
  induction c with
  | nil => intro _ a acc hacc; exact hfg a acc hacc
  | op i c ih =>
    intro hP a acc hacc
    have hP' : ∀ j ∈ c.ops, P j := fun j hj => hP j (by simp [Circuit.ops, hj])
    by_cases hi : i.gate = .TICK
    · rw [perStep, if_pos hi, perStep, if_pos hi]
      exact ha _ _ _ _ (ha _ _ _ _ (hfg a acc hacc) ht) (ih hP' a [] (by simp))
    · rw [perStep, if_neg hi, perStep, if_neg hi]
      refine ih hP' a _ ?_
      intro j hj
      rcases List.mem_append.1 hj with hj | hj
      · exact hacc j hj
      · rw [List.mem_singleton] at hj
        subst hj
        exact ⟨hi, hP j (by simp [Circuit.ops])⟩
  | rep n b c ihb ihc =>
    intro hP a acc hacc
    have hrep : ∀ (n : Nat) (l l' : List Instr), R l l' → R (List.replicate n l).flatten (List.replicate n l').flatten := by
      intro n l l' h
      induction n with
      | zero => exact h0
      | succ n ih => exact ha _ _ _ _ h ih
    rw [perStep, perStep]
    exact ha _ _ _ _ (ha _ _ _ _ (hfg a acc hacc) (hrep _ _ _ (ihb (fun j hj => hP j (by simp [Circuit.ops, hj])) _ [] (by simp))))
      (ihc (fun j hj => hP j (by simp [Circuit.ops, hj])) a [] (by simp))

/-- `l` acts like `l'`, also from any `TICK` on. -/
def SimT (S : Nat → Prop) (D : Nat) (l l' : List Instr) : Prop :=
  SimF S D l l' ∧ ∀ a b, l' = a ++ [.tick] ++ b → ∃ A B, l = A ++ B ∧ SimF S D B b

theorem SimT.append {S : Nat → Prop} {D : Nat} {x y x' y' : List Instr} (h1 : SimT S D x x') (h2 : SimT S D y y') : SimT S D (x ++ y) (x' ++ y') := by
  refine ⟨h1.1.append h2.1, fun a b e => ?_⟩
  rcases List.append_eq_append_iff.1 e with ⟨c, e1, e2⟩ | ⟨c, e1, e2⟩
  · -- the tick may be in either part
    rcases List.eq_nil_or_concat c with rfl | ⟨c', t, rfl⟩
    · rw [List.append_nil] at e1
      rw [List.nil_append] at e2
      subst e2
      exact ⟨x, y, rfl, h2.1⟩
    · have : a = x' ++ c' ∧ [Instr.tick] = [t] := by
        rw [List.concat_eq_append, ← List.append_assoc] at e1
        exact List.append_inj' e1 rfl
      obtain ⟨A, B, rfl, h⟩ := h2.2 c' b (by rw [e2, this.2, List.concat_eq_append])
      exact ⟨x ++ A, B, by rw [List.append_assoc], h⟩
  · obtain ⟨A, B, rfl, h⟩ := h1.2 a c e1
    exact ⟨A, B ++ y, by rw [List.append_assoc], by rw [e2]; exact h.append h2.1⟩

namespace HoneycombLayout
variable {lay : HoneycombLayout} {F F' : Frame} {rec : List (ZMod 2)} {N : Nat}

/-- The generated circuit can be cut where the noiseless one can. -/
theorem cut_generated (hv : lay.Valid) (hs : lay.Supported) (hN : lay.sub_rounds = N) {d : Circuit} (hd : lay.makeCircuit = .ok d) {a b : List Instr}
    (hab : lay.closedCircuit N = a ++ b) (ht : lay.style = "EM3_v2" → Ticked a) :
    ∃ A B, d.flatten = A ++ B ∧ ∀ F rec F', Runs F (actions B) rec F' → ∃ G, Runs F (actions b) rec G := by
  obtain ⟨c, nm, d', hc, hf, hsh, hg, hno, htk, hpm, hnorm, hnm, hpre, hacc, hd', hm⟩ := makeCircuit_ok hv hs hN
  rw [hd] at hm
  obtain rfl : d = d' := Except.ok.inj hm
  by_cases hst : lay.style = "EM3_v2"
  · obtain ⟨c', d', D, hc', hm', hD, hlt, idle, hi, e⟩ := c33_ancilla lay hv hs hst
    rw [hc] at hc'
    obtain rfl : c = c' := Except.ok.inj hc'
    rw [hd] at hm'
    obtain rfl : d = d' := Except.ok.inj hm'
    have hsh2 : c.Shape fun r _ => 2 ≤ r := Shape.mono (fun _ _ h => h.1) hsh
    have hex : ∀ i ∈ c.ops, Expandable D i := fun i him => ⟨hlt i (Circuit.ops_flatten hsh2 him), (hno i him).1, (hg i him).mpp, fun hg' =>
      closed_nodup hv hs hN (hf ▸ Circuit.ops_flatten hsh2 him) (by rw [hg']; decide)⟩
    have := perStep_rel' (R := SimT (fun _ => False) D) ⟨.nil, fun a b e => absurd e (by simp)⟩
      (fun a b a' b' h1 h2 => h1.append h2) ⟨.sim (by simp [Once]) .nil, fun a b e => by
        refine ⟨[.tick], [], rfl, ?_⟩
        have : b = [] := by
          have := congrArg List.length e
          simp at this
          exact List.length_eq_zero_iff.1 (by omega)
        rw [this]
        exact .nil⟩ (Expandable D)
      (f := fun _ ops => noisyOps (.EM3_v2 lay.noise) D ops ++ idle ops) (g := fun _ ops => ops)
      (fun _ ops ho => ⟨simF_ops rfl (fun h => h) (fun i hm => (ho i hm).2) (fun i hm => (hi ops i hm).1), fun a b e =>
        absurd rfl (ho .tick (by rw [e]; simp)).1⟩) c hex c.num_qubits [] (by simp)
    rw [perStep_flatten c htk, List.nil_append, ← e, hf] at this
    obtain ⟨a', rfl⟩ := ht hst
    obtain ⟨A, B, e, h⟩ := this.2 a' b hab
    refine ⟨A, B, e, fun F rec F' hr => ?_⟩
    obtain ⟨G, h1, _⟩ := h F F rec F' 0 (fun _ _ => rfl) (runs_to_faulty hr)
    exact ⟨G, faulty_none (fun _ h => h) h1⟩
  · have hnc : nm.use_correlated_parity_measurement_errors = false := by
      rcases hs.1 with h | h | h | h | h
      all_goals first
        | (exact absurd h hst)
        | (simp [noise_model, h] at hnm; subst hnm; rfl)
    have := c25_only_adds_noise nm hnc c d none hno htk hd'
    rw [hf, hab, removeNoise] at this
    obtain ⟨l1, l2, e, e1, e2⟩ := List.map_eq_append_iff.1 this
    obtain ⟨A, B, e', e3, e4⟩ := List.filter_eq_append_iff.1 e
    refine ⟨A, B, e', fun F rec F' hr => ⟨F', ?_⟩⟩
    have := (runs_to_faulty (S := fun _ => False) hr).removeNoise
    rw [removeNoise, e4, e2] at this
    exact faulty_none (fun _ h => h) this

end HoneycombLayout

/-- Without errors nothing is flipped. -/
theorem runs_quiet (l : List Instr) : ∃ n, Runs (fun _ => 0) (actions l) (List.replicate n 0) (fun _ => 0) := by
  have base : ∀ as : List Action, (∀ f q, .clifford1 f q ∈ as → f 0 = 0) → ∃ n, Runs (fun _ => 0) as (List.replicate n 0) (fun _ => 0) := by
    intro as
    induction as with
    | nil => exact fun _ => ⟨0, .nil _⟩
    | cons a as ih =>
      intro h
      obtain ⟨n, hr⟩ := ih fun f q hm => h f q (List.mem_cons_of_mem _ hm)
      cases a with
      | clifford1 f q => exact ⟨n, .clifford1 f q (by rw [h f q List.mem_cons_self, set_none rfl]; exact hr)⟩
      | control P Q a b => exact ⟨n, .control P Q a b (by rw [anti_zero_left, anti_zero_left, kick_none, kick_none]; exact hr)⟩
      | reset b q => exact ⟨n, .reset b q 0 (by rw [kick_none, set_none rfl]; exact hr)⟩
      | measure P =>
        have e : Frame.flips (fun _ => 0) P = 0 := by
          rw [Frame.flips]
          refine List.sum_eq_zero fun y hy => ?_
          obtain ⟨z, hz, rfl⟩ := List.mem_map.1 hy
          rw [anti_zero_left]
        have := Runs.measure P 0 (by rw [kick_none]; exact hr)
        rw [e] at this
        exact ⟨n + 1, this⟩
  refine base _ fun f q hm => ?_
  obtain ⟨i, _, hi⟩ := List.mem_flatMap.1 hm
  rcases i with ⟨g, ts, as⟩
  cases g
  all_goals simp [Instr.actions] at hi
  all_goals (obtain ⟨_, _, rfl, _⟩ := hi; decide)

namespace HoneycombLayout
variable {lay : HoneycombLayout} {F F' : Frame} {rec : List (ZMod 2)} {N : Nat}

/-- A single fault of the generated circuit causes a given elementary fault. -/
theorem caused (hv : lay.Valid) (hs : lay.Supported) (hN : lay.sub_rounds = N) {d : Circuit} (hd : lay.makeCircuit = .ok d) {x : Nat × Pt × Pauli} (hx : lay.Elem N x)
    {S : Nat → Prop} (hS : S (lay.idx x.2.1)) :
    ∃ rec Fs, CanRecordWith S 1 d.flatten rec ∧ rec.length = lay.total N ∧ lay.Recorded N Fs (recAt rec) ∧
      ∀ ψ, lay.Meter N ψ → ψ Fs = ψ (oneFault x.1 x.2.1 x.2.2) := by
  obtain ⟨a, b, j, P, P', hab, ht, ⟨n, hen⟩, hψ⟩ := realise hv hs hN hx
  obtain ⟨A, B, e, hB⟩ := cut_generated hv hs hN hd hab ht
  obtain ⟨m, hA⟩ := runs_quiet A
  obtain ⟨r, F', hr⟩ := runs_exists (Frame.mul (fun _ => 0) (lay.idx x.2.1) P') (actions B)
  obtain ⟨G, hb⟩ := hB _ _ _ hr
  obtain ⟨Fs, h1, h2, h3⟩ := hen r G hb
  have hrun : ∀ T : Nat → Prop, T (lay.idx x.2.1) → FaultyRuns T (fun _ => 0) d.flatten (List.replicate m 0 ++ r) F' (0 + (0 + 1)) := fun T hT => by
    rw [e]
    exact (runs_to_faulty hA).join (.fault _ P' hT (runs_to_faulty hr))
  have hl : (List.replicate m (0 : ZMod 2) ++ r).length = lay.total N := by
    obtain ⟨G, hG⟩ := noisy_frun hv hs hN hd (B := fun p => p = x.2.1) (hrun (lay.IsIn fun p => p = x.2.1) ⟨_, hx.1, rfl, rfl⟩)
    obtain ⟨_, _, _, _, _, h, _⟩ := closed_frun hv hs hN hG
    exact h
  have hmn : m = n := by
    rw [List.length_append, List.length_replicate] at hl
    omega
  subst hmn
  exact ⟨_, Fs, ⟨_, _, fun _ => rfl, hrun S hS⟩, hl, h2, fun ψ hm => by rw [hm.one hv h1, hψ ψ hm]⟩

end HoneycombLayout
end Honeycomb
