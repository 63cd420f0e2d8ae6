import Verif.Lemmas.FrameNoise
import Verif.Lemmas.Absorb
import Verif.Spec.Damage
import Mathlib.Data.List.Sort

/-!
# Idle noise on qubits that a circuit never uses
-/

namespace Honeycomb

theorem mppGroups_qubits {ts : List Target} : ∀ P ∈ mppGroups ts, ∀ x ∈ P, x.2 ∈ ts.filterMap Target.qubit? := by
  induction ts using mppGroups.induct with
  | case1 => simp [mppGroups]
  | case2 b i l g gs hg ih =>
    intro P hP x hx
    rw [mppGroups, hg] at hP
    rcases List.mem_cons.1 hP with rfl | hP
    · rcases List.mem_cons.1 hx with rfl | hx
      · simp [Target.qubit?]
      · have := ih g (by rw [hg]; simp) x hx
        simp only [List.filterMap_cons, Target.qubit?]
        exact List.mem_cons_of_mem _ this
    · have := ih P (by rw [hg]; simp [hP]) x hx
      simp only [List.filterMap_cons, Target.qubit?]
      exact List.mem_cons_of_mem _ this
  | case3 b i l hg ih =>
    intro P hP x hx
    rw [mppGroups, hg] at hP
    rw [List.mem_singleton.1 hP, List.mem_singleton] at hx
    subst hx
    simp [Target.qubit?]
  | case4 b i l hl ih =>
    intro P hP x hx
    rw [mppGroups] at hP
    · rcases List.mem_cons.1 hP with rfl | hP
      · rw [List.mem_singleton] at hx
        subst hx
        simp [Target.qubit?]
      · have := ih P hP x hx
        simp only [List.filterMap_cons, Target.qubit?]
        exact List.mem_cons_of_mem _ this
    · exact hl
  | case5 t l h1 h2 ih =>
    intro P hP x hx
    rw [mppGroups] at hP
    · have := ih P hP x hx
      rw [List.filterMap_cons]
      split
      · exact this
      · exact List.mem_cons_of_mem _ this
    all_goals assumption

/-- An instruction acts on its own targets only. -/
theorem actions_targets (i : Instr) : ∀ a ∈ i.actions, ∀ q ∈ a.qubits, q ∈ i.qubits := by
  intro a ha q hq
  have single : ∀ {f : Nat → Action}, (∀ q, (f q).qubits = [q]) → a ∈ i.qubits.map f → q ∈ i.qubits := by
    intro f hf hm
    obtain ⟨p, hp, rfl⟩ := List.mem_map.1 hm
    rw [hf, List.mem_singleton] at hq
    exact hq ▸ hp
  have double : ∀ {P Q : Basis}, a ∈ (pairs i.qubits).map (fun x => .control P Q x.1 x.2) → q ∈ i.qubits := by
    intro P Q hm
    obtain ⟨x, hx, rfl⟩ := List.mem_map.1 hm
    have := mem_pairs hx
    simp only [Action.qubits, List.mem_cons, List.not_mem_nil, or_false] at hq
    rcases hq with rfl | rfl
    · exact this.1
    · exact this.2
  have meas : ∀ {b : Basis}, a ∈ (i.qubits.map fun q => [(b, q)]).map Action.measure → q ∈ i.qubits := by
    intro b hm
    rw [List.map_map] at hm
    exact single (f := Action.measure ∘ fun q => [(b, q)]) (fun q => rfl) hm
  have mpp : a ∈ (mppGroups i.targets).map Action.measure → q ∈ i.qubits := by
    intro hm
    obtain ⟨P, hP, rfl⟩ := List.mem_map.1 hm
    obtain ⟨x, hx, rfl⟩ := List.mem_map.1 hq
    exact mppGroups_qubits P hP x hx
  rcases i with ⟨g, ts, as⟩
  cases g <;> simp only [Instr.actions, Instr.measures, List.not_mem_nil] at ha
  all_goals first
    | exact double ha
    | exact meas ha
    | exact mpp ha
    | exact single (fun q => rfl) ha

/-- Frames that agree on the qubits in use. -/
def AgreeOn (S : Nat → Prop) (F G : Frame) : Prop := ∀ q, S q → F q = G q

theorem runs_agree {S : Nat → Prop} {as : List Action} {F G F' : Frame} {rec : List (ZMod 2)} (h : ∀ a ∈ as, ∀ q ∈ a.qubits, S q)
    (hO : AgreeOn S F G) (hr : Runs F as rec F') : ∃ G', Runs G as rec G' ∧ AgreeOn S F' G' := by
  induction hr generalizing G with
  | nil F => exact ⟨G, .nil G, hO⟩
  | clifford1 f q _ ih =>
    have hq := h _ List.mem_cons_self q (by simp [Action.qubits])
    obtain ⟨G', k, o⟩ := ih (G := G.set q (f (G q))) (fun a ha => h a (List.mem_cons_of_mem _ ha)) fun x hx => by
      rw [set_apply, set_apply, hO q hq, hO x hx]
    exact ⟨G', .clifford1 f q k, o⟩
  | control P Q a b _ ih =>
    have ha := h _ List.mem_cons_self a (by simp [Action.qubits])
    have hb := h _ List.mem_cons_self b (by simp [Action.qubits])
    obtain ⟨G', k, o⟩ := ih (G := (G.kick (anti (G b) Q.pauli) [(P, a)]).kick (anti (G a) P.pauli) [(Q, b)])
      (fun a ha => h a (List.mem_cons_of_mem _ ha)) fun x hx => by
        rw [hO a ha, hO b hb]
        exact kick_same (kick_same (hO x hx))
    exact ⟨G', .control P Q a b k, o⟩
  | reset b q r _ ih =>
    obtain ⟨G', k, o⟩ := ih (G := (G.set q 0).kick r [(b, q)]) (fun a ha => h a (List.mem_cons_of_mem _ ha)) fun x hx =>
      kick_same (by rw [set_apply, set_apply, hO x hx])
    exact ⟨G', .reset b q r k, o⟩
  | @measure F F' rec as P r _ ih =>
    obtain ⟨G', k, o⟩ := ih (G := G.kick r P) (fun a ha => h a (List.mem_cons_of_mem _ ha)) fun x hx => kick_same (hO x hx)
    have : F.flips P = G.flips P := flips_same fun x hx =>
      hO _ (h _ List.mem_cons_self x.2 (List.mem_map.2 ⟨x, hx, rfl⟩))
    exact ⟨G', this ▸ .measure P r k, o⟩

variable (S : Nat → Prop) [DecidablePred S]

/-- The targets among the qubits in use. -/
def keepTargets (ts : List Target) : List Target := ts.filter fun t => t.qubit?.any fun q => decide (S q)

/-- One instruction without single-qubit depolarization of unused qubits. -/
def keepInstr (i : Instr) : Option Instr :=
  if i.gate = .DEPOLARIZE1 then
    if keepTargets S i.targets = [] then none else some { i with targets := keepTargets S i.targets }
  else some i

/-- A sequence without single-qubit depolarization of unused qubits. -/
def keepUsed (l : List Instr) : List Instr := l.filterMap (keepInstr S)

theorem keepUsed_append (a b : List Instr) : keepUsed S (a ++ b) = keepUsed S a ++ keepUsed S b := List.filterMap_append

variable {S}

theorem mem_keepTargets {ts : List Target} {q : Nat} :
    q ∈ (keepTargets S ts).filterMap Target.qubit? ↔ q ∈ ts.filterMap Target.qubit? ∧ S q := by
  simp only [keepTargets, List.mem_filterMap, List.mem_filter]
  constructor
  · rintro ⟨t, ⟨h1, h2⟩, h3⟩
    rw [h3] at h2
    exact ⟨⟨t, h1, h3⟩, by simpa using h2⟩
  · rintro ⟨⟨t, h1, h3⟩, h2⟩
    exact ⟨t, ⟨h1, by rw [h3]; simpa using h2⟩, h3⟩

theorem agree_add {F G P : Frame} (h : AgreeOn S F G) : AgreeOn S (F + P) (G + P) := fun q hq => by
  rw [Pi.add_apply, Pi.add_apply, h q hq]

/-- Sampling does not need errors on unused qubits. -/
theorem noisyRuns_keep {l : List Instr} {F G F' : Frame} {rec : List (ZMod 2)} {n : Nat}
    (h : ∀ i ∈ l, i.gate ≠ .DEPOLARIZE1 → ∀ q ∈ i.qubits, S q) (hO : AgreeOn S F G) (hr : NoisyRuns F l rec F' n) :
    ∃ m G', m ≤ n ∧ NoisyRuns G (keepUsed S l) rec G' m := by
  induction hr generalizing G with
  | nil F => exact ⟨0, G, le_rfl, .nil G⟩
  | @step F F1 F' i l r1 r2 n h1 h2 ih =>
    have hl : ∀ i ∈ l, i.gate ≠ .DEPOLARIZE1 → ∀ q ∈ i.qubits, S q := fun j hj => h j (List.mem_cons_of_mem _ hj)
    by_cases hg : i.gate = .DEPOLARIZE1
    · have ha : i.actions = [] := by simp [Instr.actions, hg]
      rw [ha] at h1
      cases h1
      obtain ⟨m, G', hm, k⟩ := ih hl hO
      refine ⟨m, G', hm, ?_⟩
      rw [keepUsed, List.filterMap_cons, keepInstr, if_pos hg]
      split_ifs
      · exact k
      · exact .step (by simp only [Instr.actions, hg]; exact .nil G) k
    · obtain ⟨G1, k1, o1⟩ := runs_agree (fun a ha q hq => h i List.mem_cons_self hg q (actions_targets i a ha q hq)) hO h1
      obtain ⟨m, G', hm, k⟩ := ih hl o1
      refine ⟨m, G', hm, ?_⟩
      rw [keepUsed, List.filterMap_cons, keepInstr, if_neg hg]
      exact .step k1 k
  | @error F F' i l rec n P hP h2 ih =>
    by_cases hg : i.gate = .DEPOLARIZE1
    · have hd := hP
      simp only [Instr.Draws, hg] at hd
      obtain ⟨hpos, q, hq, b, rfl⟩ := hd
      by_cases hS : S q
      · obtain ⟨m, G', hm, k⟩ := ih h (agree_add hO (P := Frame.mul (fun _ => 0) q b.pauli))
        refine ⟨m + 1, G', Nat.succ_le_succ hm, ?_⟩
        have hmem : q ∈ (keepTargets S i.targets).filterMap Target.qubit? := mem_keepTargets.2 ⟨hq, hS⟩
        have hne : keepTargets S i.targets ≠ [] := fun e => by rw [e] at hmem; simp at hmem
        rw [keepUsed, List.filterMap_cons, keepInstr, if_pos hg, if_neg hne] at k ⊢
        refine .error _ ?_ k
        simp only [Instr.Draws, hg]
        exact ⟨hpos, q, hmem, b, rfl⟩
      · obtain ⟨m, G', hm, k⟩ := ih (G := G) h fun x hx => by
          have hne : x ≠ q := fun e => hS (e ▸ hx)
          rw [Pi.add_apply, Frame.mul, if_neg hne, add_zero, hO x hx]
        exact ⟨m, G', Nat.le_succ_of_le hm, k⟩
    · obtain ⟨m, G', hm, k⟩ := ih h (agree_add hO (P := P))
      refine ⟨m + 1, G', Nat.succ_le_succ hm, ?_⟩
      rw [keepUsed, List.filterMap_cons, keepInstr, if_neg hg] at k ⊢
      exact .error P hP k
  | @flip F F' i l rec n t hp ht h2 ih =>
    by_cases hg : i.gate = .DEPOLARIZE1
    · simp [Instr.measures, hg] at ht
    · obtain ⟨m, G', hm, k⟩ := ih h hO
      refine ⟨m + 1, G', Nat.succ_le_succ hm, ?_⟩
      rw [keepUsed, List.filterMap_cons, keepInstr, if_neg hg] at k ⊢
      exact .flip t hp ht k

/-- Replace the first instruction by one that can do more, and the rest likewise. -/
theorem noisyRuns_head {i j : Instr} {l1 l2 : List Instr} {F F' : Frame} {rec : List (ZMod 2)} {n : Nat}
    (ha : j.actions = i.actions) (hm : j.measures = i.measures) (hargs : j.args = i.args) (hd : ∀ P, i.Draws P → j.Draws P)
    (hl : ∀ F1 r n, NoisyRuns F1 l1 r F' n → NoisyRuns F1 l2 r F' n) (hr : NoisyRuns F (i :: l1) rec F' n) :
    NoisyRuns F (j :: l2) rec F' n := by
  generalize hL : i :: l1 = L at hr
  induction hr with
  | nil F => cases hL
  | step h1 h2 _ =>
    cases hL
    exact .step (ha ▸ h1) (hl _ _ _ h2)
  | error P hP _ ih =>
    cases hL
    exact .error P (hd P hP) (ih hl rfl)
  | flip t hp ht _ ih =>
    cases hL
    exact .flip t (hargs ▸ hp) (hm ▸ ht) (ih hl rfl)

theorem noisyRuns_unkeep {l : List Instr} {F F' : Frame} {rec : List (ZMod 2)} {n : Nat} (hr : NoisyRuns F (keepUsed S l) rec F' n) :
    NoisyRuns F l rec F' n := by
  induction l generalizing F rec n with
  | nil => exact hr
  | cons i l ih =>
    rw [keepUsed, List.filterMap_cons, keepInstr] at hr
    by_cases hg : i.gate = .DEPOLARIZE1
    · rw [if_pos hg] at hr
      by_cases hk : keepTargets S i.targets = []
      · rw [if_pos hk] at hr
        have : NoisyRuns F (i :: l) ([] ++ rec) F' n := .step (by simp only [Instr.actions, hg]; exact .nil F) (ih hr)
        exact this
      · rw [if_neg hk] at hr
        refine noisyRuns_head (i := { i with targets := keepTargets S i.targets }) (l1 := keepUsed S l) ?_ ?_ rfl ?_ (fun _ _ _ h => ih h) hr
        · simp [Instr.actions, hg]
        · simp [Instr.measures, hg]
        · intro P hP
          simp only [Instr.Draws, hg] at hP ⊢
          obtain ⟨h1, q, hq, b, e⟩ := hP
          exact ⟨h1, q, (mem_keepTargets.1 hq).1, b, e⟩
    · rw [if_neg hg] at hr
      exact noisyRuns_head rfl rfl rfl (fun _ h => h) (fun _ _ _ h => ih h) hr

/-- Sequences that differ in depolarization of unused qubits only. -/
theorem canSample_keep {l l' : List Instr} {rec : List (ZMod 2)} {n : Nat} (h : ∀ i ∈ l, i.gate ≠ .DEPOLARIZE1 → ∀ q ∈ i.qubits, S q)
    (e : keepUsed S l = keepUsed S l') (hr : CanSample n l rec) : ∃ m, m ≤ n ∧ CanSample m l' rec := by
  obtain ⟨F, F', h0, hr⟩ := hr
  obtain ⟨m, G', hm, k⟩ := noisyRuns_keep h (fun _ _ => rfl) hr
  exact ⟨m, hm, F, G', h0, noisyRuns_unkeep (S := S) (e ▸ k)⟩

theorem sort_keep (A B : Finset Nat) (h : ∀ q, S q → (q ∈ A ↔ q ∈ B)) :
    keepTargets S ((A.sort (· ≤ ·)).map .q) = keepTargets S ((B.sort (· ≤ ·)).map .q) := by
  have key : ∀ A : Finset Nat, keepTargets S ((A.sort (· ≤ ·)).map .q) = ((A.filter S).sort (· ≤ ·)).map .q := by
    intro A
    rw [keepTargets, List.filter_map]
    congr 1
    refine List.Perm.eq_of_pairwise' (r := (· ≤ ·)) ((Finset.pairwise_sort A (· ≤ ·)).filter _) (Finset.pairwise_sort _ (· ≤ ·)) ?_
    refine (List.perm_ext_iff_of_nodup ((Finset.sort_nodup A (· ≤ ·)).filter _) (Finset.sort_nodup _ (· ≤ ·))).2 fun q => ?_
    simp [Target.qubit?]
  rw [key, key]
  congr 2
  ext q
  simp only [Finset.mem_filter]
  exact ⟨fun x => ⟨(h q x.2).1 x.1, x.2⟩, fun x => ⟨(h q x.2).2 x.1, x.2⟩⟩

end Honeycomb
