import Verif.Lemmas.NoiseEvents

/-! # Adding frames; errors of noise channels as changes of the frame -/

namespace Honeycomb
variable {F F' G G' : Frame} {rec : List (ZMod 2)} {n m : Nat}

/-! ## Runs add up -/

/-- No single-qubit gates (their action in `Action` need not be linear). -/
def Plain (as : List Action) : Prop := ∀ f q, Action.clifford1 f q ∉ as

theorem mul_add_mul (F G : Frame) (q : Nat) (a b : Pauli) : (F + G).mul q (a + b) = F.mul q a + G.mul q b := by
  funext i
  simp only [Frame.mul, Pi.add_apply]
  split_ifs
  · abel
  · rfl

theorem kick_add_kick (r s : ZMod 2) (P : List (Basis × Nat)) : ∀ F G : Frame, (F + G).kick (r + s) P = F.kick r P + G.kick s P := by
  induction P with
  | nil => intro F G; rfl
  | cons x P ih =>
    intro F G
    have h : ∀ (F : Frame) (r : ZMod 2), F.kick r (x :: P) = (F.mul x.2 (r * x.1.pauli.1, r * x.1.pauli.2)).kick r P := fun _ _ => rfl
    rw [h, h, h, ← ih, ← mul_add_mul]
    congr 2
    ext <;> simp [add_mul]

theorem flips_add_flips (F G : Frame) (P : List (Basis × Nat)) : (F + G).flips P = F.flips P + G.flips P := by
  rw [Frame.flips, Frame.flips, Frame.flips, ← List.sum_map_add]
  congr 1
  exact List.map_congr_left fun x _ => by rw [Pi.add_apply, anti_add_left]

theorem set_add_set (F G : Frame) (q : Nat) (a b : Pauli) : (F + G).set q (a + b) = F.set q a + G.set q b := by
  funext i
  simp only [Frame.set, Pi.add_apply]
  split_ifs <;> rfl

/-- A run that reports no flips can be added to any run. -/
theorem Runs.add {as : List Action} {s : List (ZMod 2)} (hp : Plain as) (h : Runs F as rec F') (h' : Runs G as s G') (hs : ∀ x ∈ s, x = 0) :
    Runs (F + G) as rec (F' + G') := by
  induction h generalizing G s with
  | nil F =>
    obtain ⟨rfl, rfl⟩ := runs_nil h'
    exact .nil _
  | clifford1 f q _ _ => exact absurd List.mem_cons_self (hp f q)
  | control P Q a b _ ih =>
    cases h' with
    | control _ _ _ _ h' =>
      refine .control P Q a b ?_
      rw [Pi.add_apply, Pi.add_apply, anti_add_left, anti_add_left, kick_add_kick, kick_add_kick]
      exact ih (fun f q hm => hp f q (List.mem_cons_of_mem _ hm)) h' hs
  | reset b q r _ ih =>
    cases h' with
    | reset _ _ r' h' =>
      refine .reset b q (r + r') ?_
      have := fun X : Frame => set_add_set X G q 0 0
      simp only [add_zero] at this
      rw [this, kick_add_kick]
      exact ih (fun f q hm => hp f q (List.mem_cons_of_mem _ hm)) h' hs
  | measure P r _ ih =>
    cases h' with
    | measure _ r' h' =>
      have h0 : G.flips P = 0 := hs _ List.mem_cons_self
      have := Runs.measure P (r + r') (by
        rw [kick_add_kick]
        exact ih (fun f q hm => hp f q (List.mem_cons_of_mem _ hm)) h' fun x hx => hs x (List.mem_cons_of_mem _ hx))
      rwa [flips_add_flips, h0, add_zero] at this

theorem kick_none (F : Frame) (P : List (Basis × Nat)) : F.kick 0 P = F := by
  induction P generalizing F with
  | nil => rfl
  | cons x P ih =>
    have h : F.kick 0 (x :: P) = (F.mul x.2 (0 * x.1.pauli.1, 0 * x.1.pauli.2)).kick 0 P := rfl
    rw [h, ih]
    funext i
    simp only [Frame.mul, zero_mul]
    split_ifs
    · exact add_zero _
    · rfl

theorem set_none {F : Frame} {q : Nat} (h : F q = 0) : F.set q 0 = F := by
  funext i
  rw [Frame.set]
  split_ifs with hi
  · rw [hi, h]
  · rfl

/-- A frame that lives elsewhere stays as it is. -/
theorem runs_elsewhere {as : List Action} (hp : Plain as) (h : ∀ a ∈ as, ∀ q ∈ a.qubits, G q = 0) : ∃ s, Runs G as s G ∧ ∀ x ∈ s, x = 0 := by
  induction as with
  | nil => exact ⟨[], .nil G, by simp⟩
  | cons a as ih =>
    obtain ⟨s, hr, hs⟩ := ih (fun f q hm => hp f q (List.mem_cons_of_mem _ hm)) fun b hb => h b (List.mem_cons_of_mem _ hb)
    have h0 := h a List.mem_cons_self
    cases a with
    | clifford1 f q => exact absurd List.mem_cons_self (hp f q)
    | control P Q a b =>
      refine ⟨s, .control P Q a b ?_, hs⟩
      rw [h0 a (by simp [Action.qubits]), h0 b (by simp [Action.qubits]), anti_zero_left, anti_zero_left, kick_none, kick_none]
      exact hr
    | reset b q =>
      refine ⟨s, .reset b q 0 ?_, hs⟩
      rw [kick_none, set_none (h0 q (by simp [Action.qubits]))]
      exact hr
    | measure P =>
      refine ⟨G.flips P :: s, .measure P 0 (by rw [kick_none]; exact hr), ?_⟩
      intro x hx
      rcases List.mem_cons.1 hx with rfl | hx
      · rw [Frame.flips]
        refine List.sum_eq_zero fun y hy => ?_
        obtain ⟨z, hz, rfl⟩ := List.mem_map.1 hy
        rw [h0 z.2 (by simp only [Action.qubits]; exact List.mem_map_of_mem hz), anti_zero_left]
      · exact hs x hx

/-- A frame that commutes with all measured operators stays as it is. -/
theorem runs_commuting {ms : List (List (Basis × Nat))} (h : ∀ P ∈ ms, G.flips P = 0) : ∃ s, Runs G (ms.map .measure) s G ∧ ∀ x ∈ s, x = 0 := by
  induction ms with
  | nil => exact ⟨[], .nil G, by simp⟩
  | cons P ms ih =>
    obtain ⟨s, hr, hs⟩ := ih fun Q hQ => h Q (List.mem_cons_of_mem _ hQ)
    refine ⟨G.flips P :: s, .measure P 0 (by rw [kick_none]; exact hr), ?_⟩
    intro x hx
    rcases List.mem_cons.1 hx with rfl | hx
    · exact h P List.mem_cons_self
    · exact hs x hx

theorem frame_add_same (F : Frame) : F + F = 0 := by
  funext i
  rw [Pi.add_apply]
  ext
  · exact zmod2_add_self _
  · exact zmod2_add_self _

theorem frame_cancel (F G : Frame) : F + G + G = F := by rw [add_assoc, frame_add_same, add_zero]

/-! ## Runs with errors -/

theorem noisy_of_runs {l : List Instr} (h : Runs F (actions l) rec F') : NoisyRuns F l rec F' 0 := by
  induction l generalizing F rec with
  | nil =>
    obtain ⟨rfl, rfl⟩ := runs_nil h
    exact .nil _
  | cons i l ih =>
    obtain ⟨r1, r2, F1, h1, h2, rfl⟩ := runs_append.1 (show Runs F (i.actions ++ actions l) rec F' from h)
    exact .step h1 (ih h2)

theorem NoisyRuns.join {a b : List Instr} {r1 r2 : List (ZMod 2)} {F1 : Frame} (h1 : NoisyRuns F a r1 F1 n) (h2 : NoisyRuns F1 b r2 F' m) :
    NoisyRuns F (a ++ b) (r1 ++ r2) F' (n + m) := by
  induction h1 with
  | nil F => rwa [List.nil_append, List.nil_append, Nat.zero_add]
  | step h _ ih =>
    rw [List.append_assoc]
    exact .step h (ih h2)
  | error P hP _ ih =>
    rw [Nat.add_right_comm]
    exact .error P hP (ih h2)
  | flip t ha ht h ih =>
    rw [Nat.add_right_comm, ← modify_append_left]
    · exact .flip t ha ht (ih h2)
    · rw [h.loose.length, measured, List.flatMap_cons, List.length_append]
      omega

/-- Errors of one channel. -/
theorem NoisyRuns.errors {i : Instr} {l : List Instr} : ∀ (Ps : List Frame) {F : Frame}, (∀ P ∈ Ps, i.Draws P) → NoisyRuns (F + Ps.sum) (i :: l) rec F' n →
    NoisyRuns F (i :: l) rec F' (n + Ps.length)
  | [], F, _, h => by simpa using h
  | P :: Ps, F, hP, h => by
    rw [List.sum_cons, ← add_assoc] at h
    exact .error P (hP P List.mem_cons_self) (NoisyRuns.errors Ps (fun Q hQ => hP Q (List.mem_cons_of_mem _ hQ)) h)

/-! ## The Pauli `b` on some qubits -/

/-- The frame with `p` on the qubits `qs`. -/
def onQubits (p : Pauli) (qs : List Nat) : Frame := fun i => if i ∈ qs then p else 0

theorem single_eq (p : Pauli) (q : Nat) : Frame.mul (fun _ => 0) q p = onQubits p [q] := by
  funext i
  simp only [Frame.mul, onQubits, List.mem_singleton, zero_add]

theorem onQubits_append {p : Pauli} {a b : List Nat} (h : ∀ q ∈ a, q ∉ b) : onQubits p (a ++ b) = onQubits p a + onQubits p b := by
  funext i
  simp only [onQubits, Pi.add_apply, List.mem_append]
  by_cases ha : i ∈ a
  · simp [ha, h i ha]
  · simp [ha]

theorem pair_eq (p : Pauli) {a b : Nat} (h : a ≠ b) : Frame.mul (Frame.mul (fun _ => 0) a p) b p = onQubits p [a, b] := by
  funext i
  simp only [Frame.mul, onQubits, List.mem_cons, List.not_mem_nil, or_false]
  by_cases ha : i = a
  · subst ha
    simp [h]
  · by_cases hb : i = b
    · subst hb
      simp [ha]
    · simp [ha, hb]

theorem onQubits_flatMap {α : Type} (p : Pauli) (f : α → List Nat) : ∀ l : List α, (l.flatMap f).Nodup →
    onQubits p (l.flatMap f) = (l.map fun x => onQubits p (f x)).sum
  | [], _ => by
    funext i
    simp [onQubits]
  | x :: l, h => by
    rw [List.flatMap_cons] at h ⊢
    obtain ⟨_, h2, h3⟩ := List.nodup_append.1 h
    rw [onQubits_append (fun q hq hq' => h3 q hq q hq' rfl), List.map_cons, List.sum_cons, onQubits_flatMap p f l h2]

/-! ## An error inside the expanded parity measurement -/

theorem control_spread {H : Frame} {b : Basis} {q a : Nat} (ha : anti (H a) Basis.X.pauli = 0) :
    (H.kick (anti (H a) Basis.X.pauli) [(b, q)]).kick (anti (H q) b.pauli) [(.X, a)] =
      H.mul a (anti (H q) b.pauli * Basis.X.pauli.1, anti (H q) b.pauli * Basis.X.pauli.2) := by
  rw [ha, kick_none]
  rfl

/-- A pair of equal Paulis passes the reset and the two controlled gates. -/
theorem pair_passes {b : Basis} {p : Pauli} {q1 q2 a : Nat} (h1 : q1 ≠ a) (h2 : q2 ≠ a) :
    Runs (onQubits p [q1, q2]) [.reset .Z a, .control b .X q1 a, .control b .X q2 a] [] (onQubits p [q1, q2]) := by
  have e1 : onQubits p [q1, q2] q1 = p := by simp [onQubits]
  have e2 : onQubits p [q1, q2] q2 = p := by simp [onQubits]
  have ea : onQubits p [q1, q2] a = 0 := by simp [onQubits, Ne.symm h1, Ne.symm h2]
  refine .reset .Z a 0 (.control b .X q1 a (.control b .X q2 a ?_))
  rw [kick_none, set_none ea, control_spread (H := onQubits p [q1, q2]) (by rw [ea, anti_zero_left]), e1]
  rw [control_spread]
  · have : Frame.mul (onQubits p [q1, q2]) a (anti p b.pauli * Basis.X.pauli.1, anti p b.pauli * Basis.X.pauli.2) q2 = p := by
      rw [Frame.mul, if_neg h2, e2]
    rw [this]
    convert Runs.nil (onQubits p [q1, q2]) using 1
    funext i
    simp only [Frame.mul]
    split_ifs
    · rw [add_assoc]
      have : ∀ x : Pauli, x + x = 0 := fun x => by ext <;> exact zmod2_add_self _
      rw [this, add_zero]
    · rfl
  · rw [Frame.mul, if_pos rfl, ea, zero_add]
    simp [anti, Basis.pauli]

theorem plain_gadget {b1 b2 : Basis} {q1 q2 a : Nat} {p : Rat} : Plain (actions (parityMeasurementWithCorrelatedNoise b1 q1 b2 q2 a p)) := by
  intro f q hm
  rw [actions_gadget] at hm
  simp at hm

theorem gadget_error {b c : Basis} {q1 q2 a : Nat} {p : Rat} (hp : 0 < p) (h1 : q1 ≠ a) (h2 : q2 ≠ a) (h12 : q1 ≠ q2)
    (h : Runs (F + onQubits c.pauli [q1, q2]) (actions (parityMeasurementWithCorrelatedNoise b q1 b q2 a p)) rec F') :
    NoisyRuns F (parityMeasurementWithCorrelatedNoise b q1 b q2 a p) rec F' 1 := by
  have hmem : [Target.pauli c q1, Target.pauli c q2] ∈ correlatedErrors q1 q2 a := by
    simp only [correlatedErrors, List.mem_filter, List.mem_flatMap, List.mem_map]
    refine ⟨⟨some (.pauli c q1), by cases c <;> simp [pauliOptions], some (.pauli c q2), by cases c <;> simp [pauliOptions], none, by simp, rfl⟩, by simp⟩
  obtain ⟨e1, e2, he⟩ := List.append_of_mem hmem
  have hx : parityMeasurementWithCorrelatedNoise b q1 b q2 a p =
      ([.on .R [a], parityCX b q1 a, parityCX b q2 a] ++ e1.map (fun e => { gate := .E, targets := e, args := [.indep p 5] })) ++
        ({ gate := .E, targets := [.pauli c q1, .pauli c q2], args := [.indep p 5] } ::
          (e2.map (fun e => { gate := .E, targets := e, args := [.indep p 5] }) ++ [.on .M [a]])) := by
    rw [parityMeasurementWithCorrelatedNoise, he]
    simp
  have hE : ∀ l : List (List Target), actions (l.map fun e => ({ gate := .E, targets := e, args := [.indep p 5] } : Instr)) = [] := by
    intro l
    induction l with
    | nil => rfl
    | cons e l ih => rw [List.map_cons, actions, List.flatMap_cons, ← actions, ih]; rfl
  have hA : actions ([.on .R [a], parityCX b q1 a, parityCX b q2 a] ++ e1.map (fun e => ({ gate := .E, targets := e, args := [.indep p 5] } : Instr))) =
      [.reset .Z a, .control b .X q1 a, .control b .X q2 a] := by
    rw [actions_append, hE, List.append_nil,
      show ([.on .R [a], parityCX b q1 a, parityCX b q2 a] : List Instr) = [.on .R [a]] ++ [parityCX b q1 a] ++ [parityCX b q2 a] from rfl,
      actions_append, actions_append, actions_parityCX, actions_parityCX]
    rfl
  rw [hx, actions_append, hA] at h
  rw [hx]
  obtain ⟨r1, r2, F1, g1, g2, rfl⟩ := runs_append.1 h
  have g3 := g1.add (by intro f q hm; simp at hm) (pair_passes (b := b) (p := c.pauli) h1 h2) (fun x hx => absurd hx List.not_mem_nil)
  rw [frame_cancel] at g3
  rw [← hA] at g3
  have := (noisy_of_runs g3).join (NoisyRuns.error (onQubits c.pauli [q1, q2]) ⟨⟨.indep p 5, List.mem_singleton_self _, hp⟩, ?_⟩ (by
    rw [frame_cancel]
    exact noisy_of_runs g2))
  · rwa [Nat.zero_add, Nat.zero_add] at this
  · show onQubits c.pauli [q1, q2] = targetsPauli [.pauli c q1, .pauli c q2]
    rw [← pair_eq _ h12]
    funext i
    simp only [targetsPauli, Frame.mul]
    by_cases hi : i = q1
    · subst hi; simp [h12]
    · simp [hi]

/-- Errors inside the expanded parity measurements of one instruction. -/
theorem gadgets_errors {b c : Basis} {D : Nat} {p : Rat} (hp : 0 < p) (χ : Nat × Nat → Bool) : ∀ (gs : List (Nat × Nat)) {F : Frame} {rec : List (ZMod 2)},
    (gs.flatMap fun g => [g.1, g.2]).Nodup → (∀ g ∈ gs, g.1 ≠ D ∧ g.2 ≠ D) →
    Runs (F + onQubits c.pauli ((gs.filter χ).flatMap fun g => [g.1, g.2])) (actions (gs.flatMap fun g => parityMeasurementWithCorrelatedNoise b g.1 b g.2 D p)) rec F' →
    NoisyRuns F (gs.flatMap fun g => parityMeasurementWithCorrelatedNoise b g.1 b g.2 D p) rec F' (gs.filter χ).length
  | [], F, rec, _, _, h => by
    have e : onQubits c.pauli (([].filter χ).flatMap fun g : Nat × Nat => [g.1, g.2]) = 0 := by funext i; simp [onQubits]
    rw [e, add_zero] at h
    exact noisy_of_runs h
  | g :: gs, F, rec, hn, hD, h => by
    rw [List.flatMap_cons, actions_append] at h
    obtain ⟨r1, r2, F1, k1, k2, rfl⟩ := runs_append.1 h
    rw [List.flatMap_cons] at hn
    obtain ⟨hn1, hn2, hn3⟩ := List.nodup_append.1 hn
    have h12 : g.1 ≠ g.2 := by simpa using hn1
    obtain ⟨hd1, hd2⟩ := hD g List.mem_cons_self
    have hsub : ∀ q, q ∈ ((gs.filter χ).flatMap fun g => [g.1, g.2]) → q ∈ gs.flatMap fun g => [g.1, g.2] := by
      intro q hq
      obtain ⟨x, hx, hq⟩ := List.mem_flatMap.1 hq
      exact List.mem_flatMap.2 ⟨x, (List.mem_filter.1 hx).1, hq⟩
    have hoff : ∀ q ∈ [g.1, g.2, D], onQubits c.pauli ((gs.filter χ).flatMap fun g => [g.1, g.2]) q = 0 := by
      intro q hq
      rw [onQubits, if_neg]
      intro hm
      have hm := hsub q hm
      simp only [List.mem_cons, List.not_mem_nil, or_false] at hq
      rcases hq with rfl | rfl | rfl
      · exact hn3 _ (by simp) _ hm rfl
      · exact hn3 _ (by simp) _ hm rfl
      · obtain ⟨x, hx, hq⟩ := List.mem_flatMap.1 hm
        have := hD x (List.mem_cons_of_mem _ hx)
        simp only [List.mem_cons, List.not_mem_nil, or_false] at hq
        rcases hq with h | h
        · exact this.1 h.symm
        · exact this.2 h.symm
    obtain ⟨s, hs, hz⟩ := runs_elsewhere (G := onQubits c.pauli ((gs.filter χ).flatMap fun g => [g.1, g.2]))
      (as := actions (parityMeasurementWithCorrelatedNoise b g.1 b g.2 D p)) plain_gadget (fun a ha q hq => by
      rw [actions_gadget] at ha
      simp only [List.mem_cons, List.not_mem_nil, or_false] at ha
      refine hoff q ?_
      rcases ha with rfl | rfl | rfl | rfl <;> simp only [Action.qubits, List.map_cons, List.map_nil, List.mem_cons, List.not_mem_nil, or_false] at hq ⊢ <;>
        tauto)
    have k3 := k1.add plain_gadget hs hz
    have k4 := gadgets_errors (b := b) (c := c) (D := D) hp χ gs (F := F1 + onQubits c.pauli ((gs.filter χ).flatMap fun g => [g.1, g.2])) (rec := r2) hn2
      (fun x hx => hD x (List.mem_cons_of_mem _ hx)) (by rw [frame_cancel]; exact k2)
    rw [List.flatMap_cons]
    by_cases hg : χ g = true
    · rw [List.filter_cons_of_pos hg, List.flatMap_cons, onQubits_append (fun q hq hq' => hn3 q hq q (hsub q hq') rfl), ← add_assoc, frame_cancel] at k3
      rw [List.filter_cons_of_pos hg, List.length_cons, Nat.add_comm]
      exact (gadget_error hp hd1 hd2 h12 k3).join k4
    · rw [List.filter_cons_of_neg hg, frame_cancel] at k3
      rw [List.filter_cons_of_neg hg, ← Nat.zero_add (List.length _)]
      exact (noisy_of_runs k3).join k4

end Honeycomb
