import Verif.Lemmas.Superpose
import Verif.Lemmas.LogicalRun

/-! # Errors of the noise channels that cause an undetected flip of the observable -/

namespace Honeycomb
namespace HoneycombLayout
variable {lay : HoneycombLayout} {F F' : Frame} {rec : List (ZMod 2)} {N D : Nat}

theorem faulty_none {S : Nat → Prop} (hS : ∀ q, ¬ S q) {l : List Instr} {n : Nat} (h : FaultyRuns S F l rec F' n) : Runs F (actions l) rec F' := by
  induction h with
  | nil F => exact .nil F
  | step h _ ih => exact runs_append.2 ⟨_, _, _, h, ih, rfl⟩
  | fault q _ hq _ _ => exact absurd hq (hS q)

theorem SimN.sim {l l' : List Instr} (h : lay.SimN D l l') : Sim D (actions l) (actions l') := by
  intro F G rec F' ho hr
  obtain ⟨es, rec0, G', m, hle, -, hf, ho', hd, -⟩ := h F G rec F' 0 ho (noisy_of_runs hr).loose
  obtain rfl : es = [] := List.length_eq_zero_iff.1 (by omega)
  have hno : ∀ q, ¬ lay.Reg [] q := by rintro q ⟨e, he, _⟩; cases he
  have hrec : rec = rec0 := by
    refine List.ext_getElem? fun t => ?_
    by_contra hne
    obtain ⟨P, _, x, _, hx⟩ := hd.get t hne
    exact hno _ hx
  subst hrec
  exact ⟨G', faulty_none hno hf, ho'⟩

/-- The first time step. -/
theorem perStep_tick {f : Nat → List Instr → List Instr} (c : Circuit) : ∀ (l : List Instr) (a : Nat) (acc : List Instr), (∀ i ∈ l, i.gate ≠ .TICK) →
    perStep f (Circuit.append (.ofList (l ++ [.tick])) c) a acc = f a (acc ++ l) ++ [.tick] ++ perStep f c a []
  | [], a, acc, _ => by
    simp only [List.nil_append, Circuit.ofList, Circuit.append, perStep]
    rw [if_pos (show Instr.tick.gate = .TICK from rfl), List.append_nil]
  | i :: l, a, acc, h => by
    simp only [List.cons_append, Circuit.ofList, Circuit.append, perStep]
    rw [if_neg (h i List.mem_cons_self), perStep_tick c l a _ fun j hj => h j (List.mem_cons_of_mem _ hj), List.append_assoc acc, List.singleton_append]

theorem ofList_append (a b : List Instr) (c : Circuit) : Circuit.append (.ofList (a ++ b)) c = Circuit.append (.ofList a) (Circuit.append (.ofList b) c) := by
  induction a with
  | nil => rfl
  | cons i a ih => simp only [List.cons_append, Circuit.ofList, Circuit.append, ih]

theorem ops_ofList_append (l : List Instr) (c : Circuit) : (Circuit.append (.ofList l) c).ops = l ++ c.ops := by
  induction l with
  | nil => rfl
  | cons i l ih => simp only [Circuit.ofList, Circuit.append, Circuit.ops, ih, List.cons_append]

/-! ## The line of errors -/

/-- The Pauli of the line. -/
def lineBasis (lay : HoneycombLayout) : Basis := if lay.obs = "V" then .X else .Z

theorem hit_eq (F : Frame) : lay.hit F = F + onQubits lay.lineBasis.pauli (lay.lineQubits.map lay.idx) := by
  funext i
  rw [hit, Pi.add_apply, onQubits, lineBasis]
  split_ifs <;> simp

theorem lineQubits_nodup (hv : lay.Valid) : (lay.lineQubits.map lay.idx).Nodup := by
  have hn : lay.lineQubits.Nodup := by
    rw [lineQubits]
    split_ifs <;> exact (nodup_data_qubit_coords lay).filter _
  exact List.Nodup.map_on (fun a ha b hb h => idx_inj hv (data_class (lineQubits_data ha)).1 (data_class (lineQubits_data hb)).1 h) hn

/-- X on the line before the change of basis. -/
theorem basis_shift (hv : lay.Valid) {G H : Frame} {r : List (ZMod 2)}
    (h : Runs (G + onQubits Basis.X.pauli (lay.lineQubits.map lay.idx)) (actions (lay.basisChange (lay.obsAt 0).1)) r H) :
    Runs G (actions (lay.basisChange (lay.obsAt 0).1)) r (H + onQubits lay.lineBasis.pauli (lay.lineQubits.map lay.idx)) := by
  rw [obs_zero_basis, lineBasis] at *
  by_cases hV : lay.obs = "V"
  · simp only [hV, if_true, basisChange, ne_eq, not_true_eq_false, if_false] at *
    obtain ⟨rfl, rfl⟩ := runs_nil h
    rw [frame_cancel]
    exact .nil _
  · simp only [hV, if_false, basisChange, ne_eq] at *
    rw [if_pos (by decide)] at *
    have ha : actions [Instr.on (toZGate .X) lay.data_qubit_indices, .tick] = lay.data_qubit_indices.map (.clifford1 fun p => (p.2, p.1)) := by
      rw [actions, List.flatMap_cons, List.flatMap_cons, List.flatMap_nil, List.append_nil]
      simp only [toZGate, Instr.actions, Instr.on, Instr.tick, List.append_nil]
      congr 1
      exact qubits_on .H _
    rw [ha] at h ⊢
    have hn : lay.data_qubit_indices.Nodup :=
      List.Nodup.map_on (fun a ha b hb h => idx_inj hv (data_class ha).1 (data_class hb).1 h) (nodup_data_qubit_coords lay)
    obtain ⟨rfl, e⟩ := runs_clifford1 hn h
    obtain ⟨r', H', h'⟩ := runs_exists G (lay.data_qubit_indices.map (.clifford1 fun p => (p.2, p.1)))
    obtain ⟨rfl, e'⟩ := runs_clifford1 hn h'
    convert h' using 1
    funext i
    rw [Pi.add_apply, e, e', Pi.add_apply, onQubits, onQubits]
    by_cases hm : i ∈ lay.lineQubits.map lay.idx
    · have hd : i ∈ lay.data_qubit_indices := by
        obtain ⟨q, hq, rfl⟩ := List.mem_map.1 hm
        exact List.mem_map_of_mem (lineQubits_data hq)
      simp only [if_pos hm, if_pos hd]
      ext
      · simp [Basis.pauli]
      · simp only [Basis.pauli, Prod.snd_add, Prod.fst_add]
        rw [add_assoc, zmod2_add_self, add_zero]
    · simp only [if_neg hm, add_zero]

/-! ## Errors after the reset -/

theorem rate_reset (hs : lay.Supported) (hp : 0 < lay.noise) {nm : NoiseModel} (hnm : lay.noise_model = .ok nm) : 0 < (nm.rate .R).getD 0 := by
  rcases hs.1 with h | h | h | h | h <;> simp [noise_model, h] at hnm <;> subst hnm <;>
    simp [NoiseModel.rate, NoiseModel.SD6, NoiseModel.PC3, NoiseModel.EM3_v1, NoiseModel.EM3_v2, NoiseModel.SI1000, hp]

theorem reset_sampled (hv : lay.Valid) (hs : lay.Supported) (hN : lay.sub_rounds = N) (hp : 0 < lay.noise) {d : Circuit} (hd : lay.makeCircuit = .ok d) :
    ∃ rec, CanSample lay.lineQubits.length d.flatten rec ∧ (∀ v ∈ detectorValues d.flatten rec, v = some 0) ∧
      observableValue lay.obsI d.flatten rec = some 1 := by
  obtain ⟨c, nm, idle, hc, hnm, htk, hf, -, ht, hi, e⟩ := noisy_form hv hs hN hd
  replace hi := fun ops i h => (hi ops i h).1
  obtain ⟨c', rfl⟩ := generateNoiseless_head hv hs hc
  obtain ⟨D, hD⟩ : ∃ D, lay.num_qubits.toNat = D := ⟨_, rfl⟩
  rw [hD] at ht e
  have hpro : lay.prologue = (lay.qubitCoordOps ++ [.on .R lay.used_qubit_indices]) ++ [.tick] ++ lay.basisChange (lay.obsAt 0).1 := by
    rw [prologue]; simp
  have hsplit : (Circuit.append (.ofList (lay.basisChange (lay.obsAt 0).1)) c').flatten = lay.basisChange (lay.obsAt 0).1 ++ lay.mainPart N := by
    have : (Circuit.append (.ofList lay.prologue) c').flatten = _ := Circuit.flatten_append _ _
    rw [Circuit.flatten_ofList, hf, closed_split] at this
    rw [show (Circuit.append (.ofList (lay.basisChange (lay.obsAt 0).1)) c').flatten = _ from Circuit.flatten_append _ _, Circuit.flatten_ofList,
      List.append_cancel_left this]
  have hno : ∀ i ∈ lay.qubitCoordOps ++ [.on .R lay.used_qubit_indices], i.gate ≠ .TICK := by
    intro i hi
    rcases List.mem_append.1 hi with hi | hi
    · obtain ⟨q, _, rfl⟩ := List.mem_map.1 hi
      simp
    · rw [List.mem_singleton] at hi
      subst hi
      simp [Instr.on]
  rw [hpro] at ht e htk
  rw [ofList_append] at ht e htk
  obtain ⟨c2, hc2⟩ : ∃ c2, Circuit.append (.ofList (lay.basisChange (lay.obsAt 0).1)) c' = c2 := ⟨_, rfl⟩
  rw [hc2] at ht e htk hsplit
  rw [perStep_tick c2 _ _ _ hno, List.nil_append] at e
  generalize (Circuit.append (.ofList (lay.qubitCoordOps ++ [.on .R lay.used_qubit_indices] ++ [.tick])) c2).num_qubits = a at e
  rw [ops_ofList_append] at ht
  have htk2 : TickOK c2 := fun i him => htk i (by rw [ops_ofList_append]; simp [him])
  have hpos := rate_reset hs hp hnm
  -- the step of the reset
  have hstep := (simN_ops (nm := nm) (D := D) (ops := lay.qubitCoordOps ++ [.on .R lay.used_qubit_indices])
    (idle := idle (lay.qubitCoordOps ++ [.on .R lay.used_qubit_indices])) (fun i him => (ht i (by simp at him ⊢; tauto)).1) (hi _)).sim
  -- the rest
  have htick : lay.SimN D [.tick] [.tick] := .core rfl rfl .nil (fun P hP => by simp [Instr.measures, Instr.tick] at hP)
  have hrest := (perStep_rel (R := fun l l' => lay.SimN D l l') .nil (fun a b a' b' h1 h2 => h1.append h2) htick (lay.Tame D)
    (f := fun _ ops => noisyOps nm D ops ++ idle ops) (g := fun _ ops => ops)
    (fun _ ops ho => simN_ops ho (hi ops)) c2 (fun i hm => (ht i (by simp [hm])).1) a [] (by simp)).sim
  rw [perStep_flatten c2 htk2, List.nil_append, hsplit] at hrest
  obtain ⟨A, hA⟩ : ∃ A, noisyOps nm D (lay.qubitCoordOps ++ [.on .R lay.used_qubit_indices]) =
      A ++ [channel .X_ERROR (lay.used_qubit_indices.map .q) ((nm.rate .R).getD 0)] := by
    have hR : noiseAfter (.on .R lay.used_qubit_indices) ((nm.rate .R).getD 0) =
        [channel .X_ERROR (lay.used_qubit_indices.map .q) ((nm.rate .R).getD 0)] := by
      rw [noiseAfter, if_neg (not_le.2 hpos)]
      rfl
    rw [noisyOps, List.flatMap_append (f := fun i : Instr => noiseAfter i ((nm.rate i.gate).getD 0)), ← List.append_assoc,
      List.flatMap_cons, List.flatMap_nil, List.append_nil]
    exact ⟨_, congrArg _ hR⟩
  obtain ⟨Q, hQ⟩ : ∃ Q, perStep (fun _ ops => noisyOps nm D ops ++ idle ops) c2 a [] = Q := ⟨_, rfl⟩
  rw [hQ] at e hrest
  beta_reduce at e
  rw [hA] at e hstep
  obtain ⟨r1, F1, h1⟩ := runs_exists (fun _ => 0) (actions A)
  obtain ⟨r2, F2, h2⟩ := runs_exists (F1 + onQubits Basis.X.pauli (lay.lineQubits.map lay.idx)) (actions Q)
  have hidle : actions (idle (lay.qubitCoordOps ++ [.on .R lay.used_qubit_indices])) = [] := actions_eq_nil fun i him => (hi _ i him).1
  have hch : actions [channel .X_ERROR (lay.used_qubit_indices.map .q) ((nm.rate .R).getD 0)] = [] := rfl
  obtain ⟨G1, k1, o1⟩ := hstep _ _ _ _ (fun _ _ => rfl : Off D (fun _ => 0) (fun _ => 0)) (show Runs _ _ r1 F1 by
    rw [actions_append, actions_append, hidle, hch, List.append_nil, List.append_nil]
    exact h1)
  obtain ⟨G2, k2, o2⟩ := hrest _ (G1 + onQubits Basis.X.pauli (lay.lineQubits.map lay.idx)) _ _ (fun x hx => by
    simp only [Pi.add_apply, o1 x hx]) h2
  obtain ⟨r3, r4, H, k3, k4, rfl⟩ := runs_append_actions k2
  have k5 := basis_shift hv k3
  have hpr : Runs (fun _ => 0) (actions lay.prologue) (r1 ++ r3) (H + onQubits lay.lineBasis.pauli (lay.lineQubits.map lay.idx)) := by
    rw [hpro, actions_append, actions_append, show actions [Instr.tick] = [] from rfl, List.append_nil]
    exact runs_append.2 ⟨_, _, _, k1, k5, rfl⟩
  have hend := line_generated hv hs hN hd hpr (show Runs (lay.hit _) _ r4 G2 by rw [hit_eq, frame_cancel]; exact k4)
  rw [List.append_assoc] at hend
  refine ⟨r1 ++ (r3 ++ r4), ⟨fun _ => 0, F2, fun _ => rfl, ?_⟩, hend⟩
  rw [e]
  have hsum : ((lay.lineQubits.map lay.idx).map fun q => Frame.mul (fun _ => 0) q Basis.X.pauli).sum = onQubits Basis.X.pauli (lay.lineQubits.map lay.idx) := by
    have := onQubits_flatMap Basis.X.pauli (fun q : Nat => [q]) (lay.lineQubits.map lay.idx) (by rw [List.flatMap_singleton']; exact lineQubits_nodup hv)
    rw [List.flatMap_singleton'] at this
    rw [this]
    congr 1
    exact List.map_congr_left fun q _ => single_eq _ q
  have key := (noisy_of_runs h1).join (NoisyRuns.errors
    (i := channel .X_ERROR (lay.used_qubit_indices.map .q) ((nm.rate .R).getD 0))
    (l := idle (lay.qubitCoordOps ++ [.on .R lay.used_qubit_indices]) ++ [.tick] ++ Q) (n := 0) (F := F1) (F' := F2) (rec := r3 ++ r4)
    ((lay.lineQubits.map lay.idx).map fun q => Frame.mul (fun _ => 0) q Basis.X.pauli) (fun P hP => by
      obtain ⟨q, hq, rfl⟩ := List.mem_map.1 hP
      obtain ⟨y, hy, rfl⟩ := List.mem_map.1 hq
      refine ⟨⟨_, List.mem_singleton_self _, hpos⟩, lay.idx y, ?_, rfl⟩
      show lay.idx y ∈ Instr.qubits (.on .X_ERROR lay.used_qubit_indices)
      rw [qubits_on]
      exact mem_used_data hv (lineQubits_data hy)) (by
      rw [hsum]
      refine noisy_of_runs ?_
      rw [← List.singleton_append, actions_append, actions_append, actions_append, hch, hidle, show actions [Instr.tick] = [] from rfl]
      exact h2))
  rw [List.length_map, List.length_map, Nat.zero_add, Nat.zero_add] at key
  rw [show A ++ [channel .X_ERROR (lay.used_qubit_indices.map .q) ((nm.rate .R).getD 0)] ++ idle (lay.qubitCoordOps ++ [.on .R lay.used_qubit_indices]) ++ [.tick] ++ Q =
    A ++ (channel .X_ERROR (lay.used_qubit_indices.map .q) ((nm.rate .R).getD 0) :: (idle (lay.qubitCoordOps ++ [.on .R lay.used_qubit_indices]) ++ [.tick] ++ Q)) by simp]
  exact key

end HoneycombLayout
end Honeycomb
