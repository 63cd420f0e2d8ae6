import Verif.Lemmas.SlotV2
import Verif.Lemmas.Neighbours

/-!
# The places of the generated circuit
-/

namespace Honeycomb
open HoneycombLayout

variable {lay : HoneycombLayout} {N : Nat} {f : List Instr → List Instr} {l l' : List Instr} {rec : List (ZMod 2)} {a D t k R C A B W q : Nat} {gg : Nat → List Nat}

/-- In EM3_v2 the ancilla is the same everywhere. -/
theorem em3_perStep (hv : lay.Valid) (hs : lay.Supported) (hN : lay.sub_rounds = N) (hst : lay.style = "EM3_v2") {c : Circuit} (hf : c.flatten = lay.closedCircuit N)
    (hsh : c.Shape fun r l => 2 ≤ r ∧ (lay.isEM3 = true → ∃ k, l = (List.range 3).flatMap fun j => lay.em3Emit (k + j))) (f : Nat → List Instr → List Instr) :
    perStep f c c.num_qubits [] = perStep (fun _ ops => f lay.num_qubits.toNat ops) c c.num_qubits [] := by
  have he : lay.isEM3 = true := by simp [isEM3, hst]
  have hlen := length_data_qubit_coords hv
  have hdw := Valid.dw hv
  have hdh := Valid.dh hv
  have hD : (lay.data_qubit_coords.length : Int) = lay.data_width * lay.data_height := (c06_counts lay hv).2.1.2
  have hnq : lay.num_qubits.toNat = lay.data_qubit_coords.length := by rw [num_qubits, if_pos he]; omega
  have hq : ∀ i ∈ c.flatten, ∀ q ∈ i.qubits, q < lay.data_qubit_coords.length := by
    intro i hi q hq
    rw [hf] at hi
    rw [← hnq]
    exact closed_qubits hv hs hN hi hq
  have hsh2 : c.Shape fun r _ => 2 ≤ r := Shape.mono (fun _ _ h => h.1) hsh
  have hops : ∀ i ∈ c.ops, ∀ q ∈ i.qubits, q < lay.data_qubit_coords.length := fun i hi => hq i (Circuit.ops_flatten hsh2 hi)
  have hbody : ∀ (c' : Circuit), (∀ i ∈ c'.ops, ∀ q ∈ i.qubits, q < lay.data_qubit_coords.length) →
      (c'.Shape fun r l => 2 ≤ r ∧ (lay.isEM3 = true → ∃ k, l = (List.range 3).flatMap fun j => lay.em3Emit (k + j))) →
      c'.Shape fun _ l => (Circuit.ofList l).num_qubits = lay.data_qubit_coords.length := by
    intro c'
    induction c' with
    | nil => intros; trivial
    | op i c' ih => intro h1 h2; exact ih (fun j hj => h1 j (List.mem_cons_of_mem _ hj)) h2
    | rep r b c' _ ih =>
      intro h1 h2
      obtain ⟨⟨l, rfl, _, hl⟩, h2⟩ := h2
      refine ⟨⟨l, rfl, ?_⟩, ih (fun j hj => h1 j (List.mem_append_right _ hj)) h2⟩
      obtain ⟨k, hk⟩ := hl he
      refine em3_num_qubits hv rfl (fun i hi => h1 i (List.mem_append_left _ hi)) (k := k) ?_
      intro i hi
      rw [Circuit.ops_ofList, hk]
      exact List.mem_flatMap.2 ⟨0, by simp, by simpa using hi⟩
  have hnum : c.num_qubits = lay.data_qubit_coords.length := by
    refine le_antisymm (num_qubits_le hops) ?_
    by_contra h
    push Not at h
    obtain ⟨i, hi, hq'⟩ := mem_em3_data hv (k := 0) (q := lay.data_qubit_coords.length - 1) (by omega)
    have hi' : i ∈ c.flatten := by
      rw [hf, closedCircuit, em3_allRounds he]
      refine List.mem_append_left _ (List.mem_append_right _ (List.mem_flatMap.2 ⟨0, ?_, hi⟩))
      rw [List.mem_range]
      have := hs.2.2.1
      omega
    have hi'' : i ∈ c.ops := flatten_ops hi'
    have := lt_num_qubits hi'' hq'
    omega
  rw [hnum, perStep_const (hbody c hops hsh), hnq]

theorem opCount_sum (o : List Instr) (m : Nat) : (o.map fun i => if kind i.gate ≠ .annotation then m else 0).sum = m * opCount o := by
  induction o with
  | nil => rfl
  | cons i o ih =>
    rw [List.map_cons, List.sum_cons, ih, opCount, opCount, List.countP_cons]
    simp only [decide_eq_true_eq]
    split_ifs <;> ring

/-- Every time step of the generated circuit is a time step of the noiseless circuit with noise. -/
theorem noisy_pieces (hv : lay.Valid) (hs : lay.Supported) (hN : lay.sub_rounds = N) {d : Circuit} (hd : lay.makeCircuit = .ok d) :
    ∃ f, Stepwise f d.flatten (lay.closedCircuit N) ∧ ∀ o, (∀ i ∈ o, i ∈ lay.closedCircuit N) → ∀ gg, Piece lay lay.num_qubits.toNat gg (f o) o (36 * opCount o) := by
  obtain ⟨c, nm, d', hc, hf, hsh, hg, hno, htk, hpm, hnorm, hnm, hpre, hacc, hd', hm⟩ := makeCircuit_ok hv hs hN
  rw [hd] at hm
  obtain rfl : d = d' := Except.ok.inj hm
  have hsh2 : c.Shape fun r _ => 2 ≤ r := Shape.mono (fun _ _ h => h.1) hsh
  have htame : ∀ i ∈ lay.closedCircuit N, lay.Tame lay.num_qubits.toNat i := fun i hi =>
    tame_ops hv hs hN hi (hno i (Circuit.mem_flatten_ops (hf ▸ hi))).1
  have hidle : ∀ i : Instr, i.gate = .DEPOLARIZE1 → (∀ q ∈ i.qubits, q < lay.num_qubits.toNat) → lay.Narrow i := by
    intro i hi hq
    refine ⟨by rw [hi]; rfl, fun c hc => ?_⟩
    rw [Instr.channels, hi] at hc
    obtain ⟨q, hqm, rfl⟩ := List.mem_map.1 hc
    obtain ⟨e, he, hr⟩ := used_near hv (hq q hqm)
    exact ⟨e, he, by simpa using hr⟩
  obtain ⟨idle1, idle2, h1, h2, h3⟩ := c28_idle nm c d none hd'
  have h3' : d.flatten = perStep (fun _ o => noisyOps nm lay.num_qubits.toNat o ++ idle1 o ++ idle2 o) c c.num_qubits [] := by
    by_cases hst : lay.style = "EM3_v2"
    · rw [h3, em3_perStep hv hs hN hst hf hsh]
    · have hnc : nm.use_correlated_parity_measurement_errors = false := by
        rcases hs.1 with h | h | h | h | h
        all_goals first
          | (exact absurd h hst)
          | (simp [noise_model, h] at hnm; subst hnm; rfl)
      rw [h3]
      congr 1
      funext a o
      rw [noisyOps_uncorrelated hnc]
  have hnum : c.num_qubits ≤ lay.num_qubits.toNat := num_qubits_le fun i hi q hq =>
    closed_qubits hv hs hN (hf ▸ Circuit.ops_flatten hsh2 hi) hq
  have hidle' : ∀ {p : Rat} {S : Nat → Prop} {l : List Instr}, DepolarizesExactly p S l → (∀ q, S q → q < c.num_qubits) → ∀ i ∈ l, lay.Narrow i ∧ i.gate ≠ .E := by
    intro p S l h hS i hi
    refine ⟨hidle i (h.1 i hi).1 fun q hq => lt_of_lt_of_le (hS q ?_) hnum, by rw [(h.1 i hi).1]; decide⟩
    by_contra hn
    exact List.count_eq_zero.1 (h.2.2 q hn) (List.mem_flatMap.2 ⟨i, hi, hq⟩)
  have hload : ∀ {p : Rat} {S : Nat → Prop} {l : List Instr} {b : Bool} (q : Nat), DepolarizesExactly p S l → (S q → b = true) → load q l ≤ if b then 1 else 0 := by
    intro p S l b q h hS
    refine (idle_load (fun i hi => (h.1 i hi).1) q).trans ?_
    by_cases hq : S q
    · rw [h.2.1 q hq, if_pos (hS hq)]
    · rw [h.2.2 q hq]; exact Nat.zero_le _
  refine ⟨fun o => noisyOps nm lay.num_qubits.toNat o ++ idle1 o ++ idle2 o, ?_, fun o ho gg => ?_⟩
  · have := steps_perStep (f := fun o => noisyOps nm lay.num_qubits.toNat o ++ idle1 o ++ idle2 o) c htk c.num_qubits
    rw [hf] at this
    rw [h3']
    exact this
  · have n1 := hidle' (h1 o) (fun q hq => by simpa [trackedQubits] using hq.2.2.1)
    have n2 := hidle' (h2 o) (fun q hq => by simpa [trackedQubits] using hq.2.2.1)
    have nb : ∀ i ∈ o.flatMap fun i => noiseBefore nm i ((nm.rate i.gate).getD 0), lay.Narrow i ∧ i.gate ≠ .E := fun i hi => by
      obtain ⟨j, hj, hi⟩ := List.mem_flatMap.1 hi
      exact ⟨(htame j (ho j hj)).before _ i hi, before_gate hi⟩
    have na : ∀ i ∈ o.flatMap fun i => noiseAfter i ((nm.rate i.gate).getD 0), lay.Narrow i ∧ i.gate ≠ .E := fun i hi => by
      obtain ⟨j, hj, hi⟩ := List.mem_flatMap.1 hi
      exact ⟨(htame j (ho j hj)).after _ i hi, after_gate hi⟩
    have hnd : ∀ i ∈ o, kind i.gate ≠ .annotation → i.qubits.Nodup := fun i hi hk => closed_nodup hv hs hN (ho i hi) hk
    have w1 : ∀ q, load q (o.flatMap fun i => noiseBefore nm i ((nm.rate i.gate).getD 0)) ≤ opCount o := fun q =>
      load_flatMap_le fun i hi => by simpa using before_load (hnd i hi) _ q
    have w3 : ∀ q, load q (o.flatMap fun i => noiseAfter i ((nm.rate i.gate).getD 0)) ≤ opCount o := fun q =>
      load_flatMap_le fun i hi => by simpa using after_load (hnd i hi) _ q
    have hw : ∀ {x}, Touched o x → 1 ≤ opCount o := by
      rintro x ⟨i, hi, hk, -⟩
      exact List.countP_pos_iff.2 ⟨i, hi, by simpa using hk⟩
    have w4 : ∀ q, load q (idle1 o) ≤ opCount o := fun q => by
      have := hload (b := decide (1 ≤ opCount o)) q (h1 o) (fun h => by obtain ⟨x, hx⟩ := h.2.1; simpa using hw hx)
      refine this.trans ?_
      simp only [decide_eq_true_eq]
      split_ifs <;> omega
    have w5 : ∀ q, load q (idle2 o) ≤ opCount o := fun q => by
      have := hload (b := decide (1 ≤ opCount o)) q (h2 o) (fun h => by
        obtain ⟨x, i, hi, hk, hx⟩ := h.2.1
        simpa using hw (x := x) ⟨i, hi, by rcases hk with ⟨f, hk⟩ | ⟨f, hk⟩ <;> rw [hk] <;> simp, hx⟩)
      refine this.trans ?_
      simp only [decide_eq_true_eq]
      split_ifs <;> omega
    have e4 : Piece lay lay.num_qubits.toNat gg (o.flatMap fun i => noisyCore nm lay.num_qubits.toNat i ((nm.rate i.gate).getD 0)) (o.flatMap fun i => [i]) _ :=
      Piece.flatMap fun i hi => Piece.core (htame i (ho i hi)) (hnd i hi) _
    rw [opCount_sum, List.flatMap_singleton'] at e4
    have := (((((Piece.noise nb w1).append e4).append (Piece.noise na w3))).append (Piece.noise n1 w4)).append (Piece.noise n2 w5)
    rw [List.nil_append, List.append_nil, List.append_nil, List.append_nil] at this
    exact this.le (by omega)

theorem Stepwise.piece (h : Stepwise f l l') {L : List Instr} (hf : ∀ o, (∀ i ∈ o, i ∈ L) → Piece lay D gg (f o) o (k * opCount o))
    (ht : lay.Tame D .tick) (hL : ∀ i ∈ l', i ∈ L) : Piece lay D gg l l' (k * opCount l') := by
  induction h with
  | nil => exact .nil
  | ops o ho h ih =>
    rw [opCount_append, Nat.mul_add]
    exact (hf o fun i hi => hL i (by simp [hi])).append (ih fun i hi => hL i (by simp [hi]))
  | @tick x x' h ih =>
    have h2 : ∀ x : List Instr, opCount (.tick :: x) = opCount x := fun x => List.countP_cons_of_neg (by simp [Instr.tick, kind])
    have := (Piece.single (gg := gg) ht (fun h => by simp [Instr.tick, kind] at h) []).append (ih fun i hi => hL i (by simp [hi]))
    rw [h2]
    exact this.le (by simp [Instr.tick, kind])

/-- The qubits of the results of the noiseless circuit. -/
def HoneycombLayout.placeQubits (lay : HoneycombLayout) (N T : Nat) : List Nat := ((measured (lay.closedCircuit N))[T]?.map fun P => P.map Prod.snd).getD []

theorem agree_closed : Agree (lay.placeQubits N) 0 (lay.closedCircuit N) := fun s P hs => by
  rw [Nat.zero_add, placeQubits, hs]
  rfl

theorem tame_tick : lay.Tame D .tick :=
  ⟨⟨fun q hq => by simp [Instr.tick, Instr.qubits] at hq, rfl, fun h => by simp [Instr.tick] at h, fun h => by simp [Instr.tick] at h⟩,
    fun q hq => by simp [Instr.tick, Instr.qubits] at hq, fun h => by simp [Instr.tick, kind] at h⟩

theorem noisy_piece (hv : lay.Valid) (hs : lay.Supported) (hN : lay.sub_rounds = N) {d : Circuit} (hd : lay.makeCircuit = .ok d) (gg : Nat → List Nat) :
    Piece lay lay.num_qubits.toNat gg d.flatten (lay.closedCircuit N) (36 * opCount (lay.closedCircuit N)) := by
  obtain ⟨f, h1, h2⟩ := noisy_pieces hv hs hN hd
  exact h1.piece (fun o ho => h2 o ho gg) tame_tick fun i hi => hi

/-! ## Windows -/

/-- The number of places of qubit `q` in `l`, before which `t` results were recorded, with `A` to `B` results recorded before them. -/
def windowG (gg : Nat → List Nat) (A B q t : Nat) (l : List Instr) : Nat := (tagG gg t l).countP fun x => A ≤ x.1 ∧ x.1 ≤ B ∧ q ∈ x.2

theorem windowG_append (a b : List Instr) : windowG gg A B q t (a ++ b) = windowG gg A B q t a + windowG gg A B q (t + (measured a).length) b := by
  rw [windowG, tagG_append, List.countP_append]; rfl

theorem windowG_le (h : Piece lay D gg l l' k) (ht : Agree gg t l') : windowG gg A B q t l ≤ k := by
  refine (List.countP_mono_left fun x _ h => ?_).trans (h.count t ht q)
  simp only [decide_eq_true_eq] at h
  simpa using h.2.2

theorem windowG_after (h : B < t) : windowG gg A B q t l = 0 := by
  refine List.countP_eq_zero.2 fun x hx => ?_
  have := tagG_range hx
  simp only [decide_eq_true_eq]
  omega

theorem windowG_before (h : t + (measured l).length < A) : windowG gg A B q t l = 0 := by
  refine List.countP_eq_zero.2 fun x hx => ?_
  have := tagG_range hx
  simp only [decide_eq_true_eq]
  omega

theorem windowG_from (hR : 0 < R) {Ds Bs : List (List Instr)} (h : List.Forall₂ (fun x b => Piece lay D gg x b C ∧ (measured b).length = R) Ds Bs) :
    ∀ {t : Nat}, Agree gg t Bs.flatten → t ≤ B → windowG gg A B q t Ds.flatten ≤ C * ((B - t) / R + 1) := by
  induction h with
  | nil => intro t _ _; simp [windowG, tagG]
  | @cons x b Ds Bs h hrest ih =>
    intro t ha ht
    have hx : (measured x).length = R := by rw [h.1.len, h.2]
    rw [List.flatten_cons] at ha
    have ha2 := ha.right
    rw [h.2] at ha2
    rw [List.flatten_cons, windowG_append, hx]
    have h1 : windowG gg A B q t x ≤ C := windowG_le h.1 ha.left
    by_cases hB : t + R ≤ B
    · have h2 := ih ha2 hB
      have h3 : (B - t) / R = (B - (t + R)) / R + 1 := by
        rw [show B - t = (B - (t + R)) + R by omega, Nat.add_div_right _ hR]
      rw [h3]
      rw [Nat.mul_add, Nat.mul_one]
      omega
    · rw [windowG_after (by omega : B < t + R), Nat.add_zero]
      exact h1.trans (Nat.le_mul_of_pos_right _ (Nat.succ_pos _))

theorem windowG_blocks (hR : 0 < R) {Ds Bs : List (List Instr)} (h : List.Forall₂ (fun x b => Piece lay D gg x b C ∧ (measured b).length = R) Ds Bs) :
    ∀ {t : Nat}, Agree gg t Bs.flatten → windowG gg A (A + W) q t Ds.flatten ≤ C * (W / R + 2) := by
  induction h with
  | nil => intro t _; simp [windowG, tagG]
  | @cons x b Ds Bs h hrest ih =>
    intro t ha
    have hx : (measured x).length = R := by rw [h.1.len, h.2]
    by_cases h1 : t + R < A
    · rw [List.flatten_cons] at ha
      have ha2 := ha.right
      rw [h.2] at ha2
      rw [List.flatten_cons, windowG_append, hx, windowG_before (by rw [hx]; omega), Nat.zero_add]
      exact ih ha2
    · by_cases h2 : t ≤ A + W
      · refine (windowG_from hR (.cons h hrest) ha h2).trans (Nat.mul_le_mul_left _ ?_)
        have : (A + W - t) / R ≤ (W + R) / R := Nat.div_le_div_right (by omega)
        rw [Nat.add_div_right _ hR] at this
        omega
      · rw [windowG_after (by omega)]
        exact Nat.zero_le _

/-- In a window of time every qubit has only so many places. -/
theorem noisy_windowG (hv : lay.Valid) (hs : lay.Supported) (hN : lay.sub_rounds = N) {d : Circuit} (hd : lay.makeCircuit = .ok d)
    (A W q : Nat) : windowG (lay.placeQubits N) A (A + W) q 0 d.flatten ≤ 1080 * (W / lay.perRound + 4) := by
  obtain ⟨f, hstep, hf⟩ := noisy_pieces hv hs hN hd
  obtain ⟨a, c, Bs, R, e, ha, wa, wc, -, hR, hB⟩ := closed_blocks (N := N) hv hs
  have hP := perRound_pos hv
  have hL : ∀ {x : List Instr}, (∀ i ∈ x, i ∈ a ++ (Bs.flatten ++ c)) → ∀ i ∈ x, i ∈ lay.closedCircuit N := fun h i hi => e ▸ h i hi
  have hag := agree_closed (lay := lay) (N := N)
  rw [e] at hstep hag
  obtain ⟨x, y, e1, h1, h2⟩ := hstep.first ha
  obtain ⟨Ds, z, rfl, h3, h4⟩ := h2.parts fun b hb => (hB b hb).1
  have p1 := h1.piece (fun o ho => hf o ho (lay.placeQubits N)) tame_tick (hL fun i hi => by simp [hi])
  have p3 := h4.piece (fun o ho => hf o ho (lay.placeQubits N)) tame_tick (hL fun i hi => by simp [hi])
  have p2 : List.Forall₂ (fun x b => Piece lay lay.num_qubits.toNat (lay.placeQubits N) x b 1080 ∧ (measured b).length = R) Ds Bs := by
    have hB' : ∀ b ∈ Bs, opCount b ≤ 30 ∧ (measured b).length = R ∧ ∀ i ∈ b, i ∈ lay.closedCircuit N := fun b hb => ⟨(hB b hb).2.1, (hB b hb).2.2,
      hL fun i hi => by simp only [List.mem_append, List.mem_flatten]; exact .inr (.inl ⟨b, hb, hi⟩)⟩
    clear e hB hL hstep h2 e1 hag h4 p3
    induction h3 with
    | nil => exact .nil
    | @cons D' b' Ds' Bs' h hrest ih =>
      obtain ⟨g1, g2, g3⟩ := hB' b' (by simp)
      exact .cons ⟨(h.piece (fun o ho => hf o ho (lay.placeQubits N)) tame_tick g3).le (by omega), g2⟩ (ih fun b hb => hB' b (by simp [hb]))
  have hag2 := hag.right
  rw [← p1.len, Nat.zero_add] at hag2
  have hl2 : (measured Ds.flatten).length = (measured Bs.flatten).length := by
    clear e hB hL hstep h2 e1 hag h4 p3 h3 hag2
    induction p2 with
    | nil => rfl
    | cons h _ ih => rw [List.flatten_cons, List.flatten_cons, measured_append, measured_append, List.length_append, List.length_append, ih, h.1.len]
  have hag3 := hag2.right
  rw [← hl2] at hag3
  rw [e1, windowG_append, windowG_append, Nat.zero_add]
  have g1 : windowG (lay.placeQubits N) A (A + W) q 0 x ≤ 1080 := (windowG_le p1 hag.left).trans (by omega)
  have g3 : windowG (lay.placeQubits N) A (A + W) q ((measured x).length + (measured Ds.flatten).length) z ≤ 1080 := (windowG_le p3 hag3).trans (by omega)
  have g2 : windowG (lay.placeQubits N) A (A + W) q (measured x).length Ds.flatten ≤ 1080 * (W / R + 2) := windowG_blocks (by omega) p2 hag2.left
  have hdiv : W / R ≤ W / lay.perRound := Nat.div_le_div_left hR hP
  have g4 := Nat.mul_le_mul_left 1080 hdiv
  omega

/-- The number of places. -/
theorem slots_le (hv : lay.Valid) (hs : lay.Supported) (hN : lay.sub_rounds = N) {d : Circuit} (hd : lay.makeCircuit = .ok d) :
    (d.flatten.map Instr.slots).sum ≤ lay.num_qubits.toNat * (1080 * (N + 2)) := by
  have hp := noisy_piece hv hs hN hd (lay.placeQubits N)
  rw [← tagG_length (gg := lay.placeQubits N) 0, ← List.length_map (f := Prod.snd)]
  refine length_le_loads (fun c hc => ?_) fun q => ?_
  · obtain ⟨x, hx, rfl⟩ := List.mem_map.1 hc
    obtain ⟨-, e, he, q, hq, hr⟩ := hp.near 0 agree_closed x hx
    exact ⟨q, hq, regQ_lt hv he hr⟩
  · have h1 := hp.count 0 agree_closed q
    have h2 := opCount_closed (N := N) hv hs
    rw [List.countP_map]
    refine le_trans (le_of_eq rfl) (h1.trans ?_)
    omega

/-- If an error happens at place `a`, the detectors that fire are near its qubits and of the layers after it. -/
theorem slot_place (hv : lay.Valid) (hs : lay.Supported) (hN : lay.sub_rounds = N) {d : Circuit} (hd : lay.makeCircuit = .ok d)
    (hr : SampleAt d.flatten [a] rec) : ∃ T c, (tagG (lay.placeQubits N) 0 d.flatten)[a]? = some (T, c) ∧
      ∀ (j : Nat) (x : List Rat × Nat), (detectorValues d.flatten rec)[j]? = some (some 1) → (detectorCoords d.flatten)[j]? = some x →
        ∃ (e : Edge) (layer : Nat) (p : Pt), x.1 = [crd p.x, crd p.y, (layer : Rat)] ∧ min (T / lay.perRound) N ≤ layer ∧ layer ≤ min (T / lay.perRound) N + lay.glitchReach ∧
          e ∈ lay.all_edges ∧ (∃ q ∈ c, lay.RegQ e q) ∧ lay.Touches (fun q => q = e.left ∨ q = e.right) p := by
  have h1 : 1 ≤ N := by have := hs.2.2.1; omega
  obtain ⟨F, F', hF, hr⟩ := hr
  obtain ⟨es, r0, G, m, tie, hrun, -, hdiff⟩ := (noisy_piece hv hs hN hd (lay.placeQubits N)).sim 0 agree_closed F F rec F' [a] (fun _ _ => rfl) hr
  obtain ⟨hlen, h⟩ : rec.length = N * lay.perRound + lay.data_qubit_coords.length ∧ ∀ y ∈ allDets lay N, val (recAt rec) y.2.2 ≠ 0 →
        ∃ e ∈ es, lay.Touches (fun q => q = e.left ∨ q = e.right) y.2.1 := by
    obtain ⟨g1, g2, g3⟩ := sampled_inside hv hs hN (fun e he => (tie e he).1) hrun hdiff
    obtain ⟨hl, h⟩ := damage_place hv hs hN g1 g2 g3
    refine ⟨hl, fun y hy hne => ?_⟩
    obtain ⟨q, a, ⟨e, he, b⟩, c⟩ := h y hy hne
    exact ⟨e, he, q, a, b, c⟩
  have htie : ∀ {T c}, (tagG (lay.placeQubits N) 0 d.flatten)[a]? = some (T, c) → ∀ e ∈ es, e ∈ lay.all_edges ∧ ∃ q ∈ c, lay.RegQ e q := by
    intro T c hT e he
    obtain ⟨h1, p, hp, x, hx, h2⟩ := tie e he
    rw [List.mem_singleton] at hp
    rw [hp, hT] at hx
    rw [← Option.some.inj hx] at h2
    exact ⟨h1, h2⟩
  obtain ⟨u, i, v, s, hl, ha, hcase⟩ := placed_one hr rfl
  rcases hcase with ⟨E, P, F1, r1, r3, hE, hP, k1, k3, rfl⟩ | ⟨t, rec0, rfl, ht, k, rfl⟩
  · obtain ⟨c, hc⟩ : ∃ c, (tagG (lay.placeQubits N) 0 d.flatten)[a]? = some ((measured u).length, c) := by
      have hs' : s < i.channels.length := by rw [← errors_length]; exact (List.getElem?_eq_some_iff.1 hE).1
      have : ∃ c, (i.tagG (lay.placeQubits N) (measured u).length)[s]? = some ((measured u).length, c) := by
        rw [Instr.tagG]
        split_ifs with hg
        · rw [Instr.channels, hg] at hs'
          obtain rfl : s = 0 := by simpa using hs'
          exact ⟨_, rfl⟩
        · rw [List.getElem?_append_left (by rwa [List.length_map]), List.getElem?_map, List.getElem?_eq_getElem hs']
          exact ⟨_, rfl⟩
      obtain ⟨c, hc⟩ := this
      exact ⟨c, by rw [hl, ha]; exact tagG_at hc⟩
    refine ⟨(measured u).length, c, hc, fun j x hj hx => ?_⟩
    obtain ⟨d', hd', hg⟩ := c106_glitch lay hv hs
    obtain rfl := Except.ok.inj (hd.symm.trans hd')
    obtain ⟨y, hy, ey, hne⟩ := fired_det hv hs hN hd hlen hj hx
    obtain ⟨layer, p, ex, u1, u2⟩ := hg u [] (i :: v) _ (by simpa using hl) ⟨F, F1, F1 + P, F', r1, [], r3, hF, k1, rfl, k3, by simp⟩ j x hj hx
    obtain ⟨rfl, rfl⟩ := coords_unique (ey.symm.trans ex)
    have hyN := allDets_layer hy
    rw [perRound_eq hv, hN] at u1
    rw [perRound_eq hv, List.append_nil] at u2
    obtain ⟨e', he', ht⟩ := h y hy hne
    exact ⟨e', y.1, y.2.1, ey, by omega, by omega, (htie hc e' he').1, (htie hc e' he').2, ht⟩
  · have hc : (tagG (lay.placeQubits N) 0 d.flatten)[a]? = some ((measured u).length + t, lay.placeQubits N ((measured u).length + t)) := by
      rw [hl, ha]
      refine tagG_at ?_
      have hlen : (if i.gate = .E then [((measured u).length, lay.placeQubits N (measured u).length)] else i.channels.map fun c => ((measured u).length, c)).length = i.errors.length := by
        rw [errors_length]
        split_ifs with hg
        · rw [Instr.channels, hg]; rfl
        · rw [List.length_map]
      rw [Instr.tagG, List.getElem?_append_right (by rw [hlen]; omega), hlen, Nat.add_sub_cancel_left, List.getElem?_map, List.getElem?_range ht]
      rfl
    refine ⟨_, _, hc, fun j x hj hx => ?_⟩
    obtain ⟨-, hsim⟩ := noisy_run hv hs hN hd
    obtain ⟨T', hT'⟩ := hsim _ _ _ k
    obtain ⟨y, hy, ey, hne⟩ := fired_det hv hs hN hd hlen hj hx
    have hz : val (recAt rec0) y.2.2 = 0 := by
      have := (closed_zero hv hs hN hT').1
      have hv0 : some (val (recAt rec0) y.2.2) ∈ detectorValues (lay.closedCircuit N) rec0 := by
        rw [values_eq hv hs hN (by rw [← hlen, List.length_modify])]; exact List.mem_map.2 ⟨y, hy, rfl⟩
      rw [detectorValues] at hv0
      obtain ⟨z, hz, e⟩ := List.mem_map.1 hv0
      rw [List.mem_filter] at hz
      rw [this z hz.1 (by simpa using hz.2)] at e
      exact (Option.some.inj e).symm
    obtain ⟨t', ht1, ht2⟩ := wrong_result (R := recAt (rec0.modify ((measured u).length + t) (· + 1))) (R0 := recAt rec0) (s := y.2.2) (by rw [hz]; exact hne)
    obtain rfl : t' = (measured u).length + t := by
      by_contra hc
      refine ht2 ?_
      rw [recAt, recAt, List.getD_eq_getElem?_getD, List.getD_eq_getElem?_getD, List.getElem?_modify]
      simp only [Ne.symm hc, if_false]
      simp
    obtain ⟨u1, u2⟩ := usedBy_layer hv hN h1 (allDets_used hv hs hN hy ht1) (allDets_layer hy)
    obtain ⟨e', he', ht⟩ := h y hy hne
    exact ⟨e', y.1, y.2.1, ey, u1, u2, (htie hc e' he').1, (htie hc e' he').2, ht⟩

open Classical in
/-- No place shares detectors with more than so many others, however large the patch and however long the circuit. -/
theorem share_bound (hv : lay.Valid) (hs : lay.Supported) (hN : lay.sub_rounds = N) {d : Circuit} (hd : lay.makeCircuit = .ok d) {r : Nat} (hR : r = 48)
    (a M : Nat) : ((Finset.range M).filter fun b => Share d.flatten a b).card ≤ 2 * ((2 * r + 1) ^ 2 * 25920) := by
  have hP := perRound_pos hv
  have hreach : lay.glitchReach ≤ 8 := by rw [glitchReach]; split_ifs <;> omega
  have hlen : (measured d.flatten).length = N * lay.perRound + 2 * lay.perRound := by
    rw [(noisy_piece hv hs hN hd (lay.placeQubits N)).len, ← round_data hv]
    exact closed_length hv hs hN
  by_cases hex : ∃ ra, SampleAt d.flatten [a] ra
  swap
  · rw [Finset.filter_false_of_mem fun b _ ⟨ra, rb, j, h, _⟩ => hex ⟨ra, h⟩]
    simp
  obtain ⟨ra0, hra0⟩ := hex
  obtain ⟨T, c, hT, -⟩ := slot_place hv hs hN hd hra0
  have hc : c.length ≤ 2 := ((noisy_piece hv hs hN hd (lay.placeQubits N)).near 0 agree_closed _ (List.mem_of_getElem? hT)).1
  choose S hS hnear using near_qubits (lay := lay) hv hR
  let m := min (T / lay.perRound) N
  let A := (m - 8) * lay.perRound
  let W := 20 * lay.perRound
  let L := tagG (lay.placeQubits N) 0 d.flatten
  let f : Nat → Finset Nat := fun q' => (Finset.range L.length).filter fun b => ∃ x, L[b]? = some x ∧ decide (A ≤ x.1 ∧ x.1 ≤ A + W ∧ q' ∈ x.2) = true
  have hf : ∀ q', (f q').card ≤ 25920 := fun q' => by
    have h1 := noisy_windowG hv hs hN hd A W q'
    have h2 : (f q').card = windowG (lay.placeQubits N) A (A + W) q' 0 d.flatten := by
      simp only [f]
      exact index_count _ _
    rw [show W / lay.perRound = 20 from Nat.mul_div_cancel _ hP] at h1
    omega
  have hsub : ((Finset.range M).filter fun b => Share d.flatten a b) ⊆ c.toFinset.biUnion fun q => (S q).biUnion f := by
    intro b hb
    obtain ⟨ra, rb, j, h1, h2, h3, h4⟩ := (Finset.mem_filter.1 hb).2
    have v1 := fired_some h3
    have v2 := fired_some h4
    obtain ⟨x, hx⟩ := coords_some v1
    obtain ⟨T1, c1, e1, k1⟩ := slot_place hv hs hN hd h1
    obtain ⟨T', c', e2, k2⟩ := slot_place hv hs hN hd h2
    rw [hT, Option.some.injEq, Prod.mk.injEq] at e1
    obtain ⟨rfl, rfl⟩ := e1
    obtain ⟨e, layer, p, x1, l1, l2, he, ⟨q, hq, hrq⟩, ht⟩ := k1 j x v1 hx
    obtain ⟨e', layer', p', x2, l1', l2', he', ⟨q', hq', hrq'⟩, ht'⟩ := k2 j x v2 hx
    obtain ⟨rfl, rfl⟩ := coords_unique (x1.symm.trans x2)
    have hT' := (tagG_range (List.mem_of_getElem? e2)).2
    have hw := time_window (m := m) hP rfl (by simpa [hlen] using hT') l1 (by omega) l1' (by omega)
    refine Finset.mem_biUnion.2 ⟨q, List.mem_toFinset.2 hq, Finset.mem_biUnion.2 ⟨q', hnear q q' e e' p he he' hrq hrq' ht ht', ?_⟩⟩
    refine Finset.mem_filter.2 ⟨Finset.mem_range.2 (List.getElem?_eq_some_iff.1 e2).1, _, e2, ?_⟩
    exact decide_eq_true ⟨hw.1, hw.2, hq'⟩
  refine (Finset.card_le_card hsub).trans ((Finset.card_biUnion_le_card_mul _ _ _ fun q _ => (Finset.card_biUnion_le_card_mul _ _ _ fun q' _ => hf q').trans
    (Nat.mul_le_mul_right _ (hS q))).trans (Nat.mul_le_mul_right _ ?_))
  exact c.toFinset_card_le.trans hc

end Honeycomb
