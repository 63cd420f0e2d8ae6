import Verif.Lemmas.Glitch

/-! # The rest of the circuit after a glitch, style by style -/

namespace Honeycomb
namespace HoneycombLayout
variable {lay : HoneycombLayout} {F F' : Frame} {rec : List (ZMod 2)} {N : Nat}

/-- Whatever the first `n` results and the state are: if `b` is executed, no detector later than `J` fires. -/
def Settles (lay : HoneycombLayout) (N n J : Nat) (b : List Instr) : Prop :=
  ∀ R0 S rec S', R0.length = n → Runs S (actions b) rec S' →
    (R0 ++ rec).length = lay.total N ∧ ∀ x ∈ allDets lay N, val (recAt (R0 ++ rec)) x.2.2 ≠ 0 → x.1 ≤ J

theorem settles_em3 (hv : lay.Valid) (hs : lay.Supported) (he : lay.isEM3 = true) (hp : lay.isPC3 = false) {j M : Nat} (hN : lay.sub_rounds = (j + M : Nat)) :
    lay.Settles (j + M) (j * lay.perRound) (j + 3) (((List.range M).flatMap fun i => lay.em3Emit (j + i)) ++ lay.epilogue (j + M)) := by
  intro R0 S rec S' hl h
  obtain ⟨r1, r2, S1, g1, g2, rfl⟩ := runs_append_actions h
  obtain ⟨c, a⟩ := em3_more hv he hp (RunFrom.start (k0 := j) (c0 := lay.fillSum R0 j) (R0 := R0)) g1
  rw [← List.append_assoc]
  exact glitch_end hv hs hN hl a (fun p _ => rfl) g2

theorem settles_si (hv : lay.Valid) (hs : lay.Supported) (he : lay.isEM3 = false) (hp : lay.isPC3 = false) {k M : Nat} (hk : 0 < k)
    (hN : lay.sub_rounds = (3 * (k + M) : Nat)) :
    lay.Settles (3 * (k + M)) (3 * k * lay.perRound) (3 * k + 3) (((List.range M).flatMap fun i => lay.si1000Emit (k + i)) ++ lay.epilogue (3 * (k + M))) := by
  intro R0 S rec S' hl h
  obtain ⟨r1, r2, S1, g1, g2, rfl⟩ := runs_append_actions h
  obtain ⟨c, G, a, l⟩ := si_more hv he hp hk (RunFrom.start (lay := lay) (k0 := 3 * k) (c0 := lay.fillSum R0 (3 * k)) (R0 := R0) (F0 := lay.pos S))
    ⟨fun q _ _ => by rw [rotN_zero (by omega)]; rfl, fun q _ _ => by rw [rotN_zero (by omega)]; rfl⟩ g1
  rw [← List.append_assoc]
  exact glitch_end hv hs hN hl a l.eq g2

/-! ## SD6 -/

/-- A step of the pipeline resets the ancillas of the sub-round after the next. -/
theorem sd6_fresh (hv : lay.Valid) (he : lay.isEM3 = false) {k : Nat} {S S' : Frame} (h : Runs S (actions (lay.sd6Emit k)) rec S') :
    rec.length = lay.perRound ∧ ∀ e ∈ lay.round_edges ((k : Int) + 2), (S' (lay.idx e.center)).1 = 0 := by
  rw [sd6Emit] at h
  obtain ⟨r1, t1, S5, g1, ht, rfl⟩ := runs_append_actions h
  obtain ⟨rfl, rfl⟩ := runs_tick ht
  obtain ⟨r2, rm, S4, g2, hm, rfl⟩ := runs_append_actions g1
  obtain ⟨r3, rc, S3, g3, hc, rfl⟩ := runs_append_actions g2
  obtain ⟨r4, rr, S2, g4, hr, rfl⟩ := runs_append_actions g3
  obtain ⟨r5, t2, S1, g5, ht2, rfl⟩ := runs_append_actions g4
  obtain ⟨rfl, rfl⟩ := runs_tick ht2
  obtain ⟨r6, r7, S0, h6, h7, rfl⟩ := runs_append_actions g5
  obtain ⟨rfl, _, _, _⟩ := eff_left hv (g := .CX) (P := .Z) (Q := .X) (Or.inr ⟨rfl, rfl⟩) h6
  obtain ⟨rfl, _, _, _⟩ := eff_right hv (g := .CX) (P := .Z) (Q := .X) (Or.inr ⟨rfl, rfl⟩) h7
  obtain ⟨rfl, a1, a2, a3⟩ := eff_resets hv hr
  obtain ⟨rfl, b1, b2⟩ := eff_cycle hv hc
  obtain ⟨e1, c1, c2, c3⟩ := eff_md hv he hm
  refine ⟨?_, fun e hm => by rw [c3 _ (by omega) e hm, b2 _ e hm, a1 e hm]⟩
  simp only [List.nil_append, List.append_nil]
  rw [e1, List.length_map, perRound_eq hv]

/-- Every state in the pipeline is that of some data frame, with changes that have not taken effect yet. -/
theorem sd6_any (hv : lay.Valid) (a b : Int) (k : Nat) (S : Frame) : ∃ G D, lay.SdFLink a b k S G D := by
  have self : ∀ a b c : Pauli, c = a + b + (c + (a + b)) := by decide
  refine ⟨fun q => if dataQubitParity q then rotN (-b) (S (lay.idx q)) else (S (lay.idx (lay.dataEdge q k).center)).1 • (Basis.ofIdx ((k : Int) + 1)).pauli,
    fun q => if dataQubitParity q then 0 else rotN (-a) (S (lay.idx q)) +
      ((S (lay.idx (lay.dataEdge q k).center)).1 • (Basis.ofIdx ((k : Int) + 1)).pauli + (S (lay.idx (lay.dataEdge q k).center)).2 • (Basis.ofIdx k).pauli),
    ?_, ?_, ?_, ?_⟩
  · intro e he
    obtain ⟨f1, f2⟩ := left_facts hv he
    simp only [f2, Bool.false_eq_true, if_false, dataEdge_eq hv he (Or.inl rfl)]
    rw [← self, rotN_inv]
  · intro q hq hp
    simp only [hp, if_true]
    rw [rotN_inv]
  · intro e he
    obtain ⟨f1, f2⟩ := left_facts hv he
    simp only [f2, Bool.false_eq_true, if_false, dataEdge_eq hv he (Or.inl rfl)]
    rw [anti_fill]
  · intro q hp
    simp only [hp, if_true]

theorem settles_sd6 (hv : lay.Valid) (hs : lay.Supported) (he : lay.isEM3 = false) (hp : lay.isPC3 = false) {j M : Nat} (hN : lay.sub_rounds = (j + 2 + M + 2 : Nat)) :
    lay.Settles (j + 2 + M + 2) (j * lay.perRound) (j + 2 + 3) (((List.range (2 + M)).flatMap fun i => lay.sd6Emit (j + i)) ++ lay.sd6EndEmit (j + 2 + M + 2) ++
      lay.sd6Realign ++ lay.epilogue (j + 2 + M + 2)) := by
  intro R0 S rec S' hl h
  rw [range_split] at h
  obtain ⟨r1, r2, S5, g1, g2, rfl⟩ := runs_append_actions h
  obtain ⟨r3, r4, S4, g3, g4, rfl⟩ := runs_append_actions g1
  obtain ⟨r5, r6, S3, g5, g6, rfl⟩ := runs_append_actions g3
  obtain ⟨r7, r8, S2, g7, g8, rfl⟩ := runs_append_actions g5
  obtain ⟨r9, r10, S1, g9, g10, rfl⟩ := runs_append_actions (a := lay.sd6Emit j) (b := lay.sd6Emit (j + 1)) (by
    rw [show lay.sd6Emit j ++ lay.sd6Emit (j + 1) = (List.range 2).flatMap fun i => lay.sd6Emit (j + i) by simp [List.range_succ]]; exact g7)
  obtain ⟨l9, x1⟩ := sd6_fresh hv he g9
  obtain ⟨G, D, hGD⟩ := sd6_any hv ((j + 1 : Nat) + 2) ((j + 1 : Nat) + 1) (j + 1) S1
  obtain ⟨G2, e10, _, l2, x2⟩ := sd6_fstep hv he hGD (by push_cast; rw [add_assoc]; exact x1) g10
  have hl2 : (R0 ++ r9 ++ r10).length = (j + 2) * lay.perRound := by
    rw [List.length_append, List.length_append, hl, l9, e10, List.length_map, perRound_eq hv]; ring
  obtain ⟨c, G3, a, l, x⟩ := sd6_more hv he hp (k := j + 2) (M := M) (RunFrom.start (lay := lay) (k0 := j + 2) (c0 := lay.fillSum (R0 ++ r9 ++ r10) (j + 2)) (R0 := R0 ++ r9 ++ r10) (F0 := G2))
    (by push_cast at l2 ⊢; rw [show (j : Int) + 2 + 2 = j + 1 + 3 by ring, show (j : Int) + 2 + 1 = j + 1 + 2 by ring, show (j : Int) + 2 = j + 1 + 1 by ring]; exact l2)
    (by push_cast at x2 ⊢; rw [show (j : Int) + 2 + 1 = j + 1 + 2 by ring]; exact x2) (by simpa only [Nat.add_assoc] using g8)
  obtain ⟨c', G', a', e'⟩ := sd6_end hv he hp a l x g6
  obtain ⟨rfl, e7⟩ := sd6_realign hv hN (by push_cast at e' ⊢; exact e') g4
  have := glitch_end hv hs hN hl2 a' e7 g2
  simpa only [List.append_nil, List.append_assoc] using this

/-! ## PC3 -/

theorem lastR_append {R D : List (ZMod 2)} (hv : lay.Valid) (k : Nat) (hk : k * lay.perRound ≤ R.length) (e : Edge) :
    lay.lastR (R ++ D) k e = lay.lastR R k e := by
  induction k with
  | zero => rfl
  | succ k ih =>
    rw [lastR, lastR]
    split_ifs with he
    · exact recAt_left (lt_of_lt_of_le (mTime_lt hv he) hk)
    · exact ih (by rw [Nat.add_mul] at hk; omega)

/-- The totals of a PC3 run are the last results. -/
theorem RunFrom.last (hv : lay.Valid) (hp : lay.isPC3 = true) {j k : Nat} {c0 c : Edge → ZMod 2} {F0 : PauliOp} {R0 R : List (ZMod 2)} {G : PauliOp}
    (h0 : R0.length = j * lay.perRound) (h : lay.RunFrom j c0 R0 F0 k c R G) :
    ∀ (e : Edge) (i : Nat), j ≤ i → i < k → e ∈ lay.round_edges i → c e = lay.lastR R k e := by
  induction h with
  | start => intro e i h1 h2; omega
  | @step k c R F h F' hF ih =>
    intro e i h1 h2 he
    have hl := h.glitch_length hv h0
    rw [lastR]
    by_cases hk : e ∈ lay.round_edges k
    · simp only [if_pos hk, hp, if_true]
      rw [mTime, ← hl, recAt_right, recAt_map hk]
    · simp only [if_neg hk, add_zero]
      rw [lastR_append hv k hl.ge]
      have : i ≠ k := fun h => hk (h ▸ he)
      exact ih e i h1 (by omega) he

/-- Every state in the pipeline is that of some data frame and some totals. -/
theorem pc3_any (hv : lay.Valid) {j : Nat} (hj : 1 ≤ j) (S : Frame) (r : List (ZMod 2)) :
    ∃ c G, lay.PcLink j S c (r ++ (lay.round_edges ((j : Int) - 1)).map c) r G := by
  have self : ∀ a b : Pauli, a = a + b + b := by decide
  have self2 : ∀ a b : ZMod 2, a = a + b + b := by decide
  let G : PauliOp := fun q => if dataQubitParity q then S (lay.idx q) else S (lay.idx q) + (S (lay.idx (lay.dataEdge q j).center)).2 • (Basis.ofIdx j).pauli
  refine ⟨fun e => (S (lay.idx e.center)).1 + if e ∈ lay.round_edges j then anti (G e.left) (Basis.ofIdx j).pauli else 0, G, ?_, ?_, ?_, ?_, ?_, ?_, Or.inr ⟨hj, rfl⟩⟩
  · intro e he
    simp only [G, (left_facts hv he).2, Bool.false_eq_true, if_false, dataEdge_eq hv he (Or.inl rfl)]
    exact self _ _
  · intro q hq hp
    simp only [G, hp, if_true]
  · intro e he
    simp only [if_pos he]
    exact self2 _ _
  · intro e he
    have : e ∉ lay.round_edges j := fun h => absurd (round_edges_disjoint hv h he) (by omega)
    simp only [if_neg this, add_zero]
  · intro e he
    have : e ∉ lay.round_edges j := fun h => absurd (round_edges_disjoint hv h he) (by omega)
    simp only [if_neg this, add_zero]
  · omega

theorem PcLink.congr {j : Nat} {S : Frame} {c c' : Edge → ZMod 2} {R r : List (ZMod 2)} {G : PauliOp} (h : lay.PcLink j S c R r G) (hj : 1 ≤ j)
    (hc : ∀ k : Int, ∀ e ∈ lay.round_edges k, c e = c' e) : lay.PcLink j S c' R r G := by
  obtain ⟨h1, h2, h3, h4, h5, _, h7⟩ := h
  refine ⟨h1, h2, fun e he => by rw [h3 e he, hc _ e he], fun e he => by rw [h4 e he, hc _ e he], fun e he => by rw [h5 e he, hc _ e he], fun h => by omega,
    Or.inr ⟨hj, ?_⟩⟩
  rcases h7 with ⟨h7, _⟩ | ⟨_, h7⟩
  · omega
  · rw [h7]
    exact congrArg (r ++ ·) (List.map_congr_left fun e he => hc _ e he)

theorem settles_pc3 (hv : lay.Valid) (hs : lay.Supported) (he : lay.isEM3 = false) (hp : lay.isPC3 = true) {j M : Nat} (hj : 1 ≤ j)
    (hN : lay.sub_rounds = (j + 3 + M + 1 : Nat)) :
    lay.Settles (j + 3 + M + 1) ((j - 1) * lay.perRound) (j + 3 + 3) (((List.range (3 + M)).flatMap fun i => lay.pc3Emit (j + 3 + M + 1) (j + 1 + i)) ++
      (lay.pc3Emit (j + 3 + M + 1) (j + 3 + M + 1) ++ lay.pc3Emit (j + 3 + M + 1) (j + 3 + M + 1 + 1) ++ lay.pc3ObsEmit (j + 3 + M + 1)) ++
        lay.epilogue (j + 3 + M + 1)) := by
  intro R0 S rec S' hl h
  rw [range_split] at h
  obtain ⟨r1, r2, S4, g1, g2, rfl⟩ := runs_append_actions h
  obtain ⟨r3, r4, S3, g3, g4, rfl⟩ := runs_append_actions g1
  obtain ⟨r5, r6, S2, g5, g6, rfl⟩ := runs_append_actions g3
  obtain ⟨c, G, l⟩ := pc3_any hv hj S R0
  obtain ⟨c1, R1, G1, a1, l1⟩ := pc3_more hv he hp (N := j + 3 + M + 1) (M := 3) (by omega) (RunFrom.start (lay := lay) (k0 := j) (c0 := c)) l g5
  have hl0 : (R0 ++ (lay.round_edges ((j : Int) - 1)).map c).length = j * lay.perRound := by
    obtain ⟨m, rfl⟩ : ∃ m, j = m + 1 := ⟨j - 1, by omega⟩
    rw [List.length_append, hl, List.length_map, perRound_eq hv, Nat.add_sub_cancel, Nat.add_mul, Nat.one_mul]
  have hl1 := a1.glitch_length hv hl0
  have hc : ∀ k : Int, ∀ e ∈ lay.round_edges k, c1 e = lay.fillSum R1 (j + 3) e := by
    intro k e hk
    rw [fillSum_pc3 hv hp]
    have h3 : k % 3 = (j : Int) % 3 ∨ k % 3 = ((j : Int) + 1) % 3 ∨ k % 3 = ((j : Int) + 2) % 3 := by omega
    rcases h3 with h3 | h3 | h3
    · exact a1.last hv hp hl0 e j (by omega) (by omega) (by rw [round_edges_congr lay (r' := k) (by omega)]; exact hk)
    · exact a1.last hv hp hl0 e (j + 1) (by omega) (by omega) (by rw [round_edges_congr lay (r' := k) (by push_cast; omega)]; exact hk)
    · exact a1.last hv hp hl0 e (j + 2) (by omega) (by omega) (by rw [round_edges_congr lay (r' := k) (by push_cast; omega)]; exact hk)
  obtain ⟨c2, R2, G2, a2, l2⟩ := pc3_more hv he hp (N := j + 3 + M + 1) (k := j + 3) (M := M) (by omega)
    (RunFrom.start (lay := lay) (k0 := j + 3) (c0 := lay.fillSum R1 (j + 3)) (F0 := G1)) (l1.congr (by omega) hc)
    (by simpa only [show ∀ i, j + 3 + 1 + i = j + 1 + (3 + i) by intro i; omega] using g6)
  obtain ⟨c3, G3, a3, e3⟩ := pc3_last hv he hp a2 l2 g4
  have := glitch_end hv hs hN hl1 a3 e3 g2
  simpa only [List.append_assoc] using this

end HoneycombLayout
end Honeycomb
