import Verif.Lemmas.Membrane

/-!
# What silent detectors say about the faces
-/

namespace Honeycomb

/-- The entry is known and its parity is `v`. -/
def IsVal (R : Nat → ZMod 2) (o : Option (Finset Nat)) (v : ZMod 2) : Prop := ∃ s, o = some s ∧ val R s = v

theorem IsVal.xorO {R : Nat → ZMod 2} {o p : Option (Finset Nat)} {v w : ZMod 2} (h1 : IsVal R o v) (h2 : IsVal R p w) :
    IsVal R (xorO o p) (v + w) := by
  obtain ⟨s, rfl, rfl⟩ := h1
  obtain ⟨t, rfl, rfl⟩ := h2
  exact ⟨_, rfl, val_symmDiff R s t⟩

theorem IsVal.eq {R : Nat → ZMod 2} {o : Option (Finset Nat)} {v w : ZMod 2} (h1 : IsVal R o v) (h2 : HasVal R o w) : v = w := by
  obtain ⟨s, rfl, rfl⟩ := h1
  exact h2 s rfl

theorem isVal_of {R : Nat → ZMod 2} {o : Option (Finset Nat)} {v : ZMod 2} (h : HasVal R o v) (hs : o ≠ none) : IsVal R o v := by
  cases o with
  | none => exact absurd rfl hs
  | some s => exact ⟨s, rfl, h s rfl⟩

theorem hasVal_of_detI {rec : List (ZMod 2)} {t : Nat} (ht : t ≤ rec.length) {o : Option (Finset Nat)} (hb : BeforeO t o) {c : List Rat}
    (hz : ∀ i ∈ detI t o c, flipParity rec (i, t) = some 0) : HasVal (recAt rec) o 0 := by
  intro s hs
  obtain rfl : o = some s := hs
  have h1 := hz _ (by rw [detI]; exact List.mem_singleton.2 rfl)
  have h2 := flipParity_relTo ht (hb s rfl) (g := .DETECTOR) (as := c.map .lit)
  rw [Instr.detector] at h1
  exact Option.some.inj (h2.symm.trans h1)

namespace HoneycombLayout
variable {lay : HoneycombLayout} {N : Nat} {F : Nat → PauliOp} {rec : List (ZMod 2)}

/-- All detectors of the closed circuit are silent. -/
structure Silent (lay : HoneycombLayout) (N : Nat) (R : Nat → ZMod 2) : Prop where
  first : (lay.obsAt 0).1 = .X → ∀ e ∈ lay.round_edges 0, HasVal R (some (lay.vE 0 e)) 0
  hex : ∀ k < N, ∀ h ∈ lay.round_hex_centers (((k : Int) - 2) % 3),
    HasVal R (xorO (lay.vHex (lay.obsAt 0).1 k h) (lay.prevHex (lay.obsAt 0).1 k h)) 0
  edge : Basis.ofIdx ((N : Int) - 1) = (lay.obsAt N).1 → ∀ e ∈ lay.round_edges (lay.obsAt N).1.index,
    HasVal R (xorO (some (symmDiff {lay.dTime N e.left} {lay.dTime N e.right})) (lay.topEdge (lay.obsAt 0).1 (lay.obsAt N).1.index N e)) 0
  half : Basis.ofIdx ((N : Int) - 1) ≠ (lay.obsAt N).1 → ∀ h ∈ lay.round_hex_centers (otherBasis (Basis.ofIdx ((N : Int) - 1)) (lay.obsAt N).1).index,
    HasVal R (xorO (xorO (some (lay.dHex N h)) (lay.topHalf (lay.obsAt 0).1 (otherBasis (Basis.ofIdx ((N : Int) - 1)) (lay.obsAt N).1).index N h))
        (lay.topHex (lay.obsAt 0).1 (otherBasis (Basis.ofIdx ((N : Int) - 1)) (lay.obsAt N).1).index N h)) 0
  last : ∀ h ∈ lay.round_hex_centers (lay.obsAt N).1.index,
    HasVal R (xorO (some (lay.dHex N h)) (lay.topHex (lay.obsAt 0).1 (lay.obsAt N).1.index N h)) 0

theorem silent_of_detectors (hv : lay.Valid) (hs : lay.Supported) (hN : lay.sub_rounds = N)
    (hl : rec.length = N * lay.perRound + lay.data_qubit_coords.length)
    (hz : ∀ x ∈ timeline 0 (lay.closedCircuit N), x.1.gate = .DETECTOR → flipParity rec x = some 0) : lay.Silent N (recAt rec) := by
  have h1 : 1 ≤ N := by have := hs.2.2.1; omega
  rw [(closed_uses hv hs hN).2.1] at hz
  have hk' : ∀ k < N, (k + 1) * lay.perRound ≤ rec.length := fun k hk => by
    have : (k + 1) * lay.perRound ≤ N * lay.perRound := Nat.mul_le_mul_right _ (by omega)
    omega
  have hann : ∀ k < N, ∀ i ∈ lay.emitAnn k, i.gate = .DETECTOR → flipParity rec (i, (k + 1) * lay.perRound) = some 0 := by
    intro k hk i hi hg
    refine hz _ ?_ hg
    simp only [List.mem_append, List.mem_flatMap, List.mem_range, List.mem_map, roundUses]
    exact Or.inl (Or.inl ⟨k, hk, i, hi, rfl⟩)
  have hfin : ∀ i ∈ lay.emitFinal N N, i.gate = .DETECTOR → flipParity rec (i, N * lay.perRound + lay.data_qubit_coords.length) = some 0 := by
    intro i hi hg
    refine hz _ ?_ hg
    simp only [List.mem_append, List.mem_map]
    exact Or.inr ⟨i, hi, rfl⟩
  have hle : N * lay.perRound ≤ N * lay.perRound + lay.data_qubit_coords.length := by omega
  refine ⟨?_, ?_, ?_, ?_, ?_⟩
  · intro hX e he
    refine hasVal_of_detI (hk' 0 (by omega)) (beforeO_vE hv (k := 0) he) (c := coords3 e.center) fun i hi => ?_
    refine hann 0 (by omega) i ?_ (detI_gate hi)
    simp only [emitAnn, List.mem_append]
    refine Or.inl (Or.inl (Or.inr ?_))
    rw [if_pos (by simp [hX])]
    exact List.mem_flatMap.2 ⟨e, he, hi⟩
  · intro k hk h hh
    refine hasVal_of_detI (hk' k hk) (beforeO_xorO (beforeO_vHex hv _ (by omega) hh) (beforeO_prevHex hv _ (by omega) hh))
      (c := coords3 h) fun i hi => ?_
    refine hann k hk i ?_ (detI_gate hi)
    simp only [emitAnn, List.mem_append]
    exact Or.inl (Or.inr (List.mem_flatMap.2 ⟨h, hh, hi⟩))
  · intro hb e he
    have hd := edge_ends_data hv (round_edges_subset_all he)
    refine hasVal_of_detI hl.ge (beforeO_xorO (a := some (symmDiff _ _)) ?_
      ((beforeO_topEdge hv _ (index_range _).1 (index_range _).2 N he).mono hle)) (c := coords3 e.center) fun i hi => ?_
    · rw [← xorO_some]
      exact beforeO_xorO (beforeO_dTime hd.1) (beforeO_dTime hd.2)
    · refine hfin i ?_ (detI_gate hi)
      simp only [emitFinal, List.mem_append]
      refine Or.inl (Or.inl ?_)
      rw [if_pos hb]
      exact List.mem_flatMap.2 ⟨e, he, hi⟩
  · intro hb h hh
    refine hasVal_of_detI hl.ge (beforeO_xorO (beforeO_xorO (beforeO_dHex hv hh)
        ((beforeO_topHalf hv _ (index_range _).1 (index_range _).2 N hh).mono hle))
        ((beforeO_topHex hv _ (index_range _).1 (index_range _).2 N hh).mono hle)) (c := coords3 h) fun i hi => ?_
    refine hfin i ?_ (detI_gate hi)
    simp only [emitFinal, List.mem_append]
    refine Or.inl (Or.inl ?_)
    rw [if_neg hb]
    exact List.mem_flatMap.2 ⟨h, hh, hi⟩
  · intro h hh
    refine hasVal_of_detI hl.ge (beforeO_xorO (beforeO_dHex hv hh)
        ((beforeO_topHex hv _ (index_range _).1 (index_range _).2 N hh).mono hle)) (c := coords3 h) fun i hi => ?_
    refine hfin i ?_ (detI_gate hi)
    simp only [emitFinal, List.mem_append]
    exact Or.inl (Or.inr (List.mem_flatMap.2 ⟨h, hh, hi⟩))

variable {R : Nat → ZMod 2}

/-- The flips around a face in sub-round `k`. -/
def ring (lay : HoneycombLayout) (F : Nat → PauliOp) (h : Pt) (k : Nat) : ZMod 2 := lay.hexSum h (F k) (Basis.ofIdx k).pauli

/-- The parity of a face completed in sub-round `k`. -/
def comp (lay : HoneycombLayout) (F : Nat → PauliOp) (h : Pt) (k : Nat) : ZMod 2 := lay.ring F h k + if k = 0 then 0 else lay.ring F h (k - 1)

theorem isVal_vHex (hr : lay.Recorded N F R) (hv : lay.Valid) {k : Nat} (hk : k < N) {h : Pt}
    (hx : HexT lay.tile_width lay.tile_height h) (hc : (k : Int) % 3 = (hexColour h + 2) % 3) (hl : 1 ≤ k ∨ lay.obs = "V") :
    IsVal R (lay.vHex (lay.obsAt 0).1 k h) (lay.comp F h k) := by
  have h2 := isVal_of (val_second hr hv hk hx hc) (by rw [xorL_some]; simp)
  rw [vHex, comp]
  refine h2.xorO ?_
  rcases Nat.eq_zero_or_pos k with rfl | hk0
  · rw [if_pos (by omega), if_pos rfl, hInit, if_neg]
    · exact ⟨_, rfl, val_empty R⟩
    · rw [not_not, obsAt_basis, index_ofIdx]
      have : lay.obs = "V" := by rcases hl with h | h; exact absurd h (by omega); exact h
      simp only [loopBasis, this]
      decide
  · rw [if_neg (by omega), if_neg (by omega)]
    exact isVal_of (val_vHalf hr hv (k := k - 1) (by omega) hx (by omega)) (by rw [vHalf, xorL_some]; simp)

theorem isVal_eInit {h : Pt} {r : Int} (hc : r = (lay.obsAt 0).1.index) : IsVal R (eInit (lay.obsAt 0).1 r) 0 := by
  rw [eInit, if_neg (by rw [not_not]; exact hc)]
  exact ⟨_, rfl, val_empty R⟩

theorem zmod2_eq_of_add {a b : ZMod 2} (h : a + b = 0) : a = b := by revert a b; decide

theorem comp_step (hr : lay.Recorded N F R) (hv : lay.Valid) (hq : lay.Silent N R) {k : Nat} (hk : k + 3 < N) {h : Pt}
    (hx : HexT lay.tile_width lay.tile_height h) (hc : (k : Int) % 3 = (hexColour h + 2) % 3) (hl : 1 ≤ k ∨ lay.obs = "V") :
    lay.comp F h (k + 3) = lay.comp F h k := by
  have hcr := hexColour_range h
  have h1 := isVal_vHex hr hv hk hx (by push_cast; omega) (Or.inl (by omega))
  have h2 := isVal_vHex hr hv (by omega) hx hc hl
  have h3 := hq.hex (k + 3) hk h ((mem_round_hex_centers hv).2 ⟨hx, by push_cast; omega⟩)
  rw [prevHex, if_neg (by omega), Nat.add_sub_cancel] at h3
  exact zmod2_eq_of_add ((h1.xorO h2).eq h3)

theorem comp_first (hr : lay.Recorded N F R) (hv : lay.Valid) (hq : lay.Silent N R) {k : Nat} (hk : k < N) (hk3 : k < 3) {h : Pt}
    (hx : HexT lay.tile_width lay.tile_height h) (hc : (k : Int) % 3 = (hexColour h + 2) % 3) (hl : 1 ≤ k ∨ lay.obs = "V")
    (hb : hexColour h = (lay.obsAt 0).1.index) : lay.comp F h k = 0 := by
  have hcr := hexColour_range h
  have h1 := isVal_vHex hr hv hk hx hc hl
  have h3 := hq.hex k hk h ((mem_round_hex_centers hv).2 ⟨hx, by omega⟩)
  rw [prevHex, if_pos hk3] at h3
  have h2 : IsVal R (eInit (lay.obsAt 0).1 (((k : Int) - 2) % 3)) 0 := isVal_eInit (h := h) (by omega)
  exact (zmod2_eq_of_add ((h1.xorO h2).eq h3))

/-- All known parities of a face agree; they are 0 if the face was known at the start. -/
theorem comp_const (hr : lay.Recorded N F R) (hv : lay.Valid) (hq : lay.Silent N R) {h : Pt} (hx : HexT lay.tile_width lay.tile_height h) :
    ∃ m : ZMod 2, (hexColour h = (lay.obsAt 0).1.index → m = 0) ∧ ∀ k < N, (k : Int) % 3 = (hexColour h + 2) % 3 →
      (1 ≤ k ∨ lay.obs = "V") → lay.comp F h k = m := by
  have hcr := hexColour_range h
  obtain ⟨k1, hk1, hc1, hl1, hmin⟩ : ∃ k1 : Nat, k1 ≤ 3 ∧ (k1 : Int) % 3 = (hexColour h + 2) % 3 ∧ (1 ≤ k1 ∨ lay.obs = "V") ∧
      ∀ k : Nat, (k : Int) % 3 = (hexColour h + 2) % 3 → (1 ≤ k ∨ lay.obs = "V") → k1 ≤ k := by
    by_cases h0 : (hexColour h + 2) % 3 = 0 ∧ lay.obs ≠ "V"
    · refine ⟨3, by omega, by push_cast; omega, Or.inl (by omega), fun k hk hl => ?_⟩
      have : 1 ≤ k := by rcases hl with hl | hl; exact hl; exact absurd hl h0.2
      omega
    · refine ⟨((hexColour h + 2) % 3).toNat, by omega, by omega, ?_, fun k hk hl => by omega⟩
      by_cases hV : lay.obs = "V"
      · exact Or.inr hV
      · left
        have : (hexColour h + 2) % 3 ≠ 0 := fun e => h0 ⟨e, hV⟩
        omega
  refine ⟨if hexColour h = (lay.obsAt 0).1.index then 0 else lay.comp F h k1, fun e => if_pos e, ?_⟩
  have base : k1 < N → lay.comp F h k1 = if hexColour h = (lay.obsAt 0).1.index then 0 else lay.comp F h k1 := by
    intro hk
    split_ifs with hb
    · have : k1 < 3 := by
        rcases Nat.lt_or_ge k1 3 with h3 | h3
        · exact h3
        · exfalso
          have e3 : k1 = 3 := by omega
          have hc0 : hexColour h = 1 := by omega
          rw [hc0, obsAt_basis, index_ofIdx] at hb
          simp only [loopBasis] at hb
          split_ifs at hb <;> revert hb <;> decide
      exact comp_first hr hv hq hk this hx hc1 hl1 hb
    · rfl
  have step : ∀ j : Nat, k1 + 3 * j < N → lay.comp F h (k1 + 3 * j) = if hexColour h = (lay.obsAt 0).1.index then 0 else lay.comp F h k1 := by
    intro j
    induction j with
    | zero => simpa using base
    | succ j ih =>
      intro hj
      rw [← ih (by omega), show k1 + 3 * (j + 1) = k1 + 3 * j + 3 by ring]
      refine comp_step hr hv hq (by omega) hx (by push_cast; omega) ?_
      rcases hl1 with hl | hl
      · left; omega
      · right; exact hl
  intro k hk hc hl
  have := hmin k hc hl
  obtain ⟨j, rfl⟩ : ∃ j, k = k1 + 3 * j := ⟨(k - k1) / 3, by omega⟩
  exact step j hk

/-- The position of a face in its six sub-round cycle. -/
def phase (lay : HoneycombLayout) (h : Pt) (t : Nat) : Int := ((t : Int) + 2 * hexColour h + if lay.obs = "V" then 0 else 3) % 6

theorem faceSum_phase (hr : lay.Recorded N F R) (hv : lay.Valid) (hq : lay.Silent N R) {h : Pt} (hx : HexT lay.tile_width lay.tile_height h)
    {m : ZMod 2} (hm0 : hexColour h = (lay.obsAt 0).1.index → m = 0)
    (hm : ∀ k < N, (k : Int) % 3 = (hexColour h + 2) % 3 → (1 ≤ k ∨ lay.obs = "V") → lay.comp F h k = m)
    {t : Nat} (h1 : 1 ≤ t) (ht : t ≤ N) :
    (lay.phase h t = 0 ∨ lay.phase h t = 1 → lay.faceSum F h t = 0) ∧
    (lay.phase h t = 2 → lay.faceSum F h t = lay.ring F h (t - 1)) ∧
    (lay.phase h t = 3 ∨ lay.phase h t = 4 → lay.faceSum F h t = m) ∧
    (lay.phase h t = 5 → lay.faceSum F h t = m + lay.ring F h (t - 1)) := by
  have hcr := hexColour_range h
  have hb0 : (lay.obsAt 0).1.index = if lay.obs = "V" then 2 else 0 := by
    rw [obsAt_basis, index_ofIdx, loopBasis]
    split_ifs <;> first | rfl | omega
  obtain ⟨t, rfl⟩ := Nat.exists_eq_add_of_le h1
  rw [Nat.add_comm 1 t] at *
  induction t with
  | zero =>
    have e1 : lay.faceSum F h 1 = if (0 : Int) = hexColour h then 0 else lay.ring F h 0 := by
      rw [faceSum, faceSum, zero_add]; rfl
    simp only [zero_add, Nat.sub_self] at *
    rw [e1]
    by_cases hV : lay.obs = "V"
    · simp only [phase, hV, if_true] at *
      have h3 : hexColour h = 0 ∨ hexColour h = 1 ∨ hexColour h = 2 := by omega
      rcases h3 with hc | hc | hc
      · simp [hc]
      · have := hm 0 (by omega) (by rw [hc]; decide) (Or.inr trivial)
        rw [comp, if_pos rfl, add_zero] at this
        simp [hc, this]
      · have := hm0 (hc.trans hb0.symm)
        simp [hc, this]
    · simp only [phase, hV, if_false] at *
      have hX : (lay.obsAt 0).1 = .X := by rw [← ofIdx_index (lay.obsAt 0).1, hb0]; decide
      have h3 : hexColour h = 0 ∨ hexColour h = 1 ∨ hexColour h = 2 := by omega
      rcases h3 with hc | hc | hc
      · have := hm0 (hc.trans hb0.symm)
        simp [hc, this]
      · have hz : lay.ring F h 0 = 0 := by
          rw [ring, hexSum, ← sum_second hx]
          refine sum_map_eq_zero fun e he => ?_
          have he0 : e ∈ lay.round_edges 0 := by
            rw [round_edges_congr lay (r' := hexColour h + 2) (by rw [hc]; decide)]; exact second_edges_mem hv hx he
          have := hq.first hX e he0 _ rfl
          rw [hr.edge 0 (by omega) e he0] at this
          exact this
        simp [hc, hz]
      · simp [hc]
  | succ t ih =>
    have ih := ih (by omega) (by omega)
    have e1 : lay.faceSum F h (t + 1 + 1) = lay.faceSum F h (t + 1) + if (((t + 1 : Nat) : Int)) % 3 = hexColour h then 0 else lay.ring F h (t + 1) := by
      rw [faceSum]; rfl
    have hp : lay.phase h (t + 1 + 1) = (lay.phase h (t + 1) + 1) % 6 := by
      simp only [phase]; push_cast; omega
    have hp3 : lay.phase h (t + 1) % 3 = (((t + 1 : Nat) : Int) + 2 * hexColour h) % 3 := by
      simp only [phase]; split_ifs <;> omega
    have hpr : 0 ≤ lay.phase h (t + 1) ∧ lay.phase h (t + 1) < 6 := by simp only [phase]; omega
    have hcomp : (((t + 1 : Nat) : Int)) % 3 = (hexColour h + 2) % 3 → lay.ring F h (t + 1) + lay.ring F h t = m := by
      intro hc
      have := hm (t + 1) (by omega) hc (Or.inl (by omega))
      rwa [comp, if_neg (by omega), Nat.add_sub_cancel] at this
    rw [e1, hp]
    simp only [Nat.add_sub_cancel] at ih ⊢
    generalize lay.phase h (t + 1) = u at *
    have hu : u = 0 ∨ u = 1 ∨ u = 2 ∨ u = 3 ∨ u = 4 ∨ u = 5 := by omega
    rcases hu with rfl | rfl | rfl | rfl | rfl | rfl
    · rw [if_pos (by omega), ih.1 (Or.inl rfl)]; simp
    · rw [if_neg (by omega), ih.1 (Or.inr rfl)]; simp
    · rw [if_neg (by omega), ih.2.1 rfl, add_comm (lay.ring F h t), hcomp (by omega)]; simp
    · rw [if_pos (by omega), ih.2.2.1 (Or.inl rfl)]; simp
    · rw [if_neg (by omega), ih.2.2.1 (Or.inr rfl)]; simp
    · rw [if_neg (by omega), ih.2.2.2 rfl, add_assoc, add_comm (lay.ring F h t), hcomp (by omega), zmod2_add_self]; simp

theorem isVal_topHex (hr : lay.Recorded N F R) (hv : lay.Valid) {h : Pt} (hx : HexT lay.tile_width lay.tile_height h)
    {m : ZMod 2} (hm0 : hexColour h = (lay.obsAt 0).1.index → m = 0)
    (hm : ∀ k < N, (k : Int) % 3 = (hexColour h + 2) % 3 → (1 ≤ k ∨ lay.obs = "V") → lay.comp F h k = m)
    (hN : 1 ≤ N) (hp : lay.phase h N = 3 ∨ lay.phase h N = 4 ∨ lay.phase h N = 5) :
    IsVal R (lay.topHex (lay.obsAt 0).1 (hexColour h) N h) m := by
  have hcr := hexColour_range h
  have hb0 : (lay.obsAt 0).1.index = if lay.obs = "V" then 2 else 0 := by
    rw [obsAt_basis, index_ofIdx, loopBasis]
    split_ifs <;> first | rfl | omega
  obtain ⟨d, h1, h3, hd, e⟩ := topAt_cases (fun j => lay.vHex (lay.obsAt 0).1 j h) (eInit (lay.obsAt 0).1 (hexColour h)) (c := (hexColour h + 2) % 3)
    (by omega) (by omega) N
  simp only [phase] at hp
  rw [topHex, e]
  split_ifs with hNd
  · have hc : hexColour h = (lay.obsAt 0).1.index := by
      rw [hb0]; split_ifs at hp ⊢ <;> omega
    have := isVal_eInit (R := R) (h := h) hc
    rwa [← hm0 hc] at this
  · have hl : 1 ≤ N - d ∨ lay.obs = "V" := by
      split_ifs at hp with hV
      · exact Or.inr hV
      · left; omega
    rw [← hm (N - d) (by omega) (by omega) hl]
    exact isVal_vHex hr hv (by omega) hx (by omega) hl

theorem quiet_of_silent (hr : lay.Recorded N F R) (hv : lay.Valid) (hq : lay.Silent N R) (hN : 1 ≤ N) : lay.Quiet N F := by
  constructor
  · intro t ht h hx hc
    obtain ⟨m, hm0, hm⟩ := comp_const hr hv hq hx
    have hcr := hexColour_range h
    rcases Nat.eq_zero_or_pos t with rfl | h1
    · rfl
    · refine (faceSum_phase hr hv hq hx hm0 hm h1 ht).1 ?_
      simp only [loopColour] at hc
      simp only [phase]
      split_ifs at hc ⊢ <;> omega
  · intro h hx hc
    obtain ⟨m, hm0, hm⟩ := comp_const hr hv hq hx
    have hcr := hexColour_range h
    obtain ⟨-, f2, f34, f5⟩ := faceSum_phase hr hv hq hx hm0 hm hN le_rfl
    have hB : (lay.obsAt N).1 = Basis.ofIdx (lay.loopBasis N) := obsAt_basis lay N
    have hi : (lay.obsAt N).1.index = lay.loopBasis N % 3 := by rw [hB, index_ofIdx]
    have hdH := isVal_of (val_dHex hr hv hx) (by simp)
    rw [← hB]
    have hp : lay.phase h N = 2 ∨ lay.phase h N = 3 ∨ lay.phase h N = 4 ∨ lay.phase h N = 5 := by
      simp only [loopColour] at hc
      simp only [phase]
      split_ifs at hc ⊢ <;> omega
    rcases hp with hp | hp
    · -- the final edges
      rw [f2 hp, ring]
      have hbas : (lay.loopBasis N - ((N : Int) - 1)) % 3 = 0 ∧ ((N : Int) - 1) % 3 = (hexColour h + 1) % 3 := by
        simp only [phase] at hp
        simp only [loopBasis]
        split_ifs at hp ⊢ <;> omega
      have hb : Basis.ofIdx ((N : Int) - 1) = (lay.obsAt N).1 := by rw [hB]; exact ofIdx_congr (by omega)
      have hP : Basis.ofIdx ((N - 1 : Nat) : Int) = (lay.obsAt N).1 := by rw [← hb]; exact ofIdx_congr (by omega)
      rw [hP, hexSum, hexSum, ← sum_first hx, ← sum_first hx, ← sum_map_add]
      refine sum_map_eq_zero fun e he => ?_
      have he' : e ∈ lay.round_edges ((N - 1 : Nat) : Int) := by
        rw [round_edges_congr lay (r' := hexColour h + 1) (by omega)]; exact first_edges_mem hv hx he
      have he'' : e ∈ lay.round_edges (lay.obsAt N).1.index := by
        rw [round_edges_congr lay (r' := ((N - 1 : Nat) : Int)) (by omega)]; exact he'
      have hd := edge_ends_data hv (round_edges_subset_all he')
      have hz := hq.edge hb e he''
      rw [topEdge, topAt_eq _ _ (d := 1) (by omega) (by omega) (by push_cast; omega), if_neg (by omega)] at hz
      have h2 : IsVal R (some (lay.vE (N - 1) e)) (par (F (N - 1)) ((N - 1 : Nat) : Int) e) := ⟨_, rfl, hr.edge (N - 1) (by omega) e he'⟩
      have h1 : IsVal R (some (symmDiff {lay.dTime N e.left} {lay.dTime N e.right})) _ := ⟨_, rfl, rfl⟩
      have := (h1.xorO h2).eq hz
      rw [val_symmDiff, val_singleton, val_singleton, hr.data _ hd.1, hr.data _ hd.2, par, hP] at this
      rw [add_comm]; exact this
    · have hT := isVal_topHex hr hv hx hm0 hm hN hp
      rcases hp with hp | hp | hp
      all_goals
        first
        | (have hcB : (lay.obsAt N).1.index = hexColour h := by
             rw [hi]
             simp only [phase] at hp
             simp only [loopBasis]
             split_ifs at hp ⊢ <;> omega
           have hz := hq.last h ((mem_round_hex_centers hv).2 ⟨hx, hcB.symm⟩)
           rw [hcB] at hz
           have := (hdH.xorO hT).eq hz
           rw [f34 (by simp [hp]), add_comm]; exact this)
        | (have hb : Basis.ofIdx ((N : Int) - 1) ≠ (lay.obsAt N).1 := by
             intro e
             have := congrArg Basis.index e
             rw [hi, index_ofIdx] at this
             simp only [phase] at hp
             simp only [loopBasis] at this
             split_ifs at hp this <;> omega
           obtain ⟨o1, o2⟩ := other_colour (lay := lay) N hb
           have hcB : (otherBasis (Basis.ofIdx ((N : Int) - 1)) (lay.obsAt N).1).index = hexColour h := by
             rw [o1]
             simp only [phase] at hp
             split_ifs at hp <;> omega
           have hz := hq.half hb h ((mem_round_hex_centers hv).2 ⟨hx, hcB.symm⟩)
           rw [hcB] at hz
           have h2 : IsVal R (lay.topHalf (lay.obsAt 0).1 (hexColour h) N h) (lay.ring F h (N - 1)) := by
             rw [topHalf, topAt_eq _ _ (d := 1) (by omega) (by omega) (by push_cast; omega), if_neg (by omega)]
             exact isVal_of (val_vHalf hr hv (by omega) hx (by omega)) (by rw [vHalf, xorL_some]; simp)
           have := ((hdH.xorO h2).xorO hT).eq hz
           rw [f5 hp]
           linear_combination this)

end HoneycombLayout
end Honeycomb
