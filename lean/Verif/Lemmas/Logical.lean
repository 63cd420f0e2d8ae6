import Verif.Lemmas.FaultyNoise

/-! A row or column of faults that no detector sees and that flips the observable. -/

namespace Honeycomb
namespace HoneycombLayout
variable {lay : HoneycombLayout} {N : Nat}

/-! ## The faults -/

/-- The data qubits that are hit. -/
def lineQubits (lay : HoneycombLayout) : List Pt :=
  if lay.obs = "V" then lay.data_qubit_coords.filter fun q => q.y = 2 else lay.data_qubit_coords.filter fun q => q.x = 2 ∧ q.y / 2 % 3 ≠ 0

/-- The faults. -/
def lineFault (lay : HoneycombLayout) (q : Pt) : Pauli :=
  if q ∈ lay.lineQubits then (if lay.obs = "V" then Basis.X.pauli else Basis.Z.pauli) else 0

theorem row_length (hv : lay.Valid) : ((lay.data_qubit_coords.filter fun q => q.y = 2).length : Int) = lay.data_width := by
  have hw := Valid.tw_pos hv
  have hh := Valid.th_pos hv
  have hdw := Valid.dw hv
  have hp : (lay.data_qubit_coords.filter fun q => q.y = 2).Perm ((List.range lay.data_width.toNat).map fun i : Nat => (⟨4 * i + 2, 2⟩ : Pt)) := by
    refine (List.perm_ext_iff_of_nodup ((nodup_data_qubit_coords lay).filter _) (List.Nodup.map ?_ List.nodup_range)).2 fun q => ?_
    · intro i j h
      have := congrArg Pt.x h
      simp only at this
      omega
    · simp only [List.mem_filter, mem_data_qubit_coords hv, DataT, OnT, decide_eq_true_eq, List.mem_map, List.mem_range]
      constructor
      · rintro ⟨⟨⟨a, b, c, d⟩, e, f⟩, g⟩
        refine ⟨(q.x / 4).toNat, by omega, ?_⟩
        rcases q with ⟨x, y⟩
        simp only at *
        subst g
        congr 1
        omega
      · rintro ⟨i, hi, rfl⟩
        refine ⟨⟨⟨?_, ?_, ?_, ?_⟩, ?_, ?_⟩, ?_⟩ <;> dsimp only <;> omega
  rw [hp.length_eq, List.length_map, List.length_range]
  omega

theorem column_length (hv : lay.Valid) :
    ((lay.data_qubit_coords.filter fun q => q.x = 2 ∧ q.y / 2 % 3 ≠ 0).length : Int) = lay.data_height / 3 * 2 := by
  have hw := Valid.tw_pos hv
  have hh := Valid.th_pos hv
  have hdh := Valid.dh hv
  have hp : (lay.data_qubit_coords.filter fun q => q.x = 2 ∧ q.y / 2 % 3 ≠ 0).Perm
      ((List.range (lay.data_height / 3 * 2).toNat).map fun i : Nat => (⟨2, 2 * (3 * (i / 2) + i % 2 + 1 : Nat)⟩ : Pt)) := by
    refine (List.perm_ext_iff_of_nodup ((nodup_data_qubit_coords lay).filter _) (List.Nodup.map ?_ List.nodup_range)).2 fun q => ?_
    · intro i j h
      have := congrArg Pt.y h
      simp only at this
      omega
    · simp only [List.mem_filter, mem_data_qubit_coords hv, DataT, OnT, decide_eq_true_eq, List.mem_map, List.mem_range]
      constructor
      · rintro ⟨⟨⟨a, b, c, d⟩, e, f⟩, g, g'⟩
        refine ⟨(q.y / 2 / 3 * 2 + (q.y / 2 % 3 - 1)).toNat, by omega, ?_⟩
        rcases q with ⟨x, y⟩
        simp only at *
        subst g
        congr 1
        omega
      · rintro ⟨i, hi, rfl⟩
        refine ⟨⟨⟨?_, ?_, ?_, ?_⟩, ?_, ?_⟩, ?_, ?_⟩ <;> dsimp only <;> omega
  rw [hp.length_eq, List.length_map, List.length_range]
  omega

theorem lineQubits_length (hv : lay.Valid) :
    (lay.lineQubits.length : Int) = if lay.obs = "V" then lay.data_width else lay.data_height / 3 * 2 := by
  rw [lineQubits]
  split_ifs
  · exact row_length hv
  · exact column_length hv

/-- The loop of the other observable. -/
theorem lineFault_loop (hv : lay.Valid) {q : Pt} (hq : q ∈ lay.data_qubit_coords) :
    lay.lineFault q = if lay.obs = "V" then lay.zigLoop 0 1 q • Basis.X.pauli else colLoop 2 0 q • Basis.Z.pauli := by
  rw [lineFault, lineQubits]
  by_cases hV : lay.obs = "V"
  · simp only [hV, if_true]
    rw [zig_zero hv hq]
    by_cases h2 : q.y = 2
    · rw [if_pos (by simp [hq, h2]), if_pos h2, if_neg (by decide), one_smul_pauli]
    · rw [if_neg (by simp [h2]), if_neg h2]
      split_ifs <;> first | (rw [zero_smul_pauli]; done) | omega
  · simp only [hV, if_false]
    rw [colLoop, sub_zero]
    by_cases h2 : q.x = 2 ∧ q.y / 2 % 3 ≠ 0
    · rw [if_pos (by simpa [hq] using h2), if_pos h2, one_smul_pauli]
    · rw [if_neg (by simpa [hq] using h2), if_neg h2, zero_smul_pauli]

theorem hex_even (hv : lay.Valid) {g : Int → Pt → ZMod 2} (hg : lay.IsLoop g) {h : Pt} (hx : HexT lay.tile_width lay.tile_height h) (k : Int) :
    ((lay.qubits_around_hex h).map (g k)).sum = 0 := by
  have first : ∀ k, k % 3 = (hexColour h + 1) % 3 → ((lay.qubits_around_hex h).map (g k)).sum = 0 := by
    intro k hk
    rw [← sum_first hx]
    refine sum_map_eq_zero fun e he => ?_
    rw [hg.edge k e (by rw [round_edges_congr lay (r' := hexColour h + 1) hk]; exact first_edges_mem hv hx he), zmod2_add_self]
  have second : ∀ k, k % 3 = (hexColour h + 2) % 3 → ((lay.qubits_around_hex h).map (g k)).sum = 0 := by
    intro k hk
    rw [← sum_second hx]
    refine sum_map_eq_zero fun e he => ?_
    rw [hg.edge k e (by rw [round_edges_congr lay (r' := hexColour h + 2) hk]; exact second_edges_mem hv hx he), zmod2_add_self]
  have : k % 3 = (hexColour h + 1) % 3 ∨ k % 3 = (hexColour h + 2) % 3 ∨ k % 3 = (hexColour h) % 3 := by omega
  rcases this with hk | hk | hk
  · exact first k hk
  · exact second k hk
  · rw [sum_map_congr (g := fun q => g (k - 1) q + g (k - 2) q), sum_map_add, second _ (by omega), first _ (by omega), add_zero]
    intro q hq
    have := hg.vertex q (qubits_around_hex_data hv hx hq) (k - 1)
    rwa [show k - 1 + 1 = k by ring, show k - 1 - 1 = k - 2 by ring] at this

/-! ## Undetected -/

theorem obs_zero_basis (lay : HoneycombLayout) : (lay.obsAt 0).1 = if lay.obs = "V" then .Z else .X := by
  rw [obsAt_basis, loopBasis]
  split_ifs <;> first | rfl | omega

theorem line_calm (hv : lay.Valid) {F : Nat → PauliOp} (h0 : ∀ q ∈ lay.data_qubit_coords, ∃ r : ZMod 2, F 0 q = r • (lay.obsAt 0).1.pauli + lay.lineFault q)
    (hst : ∀ k : Nat, k < N → ∀ e ∈ lay.round_edges k, ∃ r : ZMod 2, F (k + 1) e.left = F k e.left + r • (Basis.ofIdx k).pauli ∧
        F (k + 1) e.right = F k e.right + r • (Basis.ofIdx k).pauli) : lay.Calm N F where
  hex_init h hx := by
    have e : lay.hexSum h (F 0) (lay.obsAt 0).1.pauli = ((lay.qubits_around_hex h).map fun q => anti (lay.lineFault q) (lay.obsAt 0).1.pauli).sum :=
      sum_map_congr fun q hq => by
        obtain ⟨r, e⟩ := h0 q (qubits_around_hex_data hv hx hq)
        rw [e, anti_add_left, smul_self_anti, zero_add]
    rw [e, obs_zero_basis]
    by_cases hV : lay.obs = "V"
    · rw [← hex_even hv (isLoop_zig hv 0) hx 1]
      refine sum_map_congr fun q hq => ?_
      rw [lineFault_loop hv (qubits_around_hex_data hv hx hq), if_pos hV, if_pos hV, anti_smul_left, show anti Basis.X.pauli Basis.Z.pauli = 1 by decide, mul_one]
    · rw [← hex_even hv (isLoop_col hv 2) hx 0]
      refine sum_map_congr fun q hq => ?_
      rw [lineFault_loop hv (qubits_around_hex_data hv hx hq), if_neg hV, if_neg hV, anti_smul_left, show anti Basis.Z.pauli Basis.X.pauli = 1 by decide, mul_one]
  edge_init hX e he := by
    have hd := edge_ends_data hv (round_edges_subset_all he)
    have hV : lay.obs ≠ "V" := fun hV => by
      rw [obs_zero_basis, if_pos hV] at hX
      cases hX
    obtain ⟨r1, e1⟩ := h0 _ hd.1
    obtain ⟨r2, e2⟩ := h0 _ hd.2
    rw [e1, e2, hX, anti_add_left, anti_add_left, smul_self_anti, smul_self_anti, zero_add, zero_add, lineFault_loop hv hd.1, lineFault_loop hv hd.2,
      if_neg hV, if_neg hV, (isLoop_col hv 2).edge 0 e he, zmod2_add_self]
  step := hst

/-! ## The observable is flipped -/

theorem sum_single {l : List Pt} (hl : l.Nodup) {p : Pt} (hp : p ∈ l) : (l.map fun q => if q = p then (1 : ZMod 2) else 0).sum = 1 := by
  induction l with
  | nil => simp at hp
  | cons a l ih =>
    rw [List.map_cons, List.sum_cons]
    obtain ⟨h1, h2⟩ := List.nodup_cons.1 hl
    by_cases ha : a = p
    · subst ha
      rw [if_pos rfl, sum_map_eq_zero, add_zero]
      intro q hq
      rw [if_neg]
      rintro rfl
      exact h1 hq
    · rw [if_neg ha, zero_add]
      exact ih h2 ((List.mem_cons.1 hp).resolve_left (Ne.symm ha))

theorem line_err (hv : lay.Valid) {E : Nat → PauliOp} (h0 : E 0 = lay.lineFault) : lay.loopErr E lay.obsLoop 0 = 1 := by
  have hw := Valid.tw_pos hv
  have hh := Valid.th_pos hv
  have hm : (⟨2, 2⟩ : Pt) ∈ lay.data_qubit_coords := (mem_data_qubit_coords hv).2 ⟨⟨by simp, by simp; omega, by simp, by simp; omega⟩, by simp, by simp⟩
  rw [loopErr, ← sum_single (nodup_data_qubit_coords lay) hm, h0]
  refine sum_map_congr fun q hq => ?_
  rw [lineFault_loop hv hq, obsLoop, loopColour, loopBasis]
  have hqe : q = ⟨2, 2⟩ ↔ q.x = 2 ∧ q.y = 2 := by
    rcases q with ⟨x, y⟩
    simp
  have hy := ((mem_data_qubit_coords hv).1 hq).2.2
  by_cases hV : lay.obs = "V"
  · simp only [hV, if_true]
    rw [if_pos (by decide), if_pos (by decide), anti_smul_left, zig_zero hv hq, colLoop, show anti Basis.X.pauli (Basis.ofIdx (((0 : Nat) : Int) - 1)).pauli = 1 by decide,
      mul_one]
    simp only [hqe]
    push_cast
    split_ifs <;> first | rfl | omega
  · simp only [hV, if_false]
    rw [if_neg (by decide), if_neg (by decide), anti_smul_left, zig_zero hv hq, colLoop, show anti Basis.Z.pauli (Basis.ofIdx ((0 : Nat) : Int)).pauli = 1 by decide,
      mul_one]
    simp only [hqe]
    push_cast
    split_ifs <;> first | rfl | omega

theorem line_value (hv : lay.Valid) {F : Nat → PauliOp} (h0 : ∀ q ∈ lay.data_qubit_coords, ∃ r : ZMod 2, F 0 q = r • (lay.obsAt 0).1.pauli + lay.lineFault q)
    (hst : ∀ k : Nat, k < N → ∀ e ∈ lay.round_edges k, ∃ r : ZMod 2, F (k + 1) e.left = F k e.left + r • (Basis.ofIdx k).pauli ∧
        F (k + 1) e.right = F k e.right + r • (Basis.ofIdx k).pauli) : lay.loopValue F lay.obsLoop N = 1 := by
  have ht : lay.FaultyTrajectory N (fun k => if k = 0 then lay.lineFault else 0) F := by
    refine ⟨fun q hq => by simpa using h0 q hq, fun k hk e he => ?_⟩
    obtain ⟨r, e1, e2⟩ := hst k hk e he
    refine ⟨r, ?_, ?_⟩
    · rw [e1]; simp
    · rw [e2]; simp
  have := ht.membrane hv (G := fun _ => lay.obsLoop) (fun _ => isLoop_obs hv) (fun _ _ _ _ => rfl) (le_refl N)
  have hz : (((List.range N).map Nat.succ).map fun k => lay.loopErr (fun k => if k = 0 then lay.lineFault else 0) lay.obsLoop k).sum = 0 := by
    refine sum_map_eq_zero fun k hk => ?_
    obtain ⟨j, _, rfl⟩ := List.mem_map.1 hk
    rw [loopErr]
    refine sum_map_eq_zero fun q _ => ?_
    simp [anti]
  rw [List.range_succ_eq_map, List.map_cons, List.sum_cons, line_err hv (by simp), hz, add_zero] at this
  exact this

end HoneycombLayout
end Honeycomb
