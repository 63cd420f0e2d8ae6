import Verif.Lemmas.Abstract
import Verif.Spec.Frame

/-! All detectors and the observable have even parity along a trajectory. -/

namespace Honeycomb

/-- The record as a function of time. -/
def recAt (rec : List (ZMod 2)) (t : Nat) : ZMod 2 := rec.getD t 0

theorem foldr_parity {α : Type} {l : List α} {f : α → Option (ZMod 2)} {w : α → ZMod 2} (h : ∀ a ∈ l, f a = some (w a)) :
    l.foldr (fun x acc => do let a ← acc; let b ← f x; return b + a) (some 0) = some (l.map w).sum := by
  induction l with
  | nil => rfl
  | cons a l ih =>
    rw [List.foldr_cons, ih fun b hb => h b (by simp [hb]), h a (by simp)]
    simp

theorem flipParity_relTo {rec : List (ZMod 2)} {t : Nat} (ht : t ≤ rec.length) {s : Finset Nat} (hs : ∀ x ∈ s, x < t)
    {g : Gate} {as : List Arg} :
    flipParity rec ({ gate := g, targets := (relTo t s).map .record, args := as }, t) = some (val (recAt rec) s) := by
  have e1 : recordIndices ({ gate := g, targets := (relTo t s).map .record, args := as }, t) = (s.sort (· ≤ ·)).map fun x : Nat => (x : Int) := by
    simp only [recordIndices, relTo, List.map_map, List.filterMap_map]
    rw [← List.filterMap_eq_map]
    congr 1
    funext x
    simp
  have e2 : val (recAt rec) s = ((s.sort (· ≤ ·)).map (recAt rec)).sum := by
    rw [val, ← Finset.sum_map_toList]
    exact ((Finset.sort_perm_toList s _).map _).sum_eq.symm
  rw [flipParity, e1, e2, List.foldr_map]
  refine foldr_parity fun x hx => ?_
  have := hs x ((Finset.mem_sort _).1 hx)
  rw [recordBit, if_pos (by omega), Int.toNat_natCast, List.getElem?_eq_getElem (by omega), recAt, List.getD_eq_getElem?_getD, List.getElem?_eq_getElem (by omega), Option.getD_some]

theorem flipParity_detI {rec : List (ZMod 2)} {t : Nat} (ht : t ≤ rec.length) {o : Option (Finset Nat)} (hb : BeforeO t o)
    (hz : HasVal (recAt rec) o 0) {c : List Rat} {i : Instr} (hi : i ∈ detI t o c) : flipParity rec (i, t) = some 0 := by
  cases o with
  | none => simp [detI] at hi
  | some s =>
    simp only [detI, List.mem_singleton] at hi
    subst hi
    rw [← hz s rfl]
    exact flipParity_relTo ht (hb s rfl)

namespace HoneycombLayout
variable {lay : HoneycombLayout} {N : Nat} {F : Nat → PauliOp} {rec : List (ZMod 2)}

theorem ann_zero (hv : lay.Valid) (ht : lay.Calm N F) (hr : lay.Recorded N F (recAt rec)) {k : Nat} (hk : k < N)
    (hl : N * lay.perRound ≤ rec.length) {i : Instr} (h : i ∈ lay.emitAnn k) (hg : i.gate = .DETECTOR) :
    flipParity rec (i, (k + 1) * lay.perRound) = some 0 := by
  have hlen : (k + 1) * lay.perRound ≤ rec.length := le_trans (Nat.mul_le_mul_right _ (by omega)) hl
  simp only [emitAnn, List.mem_append, List.mem_singleton, or_assoc] at h
  rcases h with h | h | h | h
  · split_ifs at h
    · simp at h
    · rw [List.mem_singleton] at h; subst h; simp [Instr.observable] at hg
  · split_ifs at h with hk
    · obtain ⟨rfl, hX⟩ := hk
      obtain ⟨e, he, hi⟩ := List.mem_flatMap.1 h
      refine flipParity_detI hlen (beforeO_vE hv (k := 0) he) (hasVal_some ?_) hi
      rw [hr.edge 0 (by omega) e he, par, show Basis.ofIdx ((0 : Nat) : Int) = .X from by decide]
      exact ht.edge_init hX e he
    · simp at h
  · obtain ⟨h, hh, hi⟩ := List.mem_flatMap.1 h
    refine flipParity_detI hlen (beforeO_xorO (beforeO_vHex hv _ (by omega) hh) (beforeO_prevHex hv _ (by omega) hh)) ?_ hi
    obtain ⟨hx, hc⟩ := (mem_round_hex_centers hv).1 hh
    have h1 := (val_vHex hr ht hv hk hx (by omega)).xorO (val_prevHex hr ht hv hk hx (by omega))
    rwa [zmod2_add_self] at h1
  · subst h; simp [Instr.shift] at hg

theorem final_zero (hv : lay.Valid) (ht : lay.Calm N F) (hr : lay.Recorded N F (recAt rec)) (hN : 1 ≤ N)
    (hl : N * lay.perRound + lay.data_qubit_coords.length ≤ rec.length) {i : Instr} (h : i ∈ lay.emitFinal N N) (hg : i.gate = .DETECTOR) :
    flipParity rec (i, N * lay.perRound + lay.data_qubit_coords.length) = some 0 := by
  have hle : N * lay.perRound ≤ N * lay.perRound + lay.data_qubit_coords.length := by omega
  simp only [emitFinal, List.mem_append, List.mem_singleton, or_assoc] at h
  rcases h with h | h | h
  · split_ifs at h with hb
    · obtain ⟨e, he, hi⟩ := List.mem_flatMap.1 h
      have hd := edge_ends_data hv (round_edges_subset_all he)
      have hbi : (lay.obsAt N).1.index = ((N : Int) - 1) % 3 := by rw [← hb, index_ofIdx]
      refine flipParity_detI hl (beforeO_xorO (a := some (symmDiff _ _)) ?_ ((beforeO_topEdge hv _ (index_range _).1 (index_range _).2 N he).mono hle)) ?_ hi
      · rw [← xorO_some]
        exact beforeO_xorO (beforeO_dTime hd.1) (beforeO_dTime hd.2)
      · have he' : e ∈ lay.round_edges ((N - 1 : Nat) : Int) := by
          rw [round_edges_congr lay (r' := (lay.obsAt N).1.index) (by omega)]; exact he
        obtain ⟨r, e1, e2⟩ := ht.step (N - 1) (by omega) e he'
        have hP : Basis.ofIdx ((N - 1 : Nat) : Int) = (lay.obsAt N).1 := by
          rw [← hb]; exact ofIdx_congr (by omega)
        rw [show N - 1 + 1 = N by omega, hP] at e1 e2
        rw [topEdge, topAt_eq _ _ (d := 1) (by omega) (by omega) (by push_cast; omega), if_neg (by omega)]
        have h2 := hasVal_some (hr.edge (N - 1) (by omega) e he')
        have h1 : HasVal (recAt rec) (some (symmDiff {lay.dTime N e.left} {lay.dTime N e.right})) (par (F (N - 1)) ((N - 1 : Nat) : Int) e) := by
          refine hasVal_some ?_
          rw [val_symmDiff, val_singleton, val_singleton, hr.data _ hd.1, hr.data _ hd.2, e1, e2, par, hP, anti_add_left, anti_add_left,
            smul_self_anti, add_zero, add_zero]
        have := h1.xorO h2
        rwa [zmod2_add_self] at this
    · obtain ⟨h, hh, hi⟩ := List.mem_flatMap.1 h
      obtain ⟨hx, hc⟩ := (mem_round_hex_centers hv).1 hh
      obtain ⟨o1, o2⟩ := other_colour (lay := lay) N hb
      have hr' := index_range (otherBasis (Basis.ofIdx ((N : Int) - 1)) (lay.obsAt N).1)
      refine flipParity_detI hl (beforeO_xorO (beforeO_xorO (beforeO_dHex hv hh)
        ((beforeO_topHalf hv _ (index_range _).1 (index_range _).2 N hh).mono hle))
        ((beforeO_topHex hv _ (index_range _).1 (index_range _).2 N hh).mono hle)) ?_ hi
      have hcol : (otherBasis (Basis.ofIdx ((N : Int) - 1)) (lay.obsAt N).1).index = hexColour h := by omega
      have h3 := val_topHex hr ht hv hx hcol
      have h1 := val_dHex hr hv hx
      have h2 : HasVal (recAt rec) (lay.topHalf (lay.obsAt 0).1 (otherBasis (Basis.ofIdx ((N : Int) - 1)) (lay.obsAt N).1).index N h)
          (lay.hexSum h (F (N - 1)) (Basis.ofIdx ((N - 1 : Nat) : Int)).pauli) := by
        rw [topHalf, topAt_eq _ _ (d := 1) (by omega) (by omega) (by push_cast; omega), if_neg (by omega)]
        exact val_vHalf hr hv (by omega) hx (by omega)
      have hown := ht.hex_own hv hx (k := N - 1) (by omega)
      rw [show N - 1 + 1 = N by omega] at hown
      rw [← hown, ofIdx_congr (k := ((N - 1 : Nat) : Int)) (k' := (N : Int) - 1) (by omega)] at h2
      have h12 := (h1.xorO h2).xorO h3
      rw [← hexSum_add, add_comm (lay.obsAt N).1.pauli, o2, ← ht.hex_const hv hx (le_refl N),
        ofIdx_congr (k := (N : Int) + 1) (k' := hexColour h) (by omega), zmod2_add_self] at h12
      exact h12
  · obtain ⟨h, hh, hi⟩ := List.mem_flatMap.1 h
    obtain ⟨hx, hc⟩ := (mem_round_hex_centers hv).1 hh
    have hr' := index_range (lay.obsAt N).1
    refine flipParity_detI hl (beforeO_xorO (beforeO_dHex hv hh)
        ((beforeO_topHex hv _ (index_range _).1 (index_range _).2 N hh).mono hle)) ?_ hi
    have hcol : (lay.obsAt N).1.index = hexColour h := by omega
    have h12 := (val_dHex hr hv hx).xorO (val_topHex hr ht hv hx hcol)
    rw [← ht.hex_const hv hx (le_refl N), ← hcol, ofIdx_index, zmod2_add_self] at h12
    exact h12
  · subst h; simp [Instr.observable] at hg

/-- The observable's step. -/
theorem obs_step (hv : lay.Valid) (ho : lay.ObsOk) (ht : lay.Trajectory N F) {k : Nat} (hk : k < N) :
    antiOp lay (F (k + 1)) (obsOp (lay.obsAt ((k + 1 : Nat) : Int))) = antiOp lay (F k) (obsOp (lay.obsAt k)) +
      ((lay.obsE.filter fun e => e ∈ lay.round_edges k).map fun e => par (F k) k e).sum := by
  obtain ⟨o, o', es, h1, h2, h3, hcomm, hev⟩ := c10_observable_evolution lay hv (Or.symm ho) k
  rw [obs_before_ok ho] at h1 h2
  rw [obs_edges_ok ho] at h3
  cases h1; cases h2; cases h3
  -- multiplying the measured edges onto the observable
  have e1 : antiOp lay (F (k + 1)) (obsOp (lay.obsAt ((k : Int) + 1))) = antiOp lay (F (k + 1)) (obsOp (lay.obsAt k)) +
      ((lay.obsE.filter fun e => e ∈ lay.round_edges k).map fun e => antiOp lay (F (k + 1)) (edgeOp k e)).sum := by
    rw [← hev]
    generalize (lay.obsE.filter fun e => e ∈ lay.round_edges k) = es
    simp only [opProd, List.map_cons, List.sum_cons, List.map_map, antiOp]
    induction es with
    | nil => simp
    | cons e es ih =>
      simp only [List.map_cons, List.sum_cons]
      rw [add_left_comm, ← ih, ← sum_map_add]
      refine sum_map_congr fun q _ => ?_
      simp only [Function.comp_apply]
      rw [add_left_comm, anti_add_right]
  have e2 : ∀ e ∈ lay.obsE.filter (fun e => e ∈ lay.round_edges k), antiOp lay (F (k + 1)) (edgeOp k e) = par (F k) k e := by
    intro e he
    have he' : e ∈ lay.round_edges k := by simpa using (List.mem_filter.1 he).2
    have hd := edge_ends_data hv (round_edges_subset_all he')
    obtain ⟨r, a1, a2⟩ := ht.step k hk e he'
    have hne : e.left ≠ e.right := edge_left_ne_right hv (round_edges_subset_all he')
    rw [antiOp_comm, edgeOp, anti_opOn (nodup_data_qubit_coords lay) (by simp [hne]) (by simp [hd])]
    simp only [List.map_cons, List.map_nil, List.sum_cons, List.sum_nil, add_zero, a1, a2, par]
    rw [anti_comm _ (F k e.left + _), anti_comm _ (F k e.right + _), anti_add_left, anti_add_left, smul_self_anti, add_zero, add_zero]
  have e3 : antiOp lay (F (k + 1)) (obsOp (lay.obsAt k)) = antiOp lay (F k) (obsOp (lay.obsAt k)) := by
    rw [antiOp, antiOp, ← ((edgeEnds_data hv k).map _).sum_eq, ← ((edgeEnds_data hv k).map _).sum_eq, sum_edgeEnds, sum_edgeEnds]
    refine sum_map_congr fun e he => ?_
    obtain ⟨r, a1, a2⟩ := ht.step k hk e he
    have hd := edge_ends_data hv (round_edges_subset_all he)
    have hne : e.left ≠ e.right := edge_left_ne_right hv (round_edges_subset_all he)
    have hc := hcomm e he
    unfold Commute' at hc
    rw [antiOp_comm, edgeOp, anti_opOn (nodup_data_qubit_coords lay) (by simp [hne]) (by simp [hd])] at hc
    simp only [List.map_cons, List.map_nil, List.sum_cons, List.sum_nil, add_zero] at hc
    rw [a1, a2, anti_add_left, anti_add_left, anti_smul_left, anti_smul_left]
    linear_combination r * hc
  rw [Nat.cast_add, Nat.cast_one, e1, e3, sum_map_congr e2]

theorem obs_zero (hv : lay.Valid) (ho : lay.ObsOk) (ht : lay.Trajectory N F) {k : Nat} (hk : k ≤ N) :
    antiOp lay (F k) (obsOp (lay.obsAt k)) + ((List.range k).map fun j : Nat =>
      ((lay.obsE.filter fun e => e ∈ lay.round_edges j).map fun e => par (F j) j e).sum).sum = 0 := by
  induction k with
  | zero =>
    simp only [List.range_zero, List.map_nil, List.sum_nil, add_zero]
    refine sum_map_eq_zero fun q hq => ?_
    simp only [obsOp, opOn]
    split_ifs
    · exact ht.init_zero hq
    · simp
  | succ k ih =>
    rw [List.range_succ, List.map_append, List.sum_append, obs_step hv ho ht (by omega)]
    simp only [List.map_cons, List.map_nil, List.sum_cons, List.sum_nil, add_zero]
    have h2 := zmod2_add_self ((lay.obsE.filter fun e => e ∈ lay.round_edges k).map fun e => par (F k) k e).sum
    linear_combination ih (by omega) + h2

theorem nodup_obsE (hv : lay.Valid) : lay.obsE.Nodup := by
  have := nodup_all_edges hv
  rw [obsE]
  split_ifs
  · exact (List.mergeSort_perm _ _).nodup_iff.2 (this.filter _)
  · exact (List.mergeSort_perm _ _).nodup_iff.2 (this.filter _)

theorem obsEdgesOf_eq (hv : lay.Valid) (k : Int) : obsEdgesOf lay.obsE (lay.round_edges k) = lay.obsE.filter fun e => e ∈ lay.round_edges k :=
  pySet_of_nodup ((nodup_obsE hv).filter _)

theorem val_vObs (hv : lay.Valid) {R : Nat → ZMod 2} (hr : lay.Recorded N F R) {k : Nat} (hk : k < N) :
    val R (lay.vObs k) = ((lay.obsE.filter fun e => e ∈ lay.round_edges k).map fun e => par (F k) k e).sum := by
  rw [vObs, val_xorS, List.map_map, obsEdgesOf_eq hv]
  refine sum_map_congr fun e he => ?_
  have he' : e ∈ lay.round_edges k := by simpa using (List.mem_filter.1 he).2
  exact hr.edge k hk e he'

theorem val_finalObs (hv : lay.Valid) {R : Nat → ZMod 2} (hr : lay.Recorded N F R) :
    val R (xorS ((lay.obsAt N).2.map fun q => {lay.dTime N q})) = antiOp lay (F N) (obsOp (lay.obsAt N)) := by
  have hn : (lay.obsAt N).2.Nodup := by
    rw [obsAt]; split_ifs
    · exact nodup_obs_v _ _
    · exact nodup_obs_h _ _
  rw [antiOp_comm, obsOp, anti_opOn (nodup_data_qubit_coords lay) hn (fun q hq => obsAt_data hq), val_xorS, List.map_map]
  refine sum_map_congr fun q hq => ?_
  rw [Function.comp_apply, val_singleton, hr.data q (obsAt_data hq), anti_comm]

/-- The parity of the whole observable. -/
theorem val_obs (hv : lay.Valid) (ho : lay.ObsOk) {R : Nat → ZMod 2} (ht : lay.Trajectory N F) (hr : lay.Recorded N F R) :
    ((List.range N).map fun k => val R (lay.vObs k)).sum + val R (xorS ((lay.obsAt N).2.map fun q => {lay.dTime N q})) = 0 := by
  rw [val_finalObs hv hr, ← obs_zero hv ho ht (le_refl N), add_comm]
  congr 1
  exact sum_map_congr fun k hk => val_vObs hv hr (List.mem_range.1 hk)

theorem topAt_succ (v init) (c : Int) (k : Nat) : topAt v init c (k + 1) = if (k : Int) % 3 = c then v k else topAt v init c k := by
  rw [topAt, past]; split_ifs <;> simp [topAt]

/-- The observable as PC3 reports it. -/
theorem val_pc3 (hp : lay.isPC3 = true) (R : Nat → ZMod 2) (k : Nat) :
    ((pyRange 3).map fun r => val R (xorS ((obsEdgesOf lay.obsE (lay.round_edges r)).map (lay.topHalfEdge r k)))).sum =
      ((List.range k).map fun j => val R (lay.vObs j)).sum := by
  induction k with
  | zero =>
    refine (sum_map_eq_zero fun r _ => ?_).trans rfl
    rw [val_xorS, List.map_map]
    refine sum_map_eq_zero fun e _ => ?_
    simp [topHalfEdge, topAt, past, val_empty]
  | succ k ih =>
    rw [List.range_succ, List.map_append, List.sum_append, ← ih]
    simp only [List.map_cons, List.map_nil, List.sum_cons, List.sum_nil, add_zero]
    have hstay : ∀ r : Int, (k : Int) % 3 ≠ r → ∀ e, lay.topHalfEdge r (k + 1) e = lay.topHalfEdge r k e := by
      intro r hr e
      rw [topHalfEdge, topAt_succ, if_neg hr, topHalfEdge]
    have hmove : ∀ r : Int, (k : Int) % 3 = r → val R (xorS ((obsEdgesOf lay.obsE (lay.round_edges r)).map (lay.topHalfEdge r (k + 1)))) =
        val R (xorS ((obsEdgesOf lay.obsE (lay.round_edges r)).map (lay.topHalfEdge r k))) + val R (lay.vObs k) := by
      intro r hr
      rw [vObs, round_edges_congr lay (r := r) (r' := (k : Int)) (by omega), val_xorS, val_xorS, val_xorS, List.map_map, List.map_map, List.map_map,
        ← sum_map_add]
      refine sum_map_congr fun e _ => ?_
      simp only [Function.comp_apply]
      rw [topHalfEdge, topAt_succ, if_pos hr, topHalfEdge, topAt_eq _ _ (d := 3) (by omega) (by omega) (by push_cast; omega), vE]
      by_cases h3 : k < 3
      · rw [if_pos h3, if_neg (by omega)]; simp [val_empty]
      · rw [if_neg h3, if_pos ⟨hp, by omega⟩, val_symmDiff]
        simp only [Option.getD_some]
        have := zmod2_add_self (val R {lay.mTime (k - 3) e})
        linear_combination -this
    have h3 : pyRange 3 = [0, 1, 2] := by decide
    simp only [h3, List.map_cons, List.map_nil, List.sum_cons, List.sum_nil, add_zero]
    have hk : (k : Int) % 3 = 0 ∨ (k : Int) % 3 = 1 ∨ (k : Int) % 3 = 2 := by omega
    rcases hk with h | h | h
    · rw [hmove 0 h, funext (hstay 1 (by omega)), funext (hstay 2 (by omega))]; ring
    · rw [hmove 1 h, funext (hstay 0 (by omega)), funext (hstay 2 (by omega))]; ring
    · rw [hmove 2 h, funext (hstay 1 (by omega)), funext (hstay 0 (by omega))]; ring

/-- All detectors of a timeline are even. -/
theorem closed_detectors (hv : lay.Valid) (hs : lay.Supported) (hN : lay.sub_rounds = N) (ht : lay.Calm N F)
    (hr : lay.Recorded N F (recAt rec)) (hl : rec.length = N * lay.perRound + lay.data_qubit_coords.length) :
    ∀ x ∈ timeline 0 (lay.closedCircuit N), x.1.gate = .DETECTOR → flipParity rec x = some 0 := by
  have h1 : 1 ≤ N := by have := hs.2.2.1; omega
  rw [(closed_uses hv hs hN).2.1]
  intro x hx hg
  simp only [List.mem_append, List.mem_flatMap, List.mem_range, List.mem_map, roundUses, or_assoc] at hx
  rcases hx with ⟨k, hk, i, hi, rfl⟩ | hx | ⟨i, hi, rfl⟩
  · exact ann_zero hv ht hr hk (by omega) hi hg
  · rw [pc3Uses] at hx
    split_ifs at hx
    · obtain ⟨i, hi, rfl⟩ := List.mem_map.1 hx
      have := pc3ObsEmit_gate hi
      simp_all
    · simp at hx
  · exact final_zero hv ht hr h1 (by omega) hi hg

theorem filter_map_sum {α : Type} (l : List α) (p : α → Bool) (w : α → ZMod 2) :
    ((l.filter p).map w).sum = (l.map fun a => if p a then w a else 0).sum := by
  induction l with
  | nil => rfl
  | cons a l ih => by_cases h : p a = true <;> simp [h, ih]

/-- What an annotation adds to the observable. -/
def obsWeight (lay : HoneycombLayout) (rec : List (ZMod 2)) (x : Instr × Nat) : ZMod 2 := 
  if x.1.gate = .OBSERVABLE_INCLUDE ∧ x.1.args = [.lit lay.obsI] then (flipParity rec x).getD 0 else 0

theorem obsWeight_observable {t : Nat} (ht : t ≤ rec.length) {s : Finset Nat} (hs : ∀ x ∈ s, x < t) :
    lay.obsWeight rec (.observable (relTo t s) lay.obsI, t) = val (recAt rec) s := by
  rw [obsWeight, if_pos ⟨rfl, rfl⟩, Instr.observable, flipParity_relTo ht hs]; rfl

theorem obsWeight_det {t : Nat} {i : Instr} (h : i.gate ≠ .OBSERVABLE_INCLUDE) : lay.obsWeight rec (i, t) = 0 := by
  rw [obsWeight, if_neg (by simp [h])]

theorem flipParity_some {x : Instr × Nat} (h : OffsetsOk x) (hl : x.2 ≤ rec.length) : flipParity rec x = some ((flipParity rec x).getD 0) := by
  have : ∃ v, flipParity rec x = some v := by
    rw [flipParity]
    refine ⟨_, foldr_parity (w := fun j : Int => recAt rec j.toNat) fun j hj => ?_⟩
    obtain ⟨t, ht, e⟩ := List.mem_filterMap.1 hj
    obtain ⟨o, rfl, h1, h2⟩ := h t ht
    simp only [Option.some.injEq] at e
    rw [recordBit, if_pos (by omega), recAt, List.getD_eq_getElem?_getD, List.getElem?_eq_getElem (by omega), Option.getD_some]
  obtain ⟨v, hv⟩ := this
  rw [hv]; rfl

theorem observableValue_eq {l : List Instr} (h : ∀ x ∈ timeline 0 l, OffsetsOk x ∧ x.2 ≤ rec.length) :
    observableValue lay.obsI l rec = some ((timeline 0 l).map (lay.obsWeight rec)).sum := by
  rw [observableValue, foldr_parity (w := fun x => (flipParity rec x).getD 0)]
  · rw [filter_map_sum]
    congr 2
    refine List.map_congr_left fun x _ => ?_
    simp only [obsWeight, decide_eq_true_eq]
  · intro x hx
    have := h x (List.mem_filter.1 hx).1
    exact flipParity_some this.1 this.2

theorem sum_flatMap {α β : Type} (l : List α) (f : α → List β) (w : β → ZMod 2) :
    ((l.flatMap f).map w).sum = (l.map fun a => ((f a).map w).sum).sum := by
  induction l with
  | nil => rfl
  | cons a l ih => simp [ih]

theorem ann_weight (hv : lay.Valid) {k : Nat} (hk : k < N) (hl : N * lay.perRound ≤ rec.length) :
    ((lay.roundUses k).map (lay.obsWeight rec)).sum = if lay.isPC3 then 0 else val (recAt rec) (lay.vObs k) := by
  have hlen : (k + 1) * lay.perRound ≤ rec.length := le_trans (Nat.mul_le_mul_right _ (by omega)) hl
  have hdet : ∀ {l : List Instr}, (∀ i ∈ l, i.gate ≠ .OBSERVABLE_INCLUDE) →
      ((l.map fun i => (i, (k + 1) * lay.perRound)).map (lay.obsWeight rec)).sum = 0 := by
    intro l h
    rw [List.map_map]
    exact sum_map_eq_zero fun i hi => obsWeight_det (h i hi)
  have h2 : ∀ i ∈ (if k = 0 ∧ (lay.obsAt 0).1 = .X then
    (lay.round_edges 0).flatMap fun e => detI ((k + 1) * lay.perRound) (some (lay.vE 0 e)) (coords3 e.center) else []), i.gate ≠ .OBSERVABLE_INCLUDE := by
    intro i hi
    split_ifs at hi
    · obtain ⟨e, _, hi⟩ := List.mem_flatMap.1 hi
      rw [detI_gate hi]; simp
    · simp at hi
  have h3 : ∀ i ∈ ((lay.round_hex_centers (((k : Int) - 2) % 3)).flatMap fun h =>
    detI ((k + 1) * lay.perRound) (xorO (lay.vHex (lay.obsAt 0).1 k h) (lay.prevHex (lay.obsAt 0).1 k h)) (coords3 h)), i.gate ≠ .OBSERVABLE_INCLUDE := by
    intro i hi
    obtain ⟨e, _, hi⟩ := List.mem_flatMap.1 hi
    rw [detI_gate hi]; simp
  rw [roundUses, emitAnn, List.map_append, List.map_append, List.map_append, List.map_append, List.map_append, List.map_append,
    List.sum_append, List.sum_append, List.sum_append, hdet h2, hdet h3, hdet (l := [.shift [0, 0, 1]]) (by simp [Instr.shift])]
  split_ifs
  · simp
  · simp only [List.map_cons, List.map_nil, List.sum_cons, List.sum_nil, add_zero]
    exact obsWeight_observable hlen (beforeO_xorS (fun e he => beforeO_vE hv (mem_obsEdgesOf he)) _ rfl)

theorem final_weight (hl : N * lay.perRound + lay.data_qubit_coords.length ≤ rec.length) :
    ((((lay.emitFinal N N).map fun i => (i, N * lay.perRound + lay.data_qubit_coords.length))).map (lay.obsWeight rec)).sum =
      val (recAt rec) (xorS ((lay.obsAt N).2.map fun q => {lay.dTime N q})) := by
  rw [emitFinal]
  rw [List.map_append, List.map_append, List.sum_append]
  have h : ∀ {l : List Instr}, (∀ i ∈ l, i.gate ≠ .OBSERVABLE_INCLUDE) →
      ((l.map fun i => (i, N * lay.perRound + lay.data_qubit_coords.length)).map (lay.obsWeight rec)).sum = 0 := by
    intro l h
    rw [List.map_map]
    exact sum_map_eq_zero fun i hi => obsWeight_det (h i hi)
  rw [h]
  · simp only [List.map_cons, List.map_nil, List.sum_cons, List.sum_nil, add_zero, zero_add]
    exact obsWeight_observable hl (beforeO_xorS (fun q hq => beforeO_dTime (obsAt_data hq)) _ rfl)
  · intro i hi
    rcases List.mem_append.1 hi with hi | hi
    · split_ifs at hi
      · obtain ⟨e, _, hi⟩ := List.mem_flatMap.1 hi
        rw [detI_gate hi]; simp
      · obtain ⟨e, _, hi⟩ := List.mem_flatMap.1 hi
        rw [detI_gate hi]; simp
    · obtain ⟨e, _, hi⟩ := List.mem_flatMap.1 hi
      rw [detI_gate hi]; simp

theorem pc3_weight (hv : lay.Valid) (hl : N * lay.perRound ≤ rec.length) :
    (((lay.pc3ObsEmit N).map fun i => (i, N * lay.perRound)).map (lay.obsWeight rec)).sum = 
    ((pyRange 3).map fun r => val (recAt rec) (xorS ((obsEdgesOf lay.obsE (lay.round_edges r)).map (lay.topHalfEdge r N)))).sum := by
  rw [pc3ObsEmit, List.map_map, List.map_map]
  refine sum_map_congr fun r hr => ?_
  have hr' : 0 ≤ r ∧ r < 3 := by
    have : pyRange 3 = [0, 1, 2] := by decide
    rw [this] at hr
    simp at hr; omega
  exact obsWeight_observable hl (beforeO_xorS (fun e he => beforeO_topHalfEdge hv hr'.1 hr'.2 N (mem_obsEdgesOf he)) _ rfl)

/-- The observable of a generated circuit is even. -/
theorem closed_observable (hv : lay.Valid) (hs : lay.Supported) (hN : lay.sub_rounds = N) (ht : lay.Trajectory N F)
    (hr : lay.Recorded N F (recAt rec)) (hl : rec.length = N * lay.perRound + lay.data_qubit_coords.length) :
    observableValue lay.obsI (lay.closedCircuit N) rec = some 0 := by
  have htl := (closed_uses hv hs hN).2.1
  rw [observableValue_eq, htl, List.map_append, List.map_append, List.sum_append, List.sum_append, final_weight (by omega), sum_flatMap,
    sum_map_congr fun k hk => ann_weight hv (List.mem_range.1 hk) (rec := rec) (by omega)]
  · refine congrArg some (Eq.trans ?_ (val_obs hv hs.2.1 ht hr))
    by_cases hp : lay.isPC3 = true
    · have : lay.style = "PC3" := by simpa [isPC3] using hp
      rw [pc3Uses, if_pos this, pc3_weight hv (by omega), val_pc3 hp]
      simp [hp]
    · have : lay.style ≠ "PC3" := by simpa [isPC3] using hp
      rw [pc3Uses, if_neg this]
      simp [hp]
  · intro x hx
    refine ⟨offsets_closed hv hs hN x hx, ?_⟩
    rw [htl] at hx
    simp only [List.mem_append, List.mem_flatMap, List.mem_range, List.mem_map, roundUses, or_assoc] at hx
    rcases hx with ⟨k, hk, i, hi, rfl⟩ | hx | ⟨i, hi, rfl⟩
    · have := Nat.mul_le_mul_right lay.perRound (show k + 1 ≤ N by omega)
      simp only; omega
    · rw [pc3Uses] at hx
      split_ifs at hx
      · obtain ⟨i, hi, rfl⟩ := List.mem_map.1 hx
        simp only; omega
      · simp at hx
    · simp only; omega

end HoneycombLayout
end Honeycomb
