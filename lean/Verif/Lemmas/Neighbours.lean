import Verif.Lemmas.Near

/-!
# How many places share a detector with a place
-/

namespace Honeycomb
open HoneycombLayout

variable {lay : HoneycombLayout} {N : Nat} {f : List Instr → List Instr} {l : List Instr}

theorem round_data (hv : lay.Valid) : lay.data_qubit_coords.length = 2 * lay.perRound := by
  have h1 := length_round_edges hv 0
  rw [perRound_eq hv] at h1
  have h2 := data_int hv
  rw [Valid.dw hv, Valid.dh hv, show 2 * lay.tile_width * (6 * lay.tile_height) = 2 * (6 * lay.tile_width * lay.tile_height) by ring, ← h1] at h2
  exact_mod_cast h2

theorem regQ_lt (hv : lay.Valid) {e : Edge} (he : e ∈ lay.all_edges) {q : Nat} (hr : lay.RegQ e q) : q < lay.num_qubits.toNat := by
  have key : ∀ {i : Nat}, i ∈ lay.used_qubit_indices → i < lay.num_qubits.toNat := fun h => by
    obtain ⟨z, hz, rfl, hc⟩ := (covers_used hv).2 _ h
    exact class_bound hv hz hc
  rcases hr with rfl | rfl | ⟨hm, rfl⟩
  · exact key (mem_used_data hv (ends_data hv he).1)
  · exact key (mem_used_data hv (ends_data hv he).2)
  · rcases mem_all_edges_iff_round.1 he with h | h | h <;> exact key (mem_used_center hv hm h)

theorem opCount_flatten {Bs : List (List Instr)} {C : Nat} (h : ∀ b ∈ Bs, opCount b ≤ C) : opCount Bs.flatten ≤ Bs.length * C := by
  induction Bs with
  | nil => simp [opCount]
  | cons b Bs ih =>
    rw [List.flatten_cons, opCount_append, List.length_cons, Nat.add_mul, Nat.one_mul]
    have := h b (by simp)
    have := ih fun b hb => h b (by simp [hb])
    omega

theorem opCount_closed (hv : lay.Valid) (hs : lay.Supported) : opCount (lay.closedCircuit N) ≤ 30 * (N + 2) := by
  obtain ⟨a, c, Bs, R, e, ha, wa, wc, hl, hR, hB⟩ := closed_blocks (N := N) hv hs
  rw [e, opCount_append, opCount_append]
  have h1 := opCount_flatten fun b hb => (hB b hb).2.1
  have h2 := Nat.mul_le_mul_right 30 hl
  omega

theorem length_le_loads {L : List (List Nat)} {n C : Nat} (h : ∀ c ∈ L, ∃ q ∈ c, q < n) (hC : ∀ q, L.countP (q ∈ ·) ≤ C) : L.length ≤ n * C := by
  have key : ∀ L : List (List Nat), (∀ c ∈ L, ∃ q ∈ c, q < n) → L.length ≤ ∑ q ∈ Finset.range n, L.countP (q ∈ ·) := by
    intro L
    induction L with
    | nil => simp
    | cons c L ih =>
      intro h
      obtain ⟨q, hq, hn⟩ := h c (by simp)
      have h1 := ih fun c hc => h c (by simp [hc])
      have h2 : ∑ x ∈ Finset.range n, (c :: L).countP (x ∈ ·) = ∑ x ∈ Finset.range n, L.countP (x ∈ ·) + ∑ x ∈ Finset.range n, (if x ∈ c then 1 else 0) := by
        rw [← Finset.sum_add_distrib]
        refine Finset.sum_congr rfl fun x _ => ?_
        rw [List.countP_cons]
        simp
      have h3 : 1 ≤ ∑ x ∈ Finset.range n, (if x ∈ c then 1 else 0) := by
        refine le_trans ?_ (Finset.single_le_sum (f := fun x => if x ∈ c then 1 else 0) (fun _ _ => Nat.zero_le _) (Finset.mem_range.2 hn))
        simp [hq]
      rw [h2, List.length_cons]
      omega
  refine (key L h).trans ((Finset.sum_le_card_nsmul _ _ C fun q _ => hC q).trans ?_)
  simp

open Classical in
theorem index_countP {α : Type} (p : α → Bool) (L : List α) : ((Finset.range L.length).filter fun b => ∃ x, L[b]? = some x ∧ p x = true).card = L.countP p := by
  induction L with
  | nil => simp
  | cons x L ih =>
    rw [Finset.card_filter] at ih ⊢
    rw [List.length_cons, Finset.sum_range_succ', List.countP_cons]
    simp only [List.getElem?_cons_succ, List.getElem?_cons_zero, Option.some.injEq, exists_eq_left']
    rw [← ih]

theorem index_count {α : Type} (p : α → Bool) (L : List α) [DecidablePred fun b : Nat => ∃ x, L[b]? = some x ∧ p x = true] :
    ((Finset.range L.length).filter fun b => ∃ x, L[b]? = some x ∧ p x = true).card = L.countP p := by
  rw [← index_countP]
  congr

theorem fired_some {rec : List (ZMod 2)} {j : Nat} (h : fired l rec j ≠ 0) : (detectorValues l rec)[j]? = some (some 1) := by
  rw [fired] at h
  rcases hx : (detectorValues l rec)[j]? with _ | _ | v
  · simp [hx] at h
  · simp [hx] at h
  · simp only [hx, Option.getD_some] at h
    have : ∀ v : ZMod 2, v ≠ 0 → v = 1 := by decide
    rw [this v h]

theorem coords_some {rec : List (ZMod 2)} {j : Nat} {v : Option (ZMod 2)} (h : (detectorValues l rec)[j]? = some v) : ∃ x, (detectorCoords l)[j]? = some x := by
  have hj := (List.getElem?_eq_some_iff.1 h).1
  rw [detectorValues, List.length_map] at hj
  refine ⟨_, List.getElem?_eq_getElem ?_⟩
  rw [detectorCoords, absoluteCoords_length]
  simpa using hj

/-- Two places share a detector. -/
def Share (l : List Instr) (a b : Nat) : Prop :=
  ∃ ra rb j, SampleAt l [a] ra ∧ SampleAt l [b] rb ∧ fired l ra j ≠ 0 ∧ fired l rb j ≠ 0

theorem Share.symm {a b : Nat} (h : Share l a b) : Share l b a := by
  obtain ⟨ra, rb, j, h1, h2, h3, h4⟩ := h
  exact ⟨rb, ra, j, h2, h1, h4, h3⟩

theorem time_window {T' P N m m' layer : Nat} (hP : 0 < P) (hm' : m' = min (T' / P) N) (hT : T' ≤ N * P + 2 * P) (h1 : m ≤ layer) (h2 : layer ≤ m + 8) (h3 : m' ≤ layer)
    (h4 : layer ≤ m' + 8) : (m - 8) * P ≤ T' ∧ T' ≤ (m - 8) * P + 20 * P := by
  have a1 : T' / P ≤ N + 2 := by
    rw [← Nat.add_mul] at hT
    exact (Nat.div_le_div_right hT).trans (by rw [Nat.mul_div_cancel _ hP])
  have a2 : m' ≤ T' / P := by omega
  have a3 : T' / P ≤ m' + 2 := by omega
  have a4 : T' / P * P ≤ T' := Nat.div_mul_le_self _ _
  have a5 : T' < (T' / P + 1) * P := by rw [Nat.mul_comm]; exact Nat.lt_mul_div_succ _ hP
  constructor
  · exact (Nat.mul_le_mul_right P (by omega)).trans a4
  · rw [← Nat.add_mul]
    exact a5.le.trans (Nat.mul_le_mul_right P (by omega))

theorem closed_length (hv : lay.Valid) (hs : lay.Supported) (hN : lay.sub_rounds = N) :
    (measured (lay.closedCircuit N)).length = N * lay.perRound + lay.data_qubit_coords.length := by
  rw [(closed_uses hv hs hN).2.2, List.length_append, List.length_map]
  congr 1
  generalize N = M
  induction M with
  | zero => simp
  | succ M ih => rw [List.range_succ, List.flatMap_append, List.length_append, ih, List.flatMap_singleton, roundMeas, List.length_map, perRound_eq hv, Nat.succ_mul]

end Honeycomb
