import Verif.Lemmas.Halves
import Verif.Lemmas.Torus
import Verif.Lemmas.SymptomsCount
import Verif.Lemmas.Realise

/-! # The detectors that single faults join -/

namespace Honeycomb
open HoneycombLayout

variable {lay : HoneycombLayout} {N : Nat} {C : List (ZMod 2) → Prop}

namespace HoneycombLayout

theorem anti_prev (k : Int) : anti (Basis.ofIdx k).pauli (Basis.ofIdx (k - 1)).pauli ≠ 0 := by
  have h : k % 3 = 0 ∨ k % 3 = 1 ∨ k % 3 = 2 := by omega
  rcases h with h | h | h
  · rw [ofIdx_congr (k := k) (k' := 0) (by omega), ofIdx_congr (k := k - 1) (k' := 2) (by omega)]; decide
  · rw [ofIdx_congr (k := k) (k' := 1) (by omega), ofIdx_congr (k := k - 1) (k' := 0) (by omega)]; decide
  · rw [ofIdx_congr (k := k) (k' := 2) (by omega), ofIdx_congr (k := k - 1) (k' := 1) (by omega)]; decide

theorem anti_succ (k : Int) : anti (Basis.ofIdx k).pauli (Basis.ofIdx (k + 1)).pauli ≠ 0 := by
  have h : k % 3 = 0 ∨ k % 3 = 1 ∨ k % 3 = 2 := by omega
  rcases h with h | h | h
  · rw [ofIdx_congr (k := k) (k' := 0) (by omega), ofIdx_congr (k := k + 1) (k' := 1) (by omega)]; decide
  · rw [ofIdx_congr (k := k) (k' := 1) (by omega), ofIdx_congr (k := k + 1) (k' := 2) (by omega)]; decide
  · rw [ofIdx_congr (k := k) (k' := 2) (by omega), ofIdx_congr (k := k + 1) (k' := 0) (by omega)]; decide

/-- There is a detector with this layer and place. -/
def Det (lay : HoneycombLayout) (N : Nat) (a : Nat × Pt) : Prop := ∃ x ∈ allDets lay N, (x.1, x.2.1) = a

/-- Some record in `C` fires exactly these detectors. -/
def Fires (lay : HoneycombLayout) (N : Nat) (C : List (ZMod 2) → Prop) (S : Nat × Pt → Prop) : Prop :=
  ∃ rec, C rec ∧ rec.length = lay.total N ∧ ∀ x ∈ allDets lay N, (val (recAt rec) x.2.2 = 1 ↔ S (x.1, x.2.1))

/-- Two detectors joined by a record. -/
structure Link (lay : HoneycombLayout) (N : Nat) (C : List (ZMod 2) → Prop) (a b : Nat × Pt) : Prop where
  ne : a ≠ b
  left : lay.Det N a
  right : lay.Det N b
  fires : lay.Fires N C fun x => x = a ∨ x = b

theorem Link.symm {a b : Nat × Pt} (h : lay.Link N C a b) : lay.Link N C b a :=
  ⟨h.ne.symm, h.right, h.left, by simpa only [or_comm] using h.fires⟩

/-- The elementary faults happen. -/
def Happens (lay : HoneycombLayout) (N : Nat) (C : List (ZMod 2) → Prop) : Prop :=
  ∀ x, lay.Elem N x → (∀ ψ, lay.Meter N ψ → ψ (oneFault x.1 x.2.1 x.2.2) = 0) ∨
    ∃ rec Fs, C rec ∧ rec.length = lay.total N ∧ lay.Recorded N Fs (recAt rec) ∧ ∀ ψ, lay.Meter N ψ → ψ Fs = ψ (oneFault x.1 x.2.1 x.2.2)

/-- What a fault that fires a detector does: the other detector that it can fire fires as well and is in the same half, or no other
detector fires and the detector is not in the half of the final ones. -/
def Joins (lay : HoneycombLayout) (N : Nat) (C : List (ZMod 2) → Prop) (a b : Nat × Pt) : Prop :=
  ((lay.FinalHalfLayer a.1 ↔ lay.FinalHalfLayer b.1) ∧ lay.Link N C a b) ∨ (¬ lay.FinalHalfLayer a.1 ∧ lay.Fires N C fun x => x = a)

theorem joins (hv : lay.Valid) (hs : lay.Supported) (hN : lay.sub_rounds = N) (hC : lay.Happens N C) {x : Nat × Pt × Pauli} (hx : lay.Elem N x) {a b : Nat × Pt}
    (hits : ∀ key s φ, lay.Reads N key s φ → φ (oneFault x.1 x.2.1 x.2.2) ≠ 0 → key ∈ [a, b]) {s : Finset Nat} (hy : (a.1, a.2, s) ∈ allDets lay N)
    {φ : (Nat → PauliOp) → ZMod 2} (hφ : lay.Reads N a s φ) (hne : φ (oneFault x.1 x.2.1 x.2.2) ≠ 0) : lay.Joins N C a b := by
  have h1 : 1 ≤ N := by have := hs.2.2.1; omega
  have two : ∀ z : ZMod 2, z ≠ 0 → z = 1 := by decide
  have two' : ∀ z : ZMod 2, z ≠ 1 → z = 0 := by decide
  rcases hC x hx with h | ⟨rec, Fs, hc, hl, hrec, heq⟩
  · exact absurd (h φ (hφ.meter hv)) hne
  have hone : val (recAt rec) s = 1 := by rw [hφ.val _ _ hrec, heq φ (hφ.meter hv), two _ hne]
  have hsub : ∀ z ∈ allDets lay N, val (recAt rec) z.2.2 = 1 → (z.1, z.2.1) = a ∨ (z.1, z.2.1) = b := by
    intro z hz hv1
    obtain ⟨ψ, hψ⟩ := allDets_reads hv hs.2.1 h1 hz
    have := hits _ _ _ hψ (by rw [← heq ψ (hψ.meter hv), ← hψ.val _ _ hrec, hv1]; decide)
    simpa using this
  have hnd := keys_nodup hv N
  have inj : ∀ z ∈ allDets lay N, ∀ w ∈ allDets lay N, (z.1, z.2.1) = (w.1, w.2.1) → z = w := fun z hz w hw => List.inj_on_of_nodup_map hnd hz hw
  have heven := half_even hv hs hN hrec
  rw [← List.sum_toFinset _ hnd.of_map] at heven
  by_cases hb : ∃ z ∈ allDets lay N, z ≠ (a.1, a.2, s) ∧ val (recAt rec) z.2.2 = 1
  · obtain ⟨z, hz, hza, hz1⟩ := hb
    have hkb : (z.1, z.2.1) = b := (hsub z hz hz1).resolve_left fun h => hza (inj z hz _ hy h)
    have hab : a ≠ b := by
      rintro rfl
      exact hza (inj z hz _ hy hkb)
    left
    refine ⟨?_, hab, ⟨_, hy, rfl⟩, ⟨z, hz, hkb⟩, rec, hc, hl, fun w hw => ⟨hsub w hw, ?_⟩⟩
    · rw [Finset.sum_eq_add (a.1, a.2, s) z hza.symm] at heven
      · simp only [hone, hz1] at heven
        subst hkb
        have : ∀ (p q : Prop) [Decidable p] [Decidable q], ((if p then (1 : ZMod 2) else 0) + if q then 1 else 0) = 0 → (p ↔ q) := by
          intro p q _ _ h
          by_cases hp : p <;> by_cases hq : q <;> simp [hp, hq] at h ⊢
        exact this _ _ heven
      · intro w hw hne2
        have hw := List.mem_toFinset.1 hw
        have : val (recAt rec) w.2.2 ≠ 1 := fun h => (hsub w hw h).elim (fun h => hne2.1 (inj w hw _ hy h)) fun h => hne2.2 (inj w hw z hz (h.trans hkb.symm))
        rw [two' _ this, ite_self]
      · exact fun h => absurd (List.mem_toFinset.2 hy) h
      · exact fun h => absurd (List.mem_toFinset.2 hz) h
    · rintro (h | h)
      · rw [inj w hw _ hy h]; exact hone
      · rw [inj w hw z hz (h.trans hkb.symm)]; exact hz1
  · have hb : ∀ z ∈ allDets lay N, val (recAt rec) z.2.2 = 1 → z = (a.1, a.2, s) := by
      intro z hz h1
      by_contra hza
      exact hb ⟨z, hz, hza, h1⟩
    right
    refine ⟨fun hf => ?_, rec, hc, hl, fun w hw => ⟨fun h => by rw [hb w hw h], fun h => ?_⟩⟩
    · rw [Finset.sum_eq_single (a.1, a.2, s)] at heven
      · simp only [if_pos hf, hone] at heven
        exact absurd heven (by decide)
      · intro w hw hne2
        have hw := List.mem_toFinset.1 hw
        rw [two' _ fun h => hne2 (hb w hw h), ite_self]
      · exact fun h => absurd (List.mem_toFinset.2 hy) h
    · rw [inj w hw _ hy h]; exact hone

theorem joins_face (hv : lay.Valid) (hs : lay.Supported) (hN : lay.sub_rounds = N) (hC : lay.Happens N C) {k : Nat} (hk : k < N) {h : Pt}
    (hh : h ∈ lay.round_hex_centers (((k : Int) - 2) % 3)) (hkn : lay.faceKnown k (((k : Int) - 2) % 3) = true) {q : Pt} (hq : q ∈ lay.qubits_around_hex h) :
    lay.Joins N C (k, h) (min (k + 2) N, lay.faceAt q k) := by
  have ho := hs.2.1
  have h0 : k ≠ 0 := by rintro rfl; rw [not_known_zero ho] at hkn; cases hkn
  obtain ⟨j, rfl⟩ : ∃ j, k = j + 1 := ⟨k - 1, by omega⟩
  obtain ⟨hx, hc⟩ := (mem_round_hex_centers hv).1 hh
  have hqd := qubits_around_hex_data hv hx hq
  have hmem : (j + 1, h, symmDiff (lay.rF h ((j + 1 : Nat) : Int)) (lay.rF h (((j + 1 : Nat) : Int) - 3))) ∈ allDets lay N := by
    rw [allDets, List.mem_append]
    refine Or.inl (List.mem_flatMap.2 ⟨j + 1, List.mem_range.2 hk, List.mem_map.2 ⟨_, ?_, rfl⟩⟩)
    rw [annDets, List.mem_append]
    right
    rw [if_pos hkn]
    exact List.mem_map_of_mem hh
  refine joins hv hs hN hC (x := (j, q, (Basis.ofIdx j).pauli)) ⟨hqd, Or.inl ⟨by omega, rfl⟩⟩ (fun key s φ hφ hne => ?_) hmem (reads_hex hv ho hk hh hkn) ?_
  · have := elem_mid hv (show j < N by omega) hqd hφ hne
    rw [faceAt_eq hv hx hq (c := (j : Int) - 1) (by omega), min_eq_left (by omega : j + 1 ≤ N)] at this
    exact_mod_cast this
  · simp only
    rw [compZ_after hv (by omega) hq (by omega), compZ_before hv (by omega), add_zero, ofIdx_congr (k := hexColour h) (k' := (j : Int) - 1) (by omega)]
    exact anti_prev j

theorem joins_first (hv : lay.Valid) (hs : lay.Supported) (hN : lay.sub_rounds = N) (hC : lay.Happens N C) (hH : lay.obs = "H") {e : Edge}
    (he : e ∈ lay.round_edges 0) {q : Pt} (hq : q = e.left ∨ q = e.right) : lay.Joins N C (0, e.center) (min 2 N, lay.faceAt q 0) := by
  have h1 : 1 ≤ N := by have := hs.2.2.1; omega
  have hd := edge_ends_data hv (round_edges_subset_all he)
  have hqd : q ∈ lay.data_qubit_coords := by rcases hq with rfl | rfl; exacts [hd.1, hd.2]
  have hne := edge_left_ne_right hv (round_edges_subset_all he)
  have hmem : (0, e.center, lay.vE 0 e) ∈ allDets lay N := by
    rw [allDets, List.mem_append]
    refine Or.inl (List.mem_flatMap.2 ⟨0, List.mem_range.2 (by omega), List.mem_map.2 ⟨_, ?_, rfl⟩⟩)
    rw [annDets, List.mem_append]
    left
    rw [if_pos ⟨rfl, hH⟩]
    exact List.mem_map_of_mem he
  refine joins hv hs hN hC (x := (0, q, (Basis.ofIdx (-1)).pauli)) ⟨hqd, Or.inr ⟨rfl, rfl⟩⟩ (fun key s φ hφ hne => ?_) hmem (reads_first hv hs.2.1 h1 hH he) ?_
  · have := hφ.pairs.first (by rw [hH]; decide) q hne
    rwa [dataEdge_eq hv he hq] at this
  · simp only [par, oneFault, le_refl, true_and]
    rcases hq with rfl | rfl
    · simp only [if_true, hne.symm, if_false, anti_zero_left]; decide
    · simp only [if_true, hne, if_false, anti_zero_left]; decide

theorem joins_edge (hv : lay.Valid) (hs : lay.Supported) (hN : lay.sub_rounds = N) (hC : lay.Happens N C) (hB : sameBasis lay N) {e : Edge}
    (he : e ∈ lay.round_edges ((N : Int) - 1)) {q : Pt} (hq : q = e.left ∨ q = e.right) :
    lay.Joins N C (N, e.center) (N, lay.faceAt q ((N : Int) - 1)) := by
  have h1 : 1 ≤ N := by have := hs.2.2.1; omega
  have hb := Honeycomb.obsAt_basis hs.2.1 N
  rw [if_pos hB] at hb
  have hd := edge_ends_data hv (round_edges_subset_all he)
  have hqd : q ∈ lay.data_qubit_coords := by rcases hq with rfl | rfl; exacts [hd.1, hd.2]
  have hne := edge_left_ne_right hv (round_edges_subset_all he)
  have hmem : (N, e.center, symmDiff (symmDiff {lay.dTime N e.left} {lay.dTime N e.right}) (lay.vE (N - 1) e)) ∈ allDets lay N := by
    rw [allDets, List.mem_append]
    refine Or.inr (List.mem_map.2 ⟨_, ?_, rfl⟩)
    rw [finDets, if_pos hB, List.mem_append]
    left
    exact List.mem_map.2 ⟨e, he, rfl⟩
  refine joins hv hs hN hC (x := (N, q, (Basis.ofIdx N).pauli)) ⟨hqd, Or.inl ⟨le_refl _, rfl⟩⟩ (fun key s φ hφ hne => ?_) hmem (reads_edge hv h1 hb he) ?_
  · have := hφ.pairs.last q hne
    rwa [dataEdge_eq hv he hq] at this
  · simp only [par, oneFault, le_refl, true_and, show ¬ N ≤ N - 1 by omega, false_and, if_false, anti_zero_left, add_zero]
    rcases hq with rfl | rfl
    · simp only [if_true, hne.symm, if_false, anti_zero_left, add_zero]; exact anti_prev N
    · simp only [if_true, hne, if_false, anti_zero_left, zero_add]; exact anti_prev N

theorem finals_known (ho : lay.ObsOk) (h1 : 1 ≤ N) : if sameBasis lay N then lay.faceKnown N (((N : Int) - 1) % 3) = true else
    lay.faceKnown N (((N : Int) - 2) % 3) = true ∧ lay.faceKnown N ((N : Int) % 3) = true := by
  rw [faceKnown, faceKnown, faceKnown]
  by_cases hs : sameBasis lay N
  · rw [if_pos hs]
    rw [sameBasis] at hs
    rcases ho with h | h <;> simp only [h, if_true, show ¬ ("H" = "V") by decide, show ¬ ("V" = "H") by decide, if_false, decide_eq_true_eq, false_and, or_false, true_and, false_or] at hs ⊢ <;> omega
  · rw [if_neg hs]
    rw [sameBasis] at hs
    rcases ho with h | h <;> simp only [h, if_true, show ¬ ("H" = "V") by decide, show ¬ ("V" = "H") by decide, if_false, decide_eq_true_eq, false_and, or_false, true_and, false_or] at hs ⊢ <;> constructor <;> omega

theorem joins_half (hv : lay.Valid) (hs : lay.Supported) (hN : lay.sub_rounds = N) (hC : lay.Happens N C) (hB : ¬ sameBasis lay N) {h : Pt}
    (hh : h ∈ lay.round_hex_centers (((N : Int) - 2) % 3)) {q : Pt} (hq : q ∈ lay.qubits_around_hex h) :
    lay.Joins N C (N, h) (N, lay.faceAt q (N : Int)) := by
  have h1 : 1 ≤ N := by have := hs.2.2.1; omega
  have hkn := finals_known hs.2.1 h1
  rw [if_neg hB] at hkn
  have hb := Honeycomb.obsAt_basis hs.2.1 N
  rw [if_neg hB] at hb
  obtain ⟨hx, hc⟩ := (mem_round_hex_centers hv).1 hh
  have hqd := qubits_around_hex_data hv hx hq
  have hmem : (N, h, symmDiff (symmDiff (lay.dHex N h) (lay.rV (lay.first_edges_around_hex h) ((N : Int) - 1))) (lay.rF h ((N : Int) - 3))) ∈ allDets lay N := by
    rw [allDets, List.mem_append]
    refine Or.inr (List.mem_map.2 ⟨_, ?_, rfl⟩)
    rw [finDets, if_neg hB, List.mem_append, if_pos hkn.1]
    left
    exact List.mem_map.2 ⟨h, hh, rfl⟩
  obtain ⟨j, rfl⟩ : ∃ j, N = j + 1 := ⟨N - 1, by omega⟩
  refine joins hv hs hN hC (x := (j, q, (Basis.ofIdx j).pauli)) ⟨hqd, Or.inl ⟨by omega, rfl⟩⟩ (fun key s φ hφ hne => ?_) hmem (reads_half hv hs.2.1 h1 hb hh hkn.1) ?_
  · have := elem_mid hv (show j < j + 1 by omega) hqd hφ hne
    rw [faceAt_eq hv hx hq (c := (j : Int) - 1) (by omega), min_eq_left (le_refl _), min_eq_right (by omega : j + 1 ≤ j + 3)] at this
    exact_mod_cast this
  · simp only
    rw [hexSum_oneFault hv, if_pos ⟨by omega, hq⟩, ringZ_oneFault hv, if_pos ⟨by omega, hq⟩, compZ_before hv (by omega), add_zero,
      ofIdx_congr (k := ((j + 1 : Nat) : Int) - 1) (k' := j) (by omega), anti_same, add_zero, Nat.cast_succ]
    exact anti_succ j

end HoneycombLayout
end Honeycomb
