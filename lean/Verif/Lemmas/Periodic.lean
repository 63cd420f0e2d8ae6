import Verif.Lemmas.SnapEnds

/-! From some sub-round on, what is emitted repeats every three sub-rounds. -/

namespace Honeycomb

/-- All times moved by `d`. -/
def shF (d : Nat) (s : Finset Nat) : Finset Nat := s.map (addRightEmbedding d)

def shO (d : Nat) (o : Option (Finset Nat)) : Option (Finset Nat) := o.map (shF d)

theorem mem_shF {d : Nat} {s : Finset Nat} {x : Nat} : x ∈ shF d s ↔ ∃ y ∈ s, y + d = x := by
  simp [shF]

theorem shF_symmDiff (d : Nat) (s t : Finset Nat) : shF d (symmDiff s t) = symmDiff (shF d s) (shF d t) := by
  ext x
  simp only [mem_shF, Finset.mem_symmDiff]
  constructor
  · rintro ⟨y, hy, rfl⟩
    rcases hy with hy | hy
    · exact Or.inl ⟨⟨y, hy.1, rfl⟩, fun ⟨z, hz, e⟩ => hy.2 (by rwa [show y = z by omega])⟩
    · exact Or.inr ⟨⟨y, hy.1, rfl⟩, fun ⟨z, hz, e⟩ => hy.2 (by rwa [show y = z by omega])⟩
  · rintro (⟨⟨y, hy, rfl⟩, h⟩ | ⟨⟨y, hy, rfl⟩, h⟩)
    · exact ⟨y, Or.inl ⟨hy, fun hz => h ⟨y, hz, rfl⟩⟩, rfl⟩
    · exact ⟨y, Or.inr ⟨hy, fun hz => h ⟨y, hz, rfl⟩⟩, rfl⟩

theorem shF_singleton (d x : Nat) : shF d {x} = {x + d} := by
  ext y; simp [mem_shF, eq_comm]

theorem shF_empty (d : Nat) : shF d ∅ = ∅ := by ext y; simp [mem_shF]

theorem shO_xorO (d : Nat) (a b) : shO d (xorO a b) = xorO (shO d a) (shO d b) := by
  rcases a with _ | a <;> rcases b with _ | b <;> simp [shO, shF_symmDiff]

theorem shO_xorL (d : Nat) (l : List (Option (Finset Nat))) : shO d (xorL l) = xorL (l.map (shO d)) := by
  induction l with
  | nil => simp [xorL_nil, shO, shF_empty]
  | cons a l ih => rw [xorL_cons, List.map_cons, xorL_cons, shO_xorO, ih]

theorem shF_xorS (d : Nat) (l : List (Finset Nat)) :
    shF d (HoneycombLayout.xorS l) = HoneycombLayout.xorS (l.map (shF d)) := by
  induction l with
  | nil => exact shF_empty d
  | cons a l ih =>
    show shF d (symmDiff a (HoneycombLayout.xorS l)) = symmDiff (shF d a) (HoneycombLayout.xorS (l.map (shF d)))
    rw [shF_symmDiff, ih]

theorem relTo_shF (t d : Nat) (s : Finset Nat) : relTo (t + d) (shF d s) = relTo t s := by
  have h : (shF d s).sort (· ≤ ·) = (s.sort (· ≤ ·)).map (· + d) := by
    refine List.Perm.eq_of_pairwise (le := (· ≤ ·)) ?_ ?_ ?_ ?_
    · intro a b _ _ h1 h2; exact Nat.le_antisymm h1 h2
    · exact Finset.pairwise_sort _ _
    · exact (Finset.pairwise_sort s (· ≤ ·)).map _ (fun a b h => Nat.add_le_add_right h d)
    · rw [List.perm_ext_iff_of_nodup (Finset.sort_nodup _ _)
        ((Finset.sort_nodup s (· ≤ ·)).map (fun a b h => Nat.add_right_cancel h))]
      intro x
      simp [mem_shF]
  rw [relTo, relTo, h, List.map_map]
  apply List.map_congr_left
  intro x _
  simp only [Function.comp_apply]; push_cast; omega

theorem detI_shO (t d : Nat) (o) (c : List Rat) : detI (t + d) (shO d o) c = detI t o c := by
  rcases o with _ | s
  · rfl
  · simp only [shO, Option.map_some, detI, relTo_shF]

namespace HoneycombLayout
variable {lay : HoneycombLayout}

/-- From this sub-round on the edge parities are steady. -/
def steady0 (lay : HoneycombLayout) : Nat := if lay.isPC3 then 3 else 0

theorem mTime_add3 (k : Nat) (e : Edge) : lay.mTime (k + 3) e = lay.mTime k e + 3 * lay.perRound := by
  simp only [mTime]
  rw [round_edges_congr lay (r := ((k + 3 : Nat) : Int)) (r' := (k : Int)) (by omega), Nat.add_mul]; omega

theorem dTime_add3 (k : Nat) (q : Pt) : lay.dTime (k + 3) q = lay.dTime k q + 3 * lay.perRound := by
  simp only [dTime, Nat.add_mul]; omega

theorem vE_add3 {k : Nat} (hk : lay.steady0 ≤ k) (e : Edge) : lay.vE (k + 3) e = shF (3 * lay.perRound) (lay.vE k e) := by
  simp only [vE, steady0] at *
  by_cases h : lay.isPC3 = true
  · rw [if_pos h] at hk
    rw [if_pos ⟨h, by omega⟩, if_pos ⟨h, hk⟩, shF_symmDiff, shF_singleton, shF_singleton, ← mTime_add3, ← mTime_add3]
    congr 3; omega
  · rw [if_neg (fun x => h x.1), if_neg (fun x => h x.1), shF_singleton, mTime_add3]

theorem vHalf_add3 {k : Nat} (hk : lay.steady0 ≤ k) (h : Pt) :
    lay.vHalf (k + 3) h = shO (3 * lay.perRound) (lay.vHalf k h) := by
  simp only [vHalf, shO_xorL, List.map_map]
  congr 1
  apply List.map_congr_left
  intro e _
  simp only [Function.comp_apply, shO, Option.map_some, vE_add3 hk]

theorem vHex_add3 {k : Nat} (hk : lay.steady0 + 1 ≤ k) (b : Basis) (h : Pt) :
    lay.vHex b (k + 3) h = shO (3 * lay.perRound) (lay.vHex b k h) := by
  simp only [vHex, shO_xorO, shO_xorL, List.map_map]
  rw [if_neg (by omega), if_neg (by omega), show k + 3 - 1 = (k - 1) + 3 by omega, vHalf_add3 (by omega)]
  congr 2
  apply List.map_congr_left
  intro e _
  simp only [Function.comp_apply, shO, Option.map_some, vE_add3 (show lay.steady0 ≤ k by omega)]

theorem prevHex_add3 {k : Nat} (hk : lay.steady0 + 4 ≤ k) (b : Basis) (h : Pt) :
    lay.prevHex b (k + 3) h = shO (3 * lay.perRound) (lay.prevHex b k h) := by
  simp only [prevHex]
  rw [if_neg (by omega), if_neg (by omega), show k + 3 - 3 = (k - 3) + 3 by omega, vHex_add3 (by omega)]

theorem vObs_add3 {k : Nat} (hk : lay.steady0 ≤ k) : lay.vObs (k + 3) = shF (3 * lay.perRound) (lay.vObs k) := by
  simp only [vObs, shF_xorS, List.map_map]
  rw [round_edges_congr lay (r := ((k + 3 : Nat) : Int)) (r' := (k : Int)) (by omega)]
  congr 1
  apply List.map_congr_left
  intro e _
  simp only [Function.comp_apply, vE_add3 hk]

theorem emitMeas_add3 (k : Nat) : lay.emitMeas (k + 3) = lay.emitMeas k := by
  simp only [emitMeas]
  rw [round_edges_congr lay (r := ((k + 3 : Nat) : Int)) (r' := (k : Int)) (by omega)]

theorem emitAnn_add3 {k : Nat} (hk : lay.steady0 + 4 ≤ k) : lay.emitAnn (k + 3) = lay.emitAnn k := by
  have ht : (k + 3 + 1) * lay.perRound = (k + 1) * lay.perRound + 3 * lay.perRound := by ring
  simp only [emitAnn]
  rw [ht, vObs_add3 (by omega), relTo_shF, if_neg (c := k + 3 = 0 ∧ _) (by omega), if_neg (c := k = 0 ∧ _) (by omega),
    show (((k + 3 : Nat) : Int) - 2) % 3 = ((k : Int) - 2) % 3 by omega]
  congr 3
  funext h
  rw [vHex_add3 (by omega), prevHex_add3 hk, ← shO_xorO, detI_shO]

theorem topAt_add3 {v : Nat → Option (Finset Nat)} {init} {c : Int} {k d s : Nat} (hc0 : 0 ≤ c) (hc3 : c < 3)
    (hk : s + 3 ≤ k) (hv : ∀ j, s ≤ j → v (j + 3) = shO d (v j)) :
    topAt v init c (k + 3) = shO d (topAt v init c k) := by
  obtain ⟨e, h1, h3, hc, he⟩ := topAt_cases v init hc0 hc3 k
  rw [he, topAt_eq v init (k := k + 3) h1 h3 (by omega), if_neg (by omega), if_neg (by omega),
    show k + 3 - e = (k - e) + 3 by omega, hv _ (by omega)]

theorem emitFinal_add3 (n : Int) {k : Nat} (hk : lay.steady0 + 4 ≤ k) :
    lay.emitFinal n (k + 3) = lay.emitFinal n k := by
  have ht : (k + 3) * lay.perRound + lay.data_qubit_coords.length =
    k * lay.perRound + lay.data_qubit_coords.length + 3 * lay.perRound := by ring
  have hx : ∀ b r h, 0 ≤ r → r < 3 → lay.topHex b r (k + 3) h = shO (3 * lay.perRound) (lay.topHex b r k h) := by
    intro b r h h0 h3
    exact topAt_add3 (s := lay.steady0 + 1) (by omega) (by omega) (by omega) (fun j hj => vHex_add3 hj b h)
  have hhalf : ∀ b r h, 0 ≤ r → r < 3 → lay.topHalf b r (k + 3) h = shO (3 * lay.perRound) (lay.topHalf b r k h) := by
    intro b r h h0 h3
    exact topAt_add3 (s := lay.steady0) (by omega) (by omega) (by omega) (fun j hj => vHalf_add3 hj h)
  have hedge : ∀ b r e, 0 ≤ r → r < 3 → lay.topEdge b r (k + 3) e = shO (3 * lay.perRound) (lay.topEdge b r k e) := by
    intro b r e h0 h3
    exact topAt_add3 (s := lay.steady0) (by omega) (by omega) (by omega) (fun j hj => by rw [vE_add3 hj e]; rfl)
  have hdhex : ∀ h, lay.dHex (k + 3) h = shF (3 * lay.perRound) (lay.dHex k h) := by
    intro h
    simp only [dHex, shF_xorS, List.map_map]
    congr 1
    apply List.map_congr_left
    intro q _
    simp only [Function.comp_apply, shF_singleton, dTime_add3]
  have hq : xorS ((lay.obsAt n).2.map fun q => {lay.dTime (k + 3) q}) =
      shF (3 * lay.perRound) (xorS ((lay.obsAt n).2.map fun q => {lay.dTime k q})) := by
    simp only [shF_xorS, List.map_map]
    congr 1
    apply List.map_congr_left
    intro q _
    simp only [Function.comp_apply, shF_singleton, dTime_add3]
  have hsome : ∀ s, some (shF (3 * lay.perRound) s) = shO (3 * lay.perRound) (some s) := fun s => rfl
  simp only [emitFinal, ht]
  rw [hq, relTo_shF]
  simp only [dTime_add3, ← shF_singleton, ← shF_symmDiff, hdhex, hsome]
  congr 2
  · split_ifs with hl
    · congr 1; funext e
      rw [hedge _ _ _ (index_range _).1 (index_range _).2, ← shO_xorO, detI_shO]
    · congr 1; funext h
      rw [hhalf _ _ _ (index_range _).1 (index_range _).2, hx _ _ _ (index_range _).1 (index_range _).2,
        ← shO_xorO, ← shO_xorO, detI_shO]
  · congr 1; funext h
    rw [hx _ _ _ (index_range _).1 (index_range _).2, ← shO_xorO, detI_shO]

theorem add3_iter {α : Type} {f : Nat → α} {s : Nat} (h : ∀ k, s ≤ k → f (k + 3) = f k) {k : Nat} (hk : s ≤ k) (i : Nat) :
    f (k + 3 * i) = f k := by
  induction i with
  | zero => rfl
  | succ i ih => rw [Nat.mul_add, Nat.mul_one, ← Nat.add_assoc, h _ (by omega), ih]

end HoneycombLayout
end Honeycomb
