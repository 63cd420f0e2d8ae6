import Verif.Lemmas.Marks
import Verif.Lemmas.Steps
import Verif.Props.Layout
import Verif.Spec.Pauli

/-!
# The data qubits' frame from sub-round to sub-round, and what it implies for detectors and the observable
-/

namespace Honeycomb

/-- The parity of the record entries of a set. -/
def val (R : Nat → ZMod 2) (s : Finset Nat) : ZMod 2 := ∑ t ∈ s, R t

theorem val_empty (R : Nat → ZMod 2) : val R ∅ = 0 := rfl

theorem val_singleton (R : Nat → ZMod 2) (t : Nat) : val R {t} = R t := Finset.sum_singleton _ _

theorem val_symmDiff (R : Nat → ZMod 2) (s t : Finset Nat) : val R (symmDiff s t) = val R s + val R t := by
  have hd : Disjoint (s \ t) (t \ s) := disjoint_sdiff_sdiff
  have h1 : val R s = (∑ x ∈ s \ t, R x) + ∑ x ∈ s ∩ t, R x := by
    rw [val, ← Finset.sum_union (Finset.disjoint_sdiff_inter s t), Finset.sdiff_union_inter]
  have h2 : val R t = (∑ x ∈ t \ s, R x) + ∑ x ∈ s ∩ t, R x := by
    rw [Finset.inter_comm, val, ← Finset.sum_union (Finset.disjoint_sdiff_inter t s), Finset.sdiff_union_inter]
  have h3 : val R (symmDiff s t) = (∑ x ∈ s \ t, R x) + ∑ x ∈ t \ s, R x := by
    rw [val, ← Finset.sum_union hd]; rfl
  rw [h1, h2, h3]
  have := zmod2_add_self (∑ x ∈ s ∩ t, R x)
  linear_combination -this

theorem val_xorS (R : Nat → ZMod 2) (l : List (Finset Nat)) : val R (HoneycombLayout.xorS l) = (l.map (val R)).sum := by
  induction l with
  | nil => rfl
  | cons s l ih =>
    rw [List.map_cons, List.sum_cons, ← ih, ← val_symmDiff]; rfl

/-- Every set in `o` has parity `v`. -/
def HasVal (R : Nat → ZMod 2) (o : Option (Finset Nat)) (v : ZMod 2) : Prop := ∀ s ∈ o, val R s = v

theorem HasVal.xorO {R : Nat → ZMod 2} {o p : Option (Finset Nat)} {v w : ZMod 2} (h1 : HasVal R o v) (h2 : HasVal R p w) :
    HasVal R (xorO o p) (v + w) := by
  intro s hs
  cases o <;> cases p <;> simp at hs
  subst hs
  rw [val_symmDiff, h1 _ rfl, h2 _ rfl]

theorem hasVal_none (R : Nat → ZMod 2) (v : ZMod 2) : HasVal R none v := by intro s hs; simp at hs

theorem hasVal_some {R : Nat → ZMod 2} {s : Finset Nat} {v : ZMod 2} (h : val R s = v) : HasVal R (some s) v := by
  intro s' hs; simp at hs; subst hs; exact h

theorem hasVal_xorL {α : Type} {R : Nat → ZMod 2} {l : List α} {f : α → Finset Nat} {g : α → ZMod 2} (h : ∀ a ∈ l, val R (f a) = g a) :
    HasVal R (xorL (l.map fun a => some (f a))) (l.map g).sum := by
  rw [HoneycombLayout.xorL_some]
  refine hasVal_some ?_
  rw [val_xorS, List.map_map]
  exact sum_map_congr h

namespace HoneycombLayout
variable {lay : HoneycombLayout}

/-- The parity of an edge measured in sub-round `k`. -/
def par (F : PauliOp) (k : Int) (e : Edge) : ZMod 2 := anti (F e.left) (Basis.ofIdx k).pauli + anti (F e.right) (Basis.ofIdx k).pauli

/-- `F k` is the frame of the data qubits before sub-round `k`: they start in the observable's basis, and each
edge measurement may multiply the measured operator onto the frame. -/
structure Trajectory (lay : HoneycombLayout) (N : Nat) (F : Nat → PauliOp) : Prop where
  init : ∀ q ∈ lay.data_qubit_coords, ∃ r : ZMod 2, F 0 q = r • (lay.obsAt 0).1.pauli
  step : ∀ k : Nat, k < N → ∀ e ∈ lay.round_edges k, ∃ r : ZMod 2, F (k + 1) e.left = F k e.left + r • (Basis.ofIdx k).pauli ∧
    F (k + 1) e.right = F k e.right + r • (Basis.ofIdx k).pauli

theorem anti_smul_left (r : ZMod 2) (a b : Pauli) : anti (r • a) b = r * anti a b := by revert r a b; decide

theorem smul_self_anti (r : ZMod 2) (a : Pauli) : anti (r • a) a = 0 := by rw [anti_smul_left, anti_self, mul_zero]

theorem sum_edgeEnds (l : List Edge) (f : Pt → ZMod 2) : ((edgeEnds l).map f).sum = (l.map fun e => f e.left + f e.right).sum := by
  induction l with
  | nil => rfl
  | cons e l ih =>
    simp only [edgeEnds, List.flatMap_cons, List.map_append, List.sum_append, List.map_cons, List.sum_cons] at ih ⊢
    rw [ih]; simp

theorem edgeEnds_data (hv : lay.Valid) (k : Int) : (edgeEnds (lay.round_edges k)).Perm lay.data_qubit_coords := by
  refine (List.perm_ext_iff_of_nodup ?_ (nodup_data_qubit_coords lay)).2 fun q => ?_
  · have h := (covers_ends hv k).1
    have e : ((lay.round_edges k).flatMap fun e => [lay.idx e.left, lay.idx e.right]) = (edgeEnds (lay.round_edges k)).map lay.idx := by
      rw [edgeEnds, List.map_flatMap]; rfl
    rw [e] at h
    exact List.Nodup.of_map _ h
  · simp only [edgeEnds, List.mem_flatMap, List.mem_cons, List.not_mem_nil, or_false]
    constructor
    · rintro ⟨e, he, rfl | rfl⟩
      · exact (edge_ends_data hv (round_edges_subset_all he)).1
      · exact (edge_ends_data hv (round_edges_subset_all he)).2
    · intro hq
      obtain ⟨e, he, ht⟩ := exists_edge hv hq k
      exact ⟨e, he, ht.imp Eq.symm Eq.symm⟩

/-- The sum over the qubits around a hexagon. -/
def hexSum (lay : HoneycombLayout) (h : Pt) (F : PauliOp) (P : Pauli) : ZMod 2 := ((lay.qubits_around_hex h).map fun q => anti (F q) P).sum

/-- What the detectors need of a trajectory: no hexagon operator in the initial basis and no edge operator measured first in that
basis is flipped at the start. -/
structure Calm (lay : HoneycombLayout) (N : Nat) (F : Nat → PauliOp) : Prop where
  hex_init : ∀ h, HexT lay.tile_width lay.tile_height h → lay.hexSum h (F 0) (lay.obsAt 0).1.pauli = 0
  edge_init : (lay.obsAt 0).1 = .X → ∀ e ∈ lay.round_edges 0, anti (F 0 e.left) Basis.X.pauli + anti (F 0 e.right) Basis.X.pauli = 0
  step : ∀ k : Nat, k < N → ∀ e ∈ lay.round_edges k, ∃ r : ZMod 2, F (k + 1) e.left = F k e.left + r • (Basis.ofIdx k).pauli ∧
    F (k + 1) e.right = F k e.right + r • (Basis.ofIdx k).pauli

theorem hexSum_add (h : Pt) (F : PauliOp) (P Q : Pauli) : lay.hexSum h F (P + Q) = lay.hexSum h F P + lay.hexSum h F Q := by
  rw [hexSum, hexSum, hexSum, ← sum_map_add]
  exact sum_map_congr fun q _ => anti_add_right _ _ _

theorem sum_first {h : Pt} (hx : HexT lay.tile_width lay.tile_height h) (f : Pt → ZMod 2) :
    ((lay.first_edges_around_hex h).map fun e => f e.left + f e.right).sum = ((lay.qubits_around_hex h).map f).sum := by
  rw [← sum_edgeEnds]; exact ((first_edges_ends hx).map f).sum_eq

theorem sum_second {h : Pt} (hx : HexT lay.tile_width lay.tile_height h) (f : Pt → ZMod 2) :
    ((lay.second_edges_around_hex h).map fun e => f e.left + f e.right).sum = ((lay.qubits_around_hex h).map f).sum := by
  rw [← sum_edgeEnds]; exact ((second_edges_ends hx).map f).sum_eq

theorem kick_pair (a b P Q : Pauli) (r : ZMod 2) : anti (a + r • P) Q + anti (b + r • P) Q = anti a Q + anti b Q := by
  revert a b P Q r; decide

theorem Calm.hex_first (ht : lay.Calm N F) (hv : lay.Valid) {h : Pt} (hx : HexT lay.tile_width lay.tile_height h) {k : Nat}
    (hk : k < N) (hc : (k : Int) % 3 = (hexColour h + 1) % 3) (P : Pauli) : lay.hexSum h (F (k + 1)) P = lay.hexSum h (F k) P := by
  rw [hexSum, hexSum, ← sum_first hx, ← sum_first hx]
  refine sum_map_congr fun e he => ?_
  obtain ⟨r, e1, e2⟩ := ht.step k hk e (by rw [round_edges_congr lay (r' := hexColour h + 1) hc]; exact first_edges_mem hv hx he)
  rw [e1, e2, kick_pair]

theorem Calm.hex_second (ht : lay.Calm N F) (hv : lay.Valid) {h : Pt} (hx : HexT lay.tile_width lay.tile_height h) {k : Nat}
    (hk : k < N) (hc : (k : Int) % 3 = (hexColour h + 2) % 3) (P : Pauli) : lay.hexSum h (F (k + 1)) P = lay.hexSum h (F k) P := by
  rw [hexSum, hexSum, ← sum_second hx, ← sum_second hx]
  refine sum_map_congr fun e he => ?_
  obtain ⟨r, e1, e2⟩ := ht.step k hk e (by rw [round_edges_congr lay (r' := hexColour h + 2) hc]; exact second_edges_mem hv hx he)
  rw [e1, e2, kick_pair]

/-- One step at a data qubit. -/
theorem Calm.at (ht : lay.Calm N F) (hv : lay.Valid) {k : Nat} (hk : k < N) {q : Pt} (hq : q ∈ lay.data_qubit_coords) :
    ∃ r : ZMod 2, F (k + 1) q = F k q + r • (Basis.ofIdx k).pauli := by
  obtain ⟨e, he, h⟩ := exists_edge hv hq k
  obtain ⟨r, e1, e2⟩ := ht.step k hk e he
  rcases h with rfl | rfl
  · exact ⟨r, e1⟩
  · exact ⟨r, e2⟩

theorem Calm.hex_own (ht : lay.Calm N F) (hv : lay.Valid) {h : Pt} (hx : HexT lay.tile_width lay.tile_height h) {k : Nat}
    (hk : k < N) : lay.hexSum h (F (k + 1)) (Basis.ofIdx k).pauli = lay.hexSum h (F k) (Basis.ofIdx k).pauli := by
  refine sum_map_congr fun q hq => ?_
  obtain ⟨r, e⟩ := ht.at hv hk (qubits_around_hex_data hv hx hq)
  rw [e, anti_add_left, smul_self_anti, add_zero]

/-- The stabilizer of a hexagon is conserved. -/
theorem Calm.hex_const (ht : lay.Calm N F) (hv : lay.Valid) {h : Pt} (hx : HexT lay.tile_width lay.tile_height h) {k : Nat}
    (hk : k ≤ N) : lay.hexSum h (F k) (Basis.ofIdx (hexColour h)).pauli = lay.hexSum h (F 0) (Basis.ofIdx (hexColour h)).pauli := by
  induction k with
  | zero => rfl
  | succ k ih =>
    rw [← ih (by omega)]
    have : (k : Int) % 3 = (hexColour h) % 3 ∨ (k : Int) % 3 = (hexColour h + 1) % 3 ∨ (k : Int) % 3 = (hexColour h + 2) % 3 := by omega
    rcases this with hc | hc | hc
    · have := ht.hex_own hv hx (k := k) (by omega)
      rwa [ofIdx_congr hc] at this
    · exact ht.hex_first hv hx (by omega) hc _
    · exact ht.hex_second hv hx (by omega) hc _

/-- In the initial frame an operator in the initial basis is not flipped. -/
theorem Trajectory.init_zero (ht : lay.Trajectory N F) {q : Pt} (hq : q ∈ lay.data_qubit_coords) :
    anti (F 0 q) (lay.obsAt 0).1.pauli = 0 := by
  obtain ⟨r, e⟩ := ht.init q hq
  rw [e, smul_self_anti]

theorem Trajectory.calm (ht : lay.Trajectory N F) (hv : lay.Valid) : lay.Calm N F where
  hex_init _ hx := sum_map_eq_zero fun _ hq => ht.init_zero (qubits_around_hex_data hv hx hq)
  edge_init hX e he := by
    have hd := edge_ends_data hv (round_edges_subset_all he)
    have e1 := ht.init_zero hd.1
    have e2 := ht.init_zero hd.2
    rw [hX] at e1 e2
    rw [e1, e2, add_zero]
  step := ht.step

/-- What the record of a run says: the recovered edge parities and the final data measurements. -/
structure Recorded (lay : HoneycombLayout) (N : Nat) (F : Nat → PauliOp) (R : Nat → ZMod 2) : Prop where
  edge : ∀ k : Nat, k < N → ∀ e ∈ lay.round_edges k, val R (lay.vE k e) = par (F k) k e
  data : ∀ q ∈ lay.data_qubit_coords, R (lay.dTime N q) = anti (F N q) (lay.obsAt N).1.pauli

variable {N : Nat} {F : Nat → PauliOp} {R : Nat → ZMod 2}

theorem val_vHalf (hr : lay.Recorded N F R) (hv : lay.Valid) {k : Nat} (hk : k < N) {h : Pt}
    (hx : HexT lay.tile_width lay.tile_height h) (hc : (k : Int) % 3 = (hexColour h + 1) % 3) :
    HasVal R (lay.vHalf k h) (lay.hexSum h (F k) (Basis.ofIdx k).pauli) := by
  rw [hexSum, ← sum_first hx]
  exact hasVal_xorL fun e he => hr.edge k hk e (by rw [round_edges_congr lay (r' := hexColour h + 1) hc]; exact first_edges_mem hv hx he)

theorem val_second (hr : lay.Recorded N F R) (hv : lay.Valid) {k : Nat} (hk : k < N) {h : Pt}
    (hx : HexT lay.tile_width lay.tile_height h) (hc : (k : Int) % 3 = (hexColour h + 2) % 3) :
    HasVal R (xorL ((lay.second_edges_around_hex h).map fun e => some (lay.vE k e))) (lay.hexSum h (F k) (Basis.ofIdx k).pauli) := by
  rw [hexSum, ← sum_second hx]
  exact hasVal_xorL fun e he => hr.edge k hk e (by rw [round_edges_congr lay (r' := hexColour h + 2) hc]; exact second_edges_mem hv hx he)

theorem val_vHex (hr : lay.Recorded N F R) (ht : lay.Calm N F) (hv : lay.Valid) {k : Nat} (hk : k < N) {h : Pt}
    (hx : HexT lay.tile_width lay.tile_height h) (hc : (k : Int) % 3 = (hexColour h + 2) % 3) :
    HasVal R (lay.vHex (lay.obsAt 0).1 k h) (lay.hexSum h (F 0) (Basis.ofIdx (hexColour h)).pauli) := by
  have h2 := val_second hr hv hk hx hc
  rw [vHex]
  rcases Nat.eq_zero_or_pos k with rfl | hk0
  · rw [if_pos (by omega), hInit]
    split_ifs with hb
    · rw [xorO_none_right]; exact hasVal_none _ _
    · have h3 := h2.xorO (hasVal_some (val_empty R))
      have e : lay.hexSum h (F 0) (Basis.ofIdx (hexColour h)).pauli =
          lay.hexSum h (F 0) (Basis.ofIdx ((0 : Nat) : Int)).pauli + 0 := by
        rw [← pauli_mul_next, hexSum_add, ofIdx_congr (k := hexColour h + 2) (k' := ((0 : Nat) : Int)) hc.symm]
        have e1 : Basis.ofIdx (hexColour h + 1) = (lay.obsAt 0).1 := by
          rw [← ofIdx_index (lay.obsAt 0).1]
          have := index_range (lay.obsAt 0).1
          push_cast at hc hb
          exact ofIdx_congr (by omega)
        rw [e1, ht.hex_init _ hx]; ring
      rw [e]; exact h3
  · rw [if_neg (by omega)]
    have h1 := val_vHalf hr hv (k := k - 1) (by omega) hx (by omega)
    have h3 := h2.xorO h1
    have e0 := ht.hex_const hv hx (k := k - 1) (by omega)
    have e1 := ht.hex_first hv hx (k := k - 1) (by omega) (by omega) (Basis.ofIdx k).pauli
    rw [show k - 1 + 1 = k by omega] at e1
    rw [← e0, ← pauli_mul_next, hexSum_add, ofIdx_congr (k := hexColour h + 2) (k' := (k : Int)) hc.symm, ← e1,
      ofIdx_congr (k := hexColour h + 1) (k' := ((k - 1 : Nat) : Int)) (by omega), add_comm]
    exact h3

theorem val_eInit (ht : lay.Calm N F) (hv : lay.Valid) {h : Pt} (hx : HexT lay.tile_width lay.tile_height h) {r : Int}
    (hr : r = hexColour h) : HasVal R (eInit (lay.obsAt 0).1 r) (lay.hexSum h (F 0) (Basis.ofIdx (hexColour h)).pauli) := by
  subst hr
  rw [eInit]
  split_ifs with hb
  · exact hasVal_none _ _
  · push Not at hb
    rw [hb, ofIdx_index, ht.hex_init _ hx]
    exact hasVal_some (val_empty R)

theorem hexColour_range (h : Pt) : 0 ≤ hexColour h ∧ hexColour h < 3 := by
  simp only [hexColour]; omega

theorem val_prevHex (hr : lay.Recorded N F R) (ht : lay.Calm N F) (hv : lay.Valid) {k : Nat} (hk : k < N) {h : Pt}
    (hx : HexT lay.tile_width lay.tile_height h) (hc : (k : Int) % 3 = (hexColour h + 2) % 3) :
    HasVal R (lay.prevHex (lay.obsAt 0).1 k h) (lay.hexSum h (F 0) (Basis.ofIdx (hexColour h)).pauli) := by
  rw [prevHex]
  have := hexColour_range h
  split_ifs with h3
  · exact val_eInit ht hv hx (by omega)
  · exact val_vHex hr ht hv (by omega) hx (by omega)

theorem val_topHex (hr : lay.Recorded N F R) (ht : lay.Calm N F) (hv : lay.Valid) {h : Pt}
    (hx : HexT lay.tile_width lay.tile_height h) {r : Int} (hc : r = hexColour h) :
    HasVal R (lay.topHex (lay.obsAt 0).1 r N h) (lay.hexSum h (F 0) (Basis.ofIdx (hexColour h)).pauli) := by
  have := hexColour_range h
  obtain ⟨d, h1, h3, hd, e⟩ := topAt_cases (fun j => lay.vHex (lay.obsAt 0).1 j h) (eInit (lay.obsAt 0).1 r) (c := (r + 2) % 3)
    (by omega) (by omega) N
  rw [topHex, e]
  split_ifs with hN
  · exact val_eInit ht hv hx hc
  · exact val_vHex hr ht hv (by omega) hx (by omega)

theorem val_dHex (hr : lay.Recorded N F R) (hv : lay.Valid) {h : Pt} (hx : HexT lay.tile_width lay.tile_height h) :
    HasVal R (some (lay.dHex N h)) (lay.hexSum h (F N) (lay.obsAt N).1.pauli) := by
  refine hasVal_some ?_
  rw [dHex, val_xorS, List.map_map]
  refine sum_map_congr fun q hq => ?_
  rw [Function.comp_apply, val_singleton, hr.data q (qubits_around_hex_data hv hx hq)]

/-- The bases of the observable. -/
theorem obs_basis (n : Int) : (lay.obsAt n).1 = patternBasis (obsVPattern n) ∨ (lay.obsAt n).1 = patternBasis (obsHPattern n) := by
  rw [obsAt]; split_ifs
  · exact Or.inl rfl
  · exact Or.inr rfl

theorem basis_table_v : ∀ c ∈ ([0, 1, 2, 3, 4, 5] : List Int), Basis.ofIdx (c - 1) ≠ patternBasis (obsVPattern c) →
    (otherBasis (Basis.ofIdx (c - 1)) (patternBasis (obsVPattern c))).index = (c + 1) % 3 ∧
    (Basis.ofIdx (c - 1)).pauli + (patternBasis (obsVPattern c)).pauli = (Basis.ofIdx (c + 1)).pauli := by decide

theorem basis_table_h : ∀ c ∈ ([0, 1, 2, 3, 4, 5] : List Int), Basis.ofIdx (c - 1) ≠ patternBasis (obsHPattern c) →
    (otherBasis (Basis.ofIdx (c - 1)) (patternBasis (obsHPattern c))).index = (c + 1) % 3 ∧
    (Basis.ofIdx (c - 1)).pauli + (patternBasis (obsHPattern c)).pauli = (Basis.ofIdx (c + 1)).pauli := by decide

/-- If the last sub-round's basis is not the final basis, the third basis is the colour of the hexagons whose first half was
just measured. -/
theorem other_colour (n : Int) (h : Basis.ofIdx (n - 1) ≠ (lay.obsAt n).1) :
    (otherBasis (Basis.ofIdx (n - 1)) (lay.obsAt n).1).index = (n + 1) % 3 ∧
    (Basis.ofIdx (n - 1)).pauli + (lay.obsAt n).1.pauli = (Basis.ofIdx (n + 1)).pauli := by
  have hb : Basis.ofIdx (n % 6 - 1) = Basis.ofIdx (n - 1) := ofIdx_congr (by omega)
  have hb' : Basis.ofIdx (n % 6 + 1) = Basis.ofIdx (n + 1) := ofIdx_congr (by omega)
  have h6 : (n % 6 + 1) % 3 = (n + 1) % 3 := by omega
  rcases obs_basis (lay := lay) n with e | e
  · have := basis_table_v (n % 6) (six_mem n)
    rw [hb, hb', h6, obsVPattern_emod, ← e] at this
    exact this h
  · have := basis_table_h (n % 6) (six_mem n)
    rw [hb, hb', h6, obsHPattern_emod, ← e] at this
    exact this h

end HoneycombLayout
end Honeycomb
