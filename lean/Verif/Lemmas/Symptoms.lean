import Verif.Props.Detectors
import Verif.Lemmas.Quiet
import Verif.Lemmas.Distance
import Verif.Lemmas.Flips

/-!
# Which detectors a data fault can fire
-/

namespace Honeycomb
namespace HoneycombLayout
variable {lay : HoneycombLayout} {N : Nat} {F G : Nat → PauliOp} {R : Nat → ZMod 2}

/-- The flips around a face in sub-round `j`; none before the first sub-round. -/
def ringZ (lay : HoneycombLayout) (F : Nat → PauliOp) (h : Pt) (j : Int) : ZMod 2 :=
  if j < 0 then 0 else lay.hexSum h (F j.toNat) (Basis.ofIdx j).pauli

/-- The parity of a face completed in sub-round `j`. -/
def compZ (lay : HoneycombLayout) (F : Nat → PauliOp) (h : Pt) (j : Int) : ZMod 2 := lay.ringZ F h j + lay.ringZ F h (j - 1)

theorem hexSum_frames (h : Pt) (F G : PauliOp) (P : Pauli) : lay.hexSum h (fun q => F q + G q) P = lay.hexSum h F P + lay.hexSum h G P := by
  rw [hexSum, hexSum, hexSum, ← sum_map_add]
  exact sum_map_congr fun q _ => anti_add_left _ _ _

theorem ringZ_add (h : Pt) (j : Int) : lay.ringZ (fun k q => F k q + G k q) h j = lay.ringZ F h j + lay.ringZ G h j := by
  rw [ringZ, ringZ, ringZ]
  split_ifs
  · rw [add_zero]
  · exact hexSum_frames _ _ _ _

theorem compZ_add (h : Pt) (j : Int) : lay.compZ (fun k q => F k q + G k q) h j = lay.compZ F h j + lay.compZ G h j := by
  rw [compZ, compZ, compZ, ringZ_add, ringZ_add]; ring

theorem val_rV_first (hr : lay.Recorded N F R) (hv : lay.Valid) {h : Pt} (hx : HexT lay.tile_width lay.tile_height h) {j : Int} (hj : j < N)
    (hc : j % 3 = (hexColour h + 1) % 3) : val R (lay.rV (lay.first_edges_around_hex h) j) = lay.ringZ F h j := by
  rw [ringZ]
  split_ifs with h0
  · rw [rV_neg h0]; exact val_empty R
  · obtain ⟨k, rfl⟩ := Int.eq_ofNat_of_zero_le (show 0 ≤ j by omega)
    exact val_vHalf hr hv (k := k) (by omega) hx hc _ (vHalf_eq k h)

theorem val_rV_second (hr : lay.Recorded N F R) (hv : lay.Valid) {h : Pt} (hx : HexT lay.tile_width lay.tile_height h) {j : Int} (hj : j < N)
    (hc : j % 3 = (hexColour h + 2) % 3) : val R (lay.rV (lay.second_edges_around_hex h) j) = lay.ringZ F h j := by
  rw [ringZ]
  split_ifs with h0
  · rw [rV_neg h0]; exact val_empty R
  · obtain ⟨k, rfl⟩ := Int.eq_ofNat_of_zero_le (show 0 ≤ j by omega)
    refine val_second hr hv (k := k) (by omega) hx hc _ ?_
    rw [xorL_some, xorS_vE]
    exact Option.mem_some_self _

theorem val_rF (hr : lay.Recorded N F R) (hv : lay.Valid) {h : Pt} (hx : HexT lay.tile_width lay.tile_height h) {j : Int} (hj : j < N)
    (hc : j % 3 = (hexColour h + 2) % 3) : val R (lay.rF h j) = lay.compZ F h j := by
  rw [rF, val_symmDiff, val_rV_second hr hv hx hj hc, val_rV_first hr hv hx (by omega) (by omega), compZ]

/-- Without faults a completed face shows the same parity every time. -/
theorem Calm.compZ (ht : lay.Calm N F) (hv : lay.Valid) {h : Pt} (hx : HexT lay.tile_width lay.tile_height h) {j : Int} (hj : j < N)
    (hc : j % 3 = (hexColour h + 2) % 3) (h0 : 0 ≤ j) (hV : j = 0 → (lay.obsAt 0).1 = .Z) :
    lay.compZ F h j = lay.hexSum h (F 0) (Basis.ofIdx (hexColour h)).pauli := by
  obtain ⟨k, rfl⟩ := Int.eq_ofNat_of_zero_le h0
  rcases Nat.eq_zero_or_pos k with rfl | hk0
  · have hz := hV rfl
    rw [HoneycombLayout.compZ, ringZ, if_neg (by omega), ringZ, if_pos (by omega), add_zero,
      ← pauli_mul_next (hexColour h), hexSum_add, ofIdx_congr (k := hexColour h + 2) (k' := ((0 : Nat) : Int)) hc.symm]
    have e1 : Basis.ofIdx (hexColour h + 1) = (lay.obsAt 0).1 := by
      rw [hz, ← ofIdx_index .Z]
      exact ofIdx_congr (by simp only [Basis.index]; push_cast at hc; omega)
    rw [e1, ht.hex_init _ hx, zero_add]; rfl
  · have e0 := ht.hex_const hv hx (k := k - 1) (by omega)
    have e1 := ht.hex_first hv hx (k := k - 1) (by omega) (by omega) (Basis.ofIdx k).pauli
    rw [show k - 1 + 1 = k by omega] at e1
    rw [HoneycombLayout.compZ, ringZ, if_neg (by omega), ringZ, if_neg (by omega), ← e0, ← pauli_mul_next (hexColour h), hexSum_add,
      ofIdx_congr (k := hexColour h + 2) (k' := (k : Int)) hc.symm, show ((k : Int) - 1).toNat = k - 1 by omega,
      Int.toNat_natCast, ← e1, ofIdx_congr (k := hexColour h + 1) (k' := (k : Int) - 1) (by omega), add_comm]

theorem compZ_neg {h : Pt} {j : Int} (hj : j < 0) : lay.compZ F h j = 0 := by
  rw [compZ, ringZ, if_pos hj, ringZ, if_pos (by omega), add_zero]

/-- What a known face was at its last completion before sub-round `k`. -/
theorem Calm.known (ht : lay.Calm N F) (hv : lay.Valid) (ho : lay.ObsOk) {h : Pt} (hx : HexT lay.tile_width lay.tile_height h) {k j : Int}
    (hkn : lay.faceKnown k (hexColour h) = true) (hj : j < N) (h3 : k - 3 ≤ j) (hjk : j < k) (hk0 : 0 ≤ k)
    (hc : j % 3 = (hexColour h + 2) % 3) :
    lay.compZ F h j = lay.hexSum h (F 0) (Basis.ofIdx (hexColour h)).pauli := by
  have hcr := hexColour_range h
  rw [faceKnown] at hkn
  have hz := obsAt_zero_basis ho
  by_cases hV : lay.obs = "V"
  · rw [if_pos hV] at hkn hz
    simp only [decide_eq_true_eq] at hkn
    by_cases h0 : 0 ≤ j
    · exact ht.compZ hv hx hj hc h0 fun _ => hz
    · have h2 : hexColour h = 2 := by omega
      rw [compZ_neg (by omega), h2, show Basis.ofIdx 2 = .Z from rfl, ← hz, ht.hex_init _ hx]
  · rw [if_neg hV] at hkn hz
    simp only [decide_eq_true_eq] at hkn
    by_cases h0 : 0 ≤ j
    · exact ht.compZ hv hx hj hc h0 fun h => by omega
    · have h2 : hexColour h = 0 := by omega
      rw [compZ_neg (by omega), h2, show Basis.ofIdx 0 = .X from rfl, ← hz, ht.hex_init _ hx]

/-! ### One fault -/

/-- The frame of a single fault `P` on `q` before sub-round `j`. -/
def oneFault (j : Nat) (q : Pt) (P : Pauli) : Nat → PauliOp := fun k p => if j ≤ k ∧ p = q then P else 0

theorem sum_indicator {l : List Pt} (hn : l.Nodup) (q : Pt) (f : Pauli) (Q : Pauli) :
    (l.map fun p => anti (if p = q then f else 0) Q).sum = if q ∈ l then anti f Q else 0 := by
  induction l with
  | nil => rfl
  | cons a l ih =>
    rw [List.nodup_cons] at hn
    rw [List.map_cons, List.sum_cons, ih hn.2]
    by_cases ha : a = q
    · subst ha
      rw [if_pos rfl, if_neg hn.1, if_pos (by simp), add_zero]
    · rw [if_neg ha, anti_zero_left, zero_add]
      simp only [List.mem_cons, show ¬ q = a from fun h => ha h.symm, false_or]

theorem hexSum_oneFault (hv : lay.Valid) (h : Pt) (j k : Nat) (q : Pt) (P Q : Pauli) :
    lay.hexSum h (oneFault j q P k) Q = if j ≤ k ∧ q ∈ lay.qubits_around_hex h then anti P Q else 0 := by
  by_cases hj : j ≤ k
  · have := sum_indicator (nodup_qubits_around_hex hv h) q P Q
    simp only [hexSum, oneFault, hj, true_and]
    exact this
  · simp only [hexSum, oneFault, hj, false_and, if_false, anti_zero_left]
    exact sum_map_eq_zero fun _ _ => rfl

theorem ringZ_oneFault (hv : lay.Valid) (h : Pt) (j : Nat) (q : Pt) (P : Pauli) (k : Int) :
    lay.ringZ (oneFault j q P) h k = if (j : Int) ≤ k ∧ q ∈ lay.qubits_around_hex h then anti P (Basis.ofIdx k).pauli else 0 := by
  rw [ringZ]
  by_cases hk : k < 0
  · rw [if_pos hk, if_neg (by omega)]
  · rw [if_neg hk, hexSum_oneFault hv]
    have : j ≤ k.toNat ↔ (j : Int) ≤ k := by omega
    simp only [this]

theorem compZ_before (hv : lay.Valid) {h : Pt} {j : Nat} {q : Pt} {P : Pauli} {k : Int} (hk : k < j) : lay.compZ (oneFault j q P) h k = 0 := by
  rw [compZ, ringZ_oneFault hv, if_neg (by omega), ringZ_oneFault hv, if_neg (by omega), add_zero]

theorem compZ_away (hv : lay.Valid) {h : Pt} {j : Nat} {q : Pt} {P : Pauli} (hq : q ∉ lay.qubits_around_hex h) (k : Int) :
    lay.compZ (oneFault j q P) h k = 0 := by
  rw [compZ, ringZ_oneFault hv, if_neg (by tauto), ringZ_oneFault hv, if_neg (by tauto), add_zero]

theorem compZ_after (hv : lay.Valid) {h : Pt} {j : Nat} {q : Pt} {P : Pauli} {k : Int} (hk : j < k) (hq : q ∈ lay.qubits_around_hex h)
    (hc : k % 3 = (hexColour h + 2) % 3) : lay.compZ (oneFault j q P) h k = anti P (Basis.ofIdx (hexColour h)).pauli := by
  rw [compZ, ringZ_oneFault hv, if_pos ⟨by omega, hq⟩, ringZ_oneFault hv, if_pos ⟨by omega, hq⟩, ← anti_add_right, add_comm,
    ← pauli_mul_next (hexColour h), ofIdx_congr (k := hexColour h + 2) (k' := k) hc.symm, ofIdx_congr (k := hexColour h + 1) (k' := k - 1) (by omega)]

theorem face_at (hv : lay.Valid) {q : Pt} (hq : q ∈ lay.data_qubit_coords) (c : Int) :
    ∃ h, HexT lay.tile_width lay.tile_height h ∧ hexColour h = c % 3 ∧ q ∈ lay.qubits_around_hex h := by
  obtain ⟨h, hx, hc, hd⟩ := face_exists (Valid.tw_pos hv) (Valid.th_pos hv) ((mem_data_qubit_coords hv).1 hq) c
  exact ⟨h, hx, hc, mem_qubits_around_hex.2 hd⟩

open Classical in
/-- The face of colour `c` at a data qubit. -/
noncomputable def faceAt (lay : HoneycombLayout) (q : Pt) (c : Int) : Pt :=
  if h : ∃ h, HexT lay.tile_width lay.tile_height h ∧ hexColour h = c % 3 ∧ q ∈ lay.qubits_around_hex h then h.choose else q

theorem faceAt_spec (hv : lay.Valid) {q : Pt} (hq : q ∈ lay.data_qubit_coords) (c : Int) :
    HexT lay.tile_width lay.tile_height (lay.faceAt q c) ∧ hexColour (lay.faceAt q c) = c % 3 ∧ q ∈ lay.qubits_around_hex (lay.faceAt q c) := by
  rw [faceAt, dif_pos (face_at hv hq c)]
  exact (face_at hv hq c).choose_spec

theorem faceAt_eq (hv : lay.Valid) {q : Pt} {h : Pt} (hx : HexT lay.tile_width lay.tile_height h) (hq : q ∈ lay.qubits_around_hex h)
    {c : Int} (hc : hexColour h = c % 3) : lay.faceAt q c = h := by
  obtain ⟨h1, h2, h3⟩ := faceAt_spec hv (qubits_around_hex_data hv hx hq) c
  exact face_unique h1 hx (h2.trans hc.symm) (mem_qubits_around_hex.1 h3) (mem_qubits_around_hex.1 hq)

open Classical in
/-- The edge of sub-round `k` at a data qubit. -/
noncomputable def dataEdge (lay : HoneycombLayout) (q : Pt) (k : Int) : Edge :=
  if h : ∃ e ∈ lay.round_edges k, q = e.left ∨ q = e.right then h.choose else ⟨q, q, q⟩

theorem dataEdge_eq (hv : lay.Valid) {q : Pt} {k : Int} {e : Edge} (he : e ∈ lay.round_edges k) (hq : q = e.left ∨ q = e.right) :
    lay.dataEdge q k = e := by
  have h : ∃ e ∈ lay.round_edges k, q = e.left ∨ q = e.right := ⟨e, he, hq⟩
  rw [dataEdge, dif_pos h]
  exact edge_unique hv h.choose_spec.1 he h.choose_spec.2 hq

/-- The detectors, by layer and place, that a fault on `q` before sub-round `j` can fire: the faces at `q` read in the sub-rounds `j` to `j + 3`. -/
noncomputable def faultHits (lay : HoneycombLayout) (N j : Nat) (q : Pt) : List (Nat × Pt) :=
  if j = N then [(N, (lay.dataEdge q ((N : Int) - 1)).center), (N, lay.faceAt q ((N : Int) - 2)), (N, lay.faceAt q ((N : Int) - 1)), (N, lay.faceAt q N)]
  else if j = 0 ∧ lay.obs = "H" then
    [(0, (lay.dataEdge q 0).center), (min 1 N, lay.faceAt q (-1)), (min 2 N, lay.faceAt q 0), (min 3 N, lay.faceAt q 1)]
  else [(min j N, lay.faceAt q ((j : Int) - 2)), (min (j + 1) N, lay.faceAt q ((j : Int) - 1)), (min (j + 2) N, lay.faceAt q j),
    (min (j + 3) N, lay.faceAt q ((j : Int) + 1))]

theorem faultHits_length (N j : Nat) (q : Pt) : (lay.faultHits N j q).length = 4 := by
  rw [faultHits]; split_ifs <;> rfl

/-- A face reading in layer `k` is among the hits. -/
theorem face_hit (hv : lay.Valid) {j : Nat} {q h : Pt} (hx : HexT lay.tile_width lay.tile_height h) (hq : q ∈ lay.qubits_around_hex h)
    {k : Nat} (hc : (k : Int) % 3 = (hexColour h + 2) % 3) (h1 : j ≤ k) (h2 : k ≤ j + 3) (hH : k = 0 → lay.obs ≠ "H") (hjN : j ≤ N) :
    (min k N, h) ∈ lay.faultHits N j q := by
  have hr := hexColour_range h
  have key : ∀ c : Int, (c : Int) % 3 = hexColour h → lay.faceAt q c = h := fun c hc => faceAt_eq hv hx hq hc.symm
  have hd : k = j ∨ k = j + 1 ∨ k = j + 2 ∨ k = j + 3 := by omega
  rw [faultHits]
  split_ifs with hN h0
  · have hkN : min k N = N := by omega
    rw [hkN]
    subst hN
    have : (hexColour h = ((j : Int) - 2) % 3) ∨ (hexColour h = ((j : Int) - 1) % 3) ∨ hexColour h = (j : Int) % 3 := by omega
    rcases this with h | h | h
    · rw [key ((j : Int) - 2) h.symm]; simp
    · rw [key ((j : Int) - 1) h.symm]; simp
    · rw [key (j : Int) h.symm]; simp
  · obtain ⟨rfl, hH'⟩ := h0
    rcases hd with rfl | rfl | rfl | rfl
    · exact absurd hH' (hH rfl)
    · rw [key (-1) (by push_cast at hc; omega)]; simp
    · rw [key 0 (by push_cast at hc; omega)]; simp
    · rw [key 1 (by push_cast at hc; omega)]; simp
  · rcases hd with rfl | rfl | rfl | rfl
    · rw [key ((k : Int) - 2) (by omega)]; simp
    · rw [key ((j : Int) - 1) (by push_cast at hc; omega)]; simp
    · rw [key (j : Int) (by push_cast at hc; omega)]; simp
    · rw [key ((j : Int) + 1) (by push_cast at hc; omega)]; simp

/-- Which faults of one kind change a detector. Among the faults on `q` before sub-round `j`, the Pauli measured in that sub-round does not change the
faces of colour `j`; before the first sub-round, and after the last, the other elementary fault changes at most two detectors. -/
structure Pairs (lay : HoneycombLayout) (N : Nat) (key : Nat × Pt) (φ : (Nat → PauliOp) → ZMod 2) : Prop where
  own : ∀ (j : Nat) q, j < N → φ (oneFault j q (Basis.ofIdx j).pauli) ≠ 0 → key.2 ≠ lay.faceAt q j
  first : lay.obs ≠ "V" → ∀ q, φ (oneFault 0 q (Basis.ofIdx (-1)).pauli) ≠ 0 → key ∈ [(0, (lay.dataEdge q 0).center), (min 2 N, lay.faceAt q 0)]
  last : ∀ q, φ (oneFault N q (Basis.ofIdx N).pauli) ≠ 0 → key ∈ [(N, (lay.dataEdge q ((N : Int) - 1)).center), (N, lay.faceAt q ((N : Int) - 1))]

theorem anti_same (b : Basis) : anti b.pauli b.pauli = 0 := by cases b <;> decide

theorem ofIdx_inj {k k' : Int} (h : Basis.ofIdx k = Basis.ofIdx k') : k % 3 = k' % 3 := by
  have h3 : k % 3 = 0 ∨ k % 3 = 1 ∨ k % 3 = 2 := by omega
  have h4 : k' % 3 = 0 ∨ k' % 3 = 1 ∨ k' % 3 = 2 := by omega
  rw [← ofIdx_emod k, ← ofIdx_emod k'] at h
  rcases h3 with h3 | h3 | h3 <;> rcases h4 with h4 | h4 | h4 <;> rw [h3, h4] at h ⊢ <;> first | rfl | exact absurd h (by decide)

/-- A face of colour `j` is not changed by the Pauli of sub-round `j`. -/
theorem compZ_own (hv : lay.Valid) {h q : Pt} {j : Nat} {P : Pauli} {k : Int} (hq : q ∈ lay.qubits_around_hex h) (hc : k % 3 = (hexColour h + 2) % 3)
    (hP : P = (Basis.ofIdx (hexColour h)).pauli) (hk : k ≠ j) : lay.compZ (oneFault j q P) h k = 0 := by
  rcases lt_or_gt_of_ne hk with h1 | h1
  · exact compZ_before hv h1
  · rw [compZ_after hv h1 hq hc, hP, anti_same]

/-- The value of a detector as a functional of the frames: it is additive, zero without faults, and a single fault changes only
the detectors among its hits. -/
structure Reads (lay : HoneycombLayout) (N : Nat) (key : Nat × Pt) (s : Finset Nat) (φ : (Nat → PauliOp) → ZMod 2) : Prop where
  val : ∀ F R, lay.Recorded N F R → Honeycomb.val R s = φ F
  add : ∀ F G, φ (fun k q => F k q + G k q) = φ F + φ G
  calm : ∀ F, lay.Calm N F → φ F = 0
  hits : ∀ j q P, φ (oneFault j q P) ≠ 0 → q ∈ lay.data_qubit_coords ∧ j ≤ N ∧ key ∈ lay.faultHits N j q
  pairs : lay.Pairs N key φ

theorem reads_first (hv : lay.Valid) (ho : lay.ObsOk) (h1 : 1 ≤ N) (hH : lay.obs = "H") {e : Edge} (he : e ∈ lay.round_edges 0) :
    lay.Reads N (0, e.center) (lay.vE 0 e) fun F => par (F 0) 0 e where
  val F R hr := hr.edge 0 h1 e he
  add F G := by simp only [par, anti_add_left]; ring
  calm F ht := by
    refine ht.edge_init ?_ e he
    rw [obsAt_zero_basis ho, if_neg (by rw [hH]; decide)]
  hits j q P hne := by
    have hj : j ≤ 0 := by
      by_contra hj
      refine hne ?_
      simp [par, oneFault, hj]
    have hq' : q = e.left ∨ q = e.right := by
      by_contra hq'
      push Not at hq'
      refine hne ?_
      simp [par, oneFault, hq'.1.symm, hq'.2.symm]
    have hd := edge_ends_data hv (round_edges_subset_all he)
    obtain rfl : j = 0 := by omega
    refine ⟨by rcases hq' with rfl | rfl; exacts [hd.1, hd.2], by omega, ?_⟩
    rw [faultHits, if_neg (by omega), if_pos ⟨rfl, hH⟩, dataEdge_eq hv he hq']
    simp
  pairs := by
    refine ⟨fun j q hj hne => absurd ?_ hne, fun _ q hne => ?_, fun q hne => absurd ?_ hne⟩
    · rcases Nat.eq_zero_or_pos j with rfl | h0
      · rw [par, oneFault, oneFault]
        split_ifs <;> first | exact anti_same _ | simp [anti_same]
      · simp [par, oneFault, show ¬ j ≤ 0 by omega]
    · have hq' : q = e.left ∨ q = e.right := by
        by_contra hq'
        push Not at hq'
        refine hne ?_
        simp [par, oneFault, hq'.1.symm, hq'.2.symm]
      rw [dataEdge_eq hv he hq']
      simp
    · simp [par, oneFault, show ¬ N ≤ 0 by omega]

theorem reads_hex (hv : lay.Valid) (ho : lay.ObsOk) {k : Nat} (hk : k < N) {h : Pt} (hh : h ∈ lay.round_hex_centers (((k : Int) - 2) % 3))
    (hkn : lay.faceKnown k (((k : Int) - 2) % 3) = true) :
    lay.Reads N (k, h) (symmDiff (lay.rF h k) (lay.rF h (k - 3))) fun F => lay.compZ F h k + lay.compZ F h ((k : Int) - 3) := by
  obtain ⟨hx, hc⟩ := (mem_round_hex_centers hv).1 hh
  rw [← hc] at hkn
  have hcr := hexColour_range h
  have h0 : k = 0 → False := by
    rintro rfl
    rw [hc, faceKnown] at hkn
    split_ifs at hkn <;> simp at hkn
  have hits : ∀ (j : Nat) q P, lay.compZ (oneFault j q P) h k + lay.compZ (oneFault j q P) h ((k : Int) - 3) ≠ 0 → q ∈ lay.qubits_around_hex h ∧ j ≤ k ∧ k ≤ j + 3 ∧ q ∈ lay.data_qubit_coords ∧ j ≤ N ∧ (k, h) ∈ lay.faultHits N j q := by
    intro j q P hne
    have hqh : q ∈ lay.qubits_around_hex h := by
      by_contra hqh
      exact hne (by simp only [compZ_away hv hqh, add_zero])
    have hj : j ≤ k := by
      by_contra hj
      exact hne (by simp only [compZ_before hv (show (k : Int) < j by omega), compZ_before hv (show (k : Int) - 3 < j by omega), add_zero])
    have hj3 : k ≤ j + 3 := by
      by_contra hj3
      refine hne ?_
      simp only [compZ_after hv (show (j : Int) < k by omega) hqh (show (k : Int) % 3 = (hexColour h + 2) % 3 by omega),
        compZ_after hv (show (j : Int) < (k : Int) - 3 by omega) hqh (show ((k : Int) - 3) % 3 = (hexColour h + 2) % 3 by omega)]
      exact zmod2_add_self _
    have := face_hit (N := N) hv hx hqh (k := k) (j := j) (by omega) hj hj3 (fun h => (h0 h).elim) (by omega)
    rw [Nat.min_eq_left (by omega)] at this
    exact ⟨hqh, hj, hj3, qubits_around_hex_data hv hx hqh, by omega, this⟩
  refine ⟨fun F R hr => ?_, fun F G => ?_, fun F ht => ?_, fun j q P hne => (hits j q P hne).2.2.2, fun j q hj hne hk => ?_, fun hH q hne => ?_, fun q hne => ?_⟩
  · rw [val_symmDiff, val_rF hr hv hx (by omega) (by omega), val_rF hr hv hx (by omega) (by omega)]
  · simp only [compZ_add]; ring
  · rw [ht.known hv ho hx hkn (by omega) (le_refl _) (by omega) (by omega) (by omega),
      ht.compZ hv hx (by omega) (by omega) (by omega) (fun h => (h0 (by omega)).elim)]
    exact zmod2_add_self _
  · obtain ⟨hqh, -, -, hqd, -⟩ := hits j q _ hne
    obtain ⟨-, h2, -⟩ := faceAt_spec hv hqd (j : Int)
    simp only at hk
    rw [← hk] at h2
    refine hne ?_
    have hP : (Basis.ofIdx (j : Int)).pauli = (Basis.ofIdx (hexColour h)).pauli := congrArg Basis.pauli (ofIdx_congr (by omega))
    simp only [compZ_own hv (j := j) (k := k) hqh (by omega) hP (by omega), compZ_own hv (j := j) (k := (k : Int) - 3) hqh (by omega) hP (by omega),
      add_zero]
  · obtain ⟨hqh, -, hk3, -⟩ := hits 0 q _ hne
    rw [faceKnown, if_neg hH] at hkn
    simp only [decide_eq_true_eq] at hkn
    have hk2 : k = 2 := by omega
    rw [faceAt_eq hv hx hqh (c := 0) (by omega), hk2, Nat.min_eq_left (by omega)]
    simp
  · have := (hits N q _ hne).2.1
    omega

theorem reads_edge (hv : lay.Valid) (h1 : 1 ≤ N) (hB : (lay.obsAt N).1 = Basis.ofIdx ((N : Int) - 1)) {e : Edge}
    (he : e ∈ lay.round_edges ((N : Int) - 1)) :
    lay.Reads N (N, e.center) (symmDiff (symmDiff {lay.dTime N e.left} {lay.dTime N e.right}) (lay.vE (N - 1) e))
      fun F => par (F N) ((N : Int) - 1) e + par (F (N - 1)) ((N : Int) - 1) e := by
  have hd := edge_ends_data hv (round_edges_subset_all he)
  have he' : e ∈ lay.round_edges ((N - 1 : Nat) : Int) := by rw [Nat.cast_sub h1]; exact he
  have hc : ((N - 1 : Nat) : Int) = (N : Int) - 1 := by omega
  have hits : ∀ (j : Nat) q P, par (oneFault j q P N) ((N : Int) - 1) e + par (oneFault j q P (N - 1)) ((N : Int) - 1) e ≠ 0 → j = N ∧ (q = e.left ∨ q = e.right) ∧ q ∈ lay.data_qubit_coords ∧ j ≤ N ∧ (N, e.center) ∈ lay.faultHits N j q := by
    intro j q P hne
    have hq' : q = e.left ∨ q = e.right := by
      by_contra hq'
      push Not at hq'
      refine hne ?_
      simp [par, oneFault, hq'.1.symm, hq'.2.symm]
    have hj : j ≤ N := by
      by_contra hj
      refine hne ?_
      simp [par, oneFault, hj, show ¬ j ≤ N - 1 by omega]
    have hj' : j = N := by
      by_contra hj'
      refine hne ?_
      simp only [par, oneFault, hj, show j ≤ N - 1 by omega, true_and]
      exact zmod2_add_self _
    refine ⟨hj', hq', by rcases hq' with rfl | rfl; exacts [hd.1, hd.2], hj, ?_⟩
    rw [faultHits, if_pos hj', dataEdge_eq hv he hq']
    simp
  refine ⟨fun F R hr => ?_, fun F G => ?_, fun F ht => ?_, fun j q P hne => (hits j q P hne).2.2, fun j q hj hne hk => ?_, fun hH q hne => ?_, fun q hne => ?_⟩
  · rw [val_symmDiff, val_symmDiff, val_singleton, val_singleton, hr.data _ hd.1, hr.data _ hd.2, hB, hr.edge (N - 1) (by omega) e he', hc, par, par]
  · simp only [par, anti_add_left]; ring
  · obtain ⟨r, e1, e2⟩ := ht.step (N - 1) (by omega) e he'
    rw [Nat.sub_add_cancel h1, hc] at e1 e2
    rw [par, par, e1, e2, kick_pair]
    exact zmod2_add_self _
  · have := (hits j q _ hne).1
    omega
  · have := (hits 0 q _ hne).1
    omega
  · rw [dataEdge_eq hv he (hits N q _ hne).2.1]
    simp

theorem reads_half (hv : lay.Valid) (ho : lay.ObsOk) (h1 : 1 ≤ N) (hB : (lay.obsAt N).1 = Basis.ofIdx (N : Int)) {h : Pt}
    (hh : h ∈ lay.round_hex_centers (((N : Int) - 2) % 3)) (hkn : lay.faceKnown N (((N : Int) - 2) % 3) = true) :
    lay.Reads N (N, h) (symmDiff (symmDiff (lay.dHex N h) (lay.rV (lay.first_edges_around_hex h) ((N : Int) - 1))) (lay.rF h ((N : Int) - 3)))
      fun F => lay.hexSum h (F N) (Basis.ofIdx (N : Int)).pauli + lay.ringZ F h ((N : Int) - 1) + lay.compZ F h ((N : Int) - 3) := by
  obtain ⟨hx, hc⟩ := (mem_round_hex_centers hv).1 hh
  rw [← hc] at hkn
  have hcr := hexColour_range h
  have hB2 : Basis.ofIdx (hexColour h + 2) = Basis.ofIdx (N : Int) := ofIdx_congr (by omega)
  have hB1 : Basis.ofIdx (hexColour h + 1) = Basis.ofIdx ((N : Int) - 1) := ofIdx_congr (by omega)
  have hits : ∀ (j : Nat) q P, lay.hexSum h (oneFault j q P N) (Basis.ofIdx (N : Int)).pauli + lay.ringZ (oneFault j q P) h ((N : Int) - 1) + lay.compZ (oneFault j q P) h ((N : Int) - 3) ≠ 0 → q ∈ lay.qubits_around_hex h ∧ N ≤ j + 3 ∧ q ∈ lay.data_qubit_coords ∧ j ≤ N ∧ (N, h) ∈ lay.faultHits N j q := by
    intro j q P hne
    simp only [hexSum_oneFault hv, ringZ_oneFault hv] at hne
    have hqh : q ∈ lay.qubits_around_hex h := by
      by_contra hqh
      refine hne ?_
      rw [compZ_away hv hqh, if_neg (by tauto), if_neg (by tauto), add_zero, add_zero]
    have hj : j ≤ N := by
      by_contra hj
      refine hne ?_
      rw [compZ_before hv (show (N : Int) - 3 < j by omega), if_neg (by omega), if_neg (by omega), add_zero, add_zero]
    have hj3 : N ≤ j + 3 := by
      by_contra hj3
      refine hne ?_
      rw [compZ_after hv (show (j : Int) < (N : Int) - 3 by omega) hqh (by omega), if_pos ⟨hj, hqh⟩, if_pos ⟨by omega, hqh⟩,
        ← anti_add_right, ← pauli_mul_next (hexColour h), hB1, hB2, add_comm (Basis.ofIdx (N : Int)).pauli]
      exact zmod2_add_self _
    have := face_hit (N := N) hv hx hqh (k := N) (j := j) (by omega) hj hj3 (fun h => by omega) (by omega)
    rw [Nat.min_self] at this
    exact ⟨hqh, hj3, qubits_around_hex_data hv hx hqh, by omega, this⟩
  refine ⟨fun F R hr => ?_, fun F G => ?_, fun F ht => ?_, fun j q P hne => (hits j q P hne).2.2, fun j q hj hne hk => ?_, fun hH q hne => ?_, fun q hne => ?_⟩
  · rw [val_symmDiff, val_symmDiff, val_rF hr hv hx (by omega) (by omega), val_rV_first hr hv hx (by omega) (by omega),
      val_dHex hr hv hx _ rfl, hB]
  · simp only [compZ_add, ringZ_add, hexSum_frames]; ring
  · have e1 := ht.hex_first hv hx (k := N - 1) (by omega) (by omega) (Basis.ofIdx (N : Int)).pauli
    rw [Nat.sub_add_cancel h1] at e1
    have e2 := ht.hex_const hv hx (k := N - 1) (by omega)
    rw [ht.known hv ho hx hkn (by omega) (le_refl _) (by omega) (by omega) (by omega), ← e2, e1, ringZ, if_neg (by omega),
      show ((N : Int) - 1).toNat = N - 1 by omega, ← pauli_mul_next (hexColour h), hexSum_add, hB1, hB2,
      add_comm (lay.hexSum h (F (N - 1)) (Basis.ofIdx (N : Int)).pauli)]
    exact zmod2_add_self _
  · obtain ⟨hqh, -, hqd, -⟩ := hits j q _ hne
    obtain ⟨-, h2, -⟩ := faceAt_spec hv hqd (j : Int)
    simp only at hk
    rw [← hk] at h2
    refine hne ?_
    simp only [hexSum_oneFault hv, ringZ_oneFault hv]
    rw [compZ_own hv (j := j) (k := (N : Int) - 3) hqh (by omega) (congrArg Basis.pauli (ofIdx_congr (by omega))) (by omega), if_pos ⟨by omega, hqh⟩,
      if_pos ⟨by omega, hqh⟩, ← anti_add_right, add_zero, ← hB1, ← hB2, add_comm (Basis.ofIdx (hexColour h + 2)).pauli, pauli_mul_next,
      ofIdx_congr (k := (j : Int)) (k' := hexColour h) (by omega), anti_same]
  · obtain ⟨hqh, hk3, -⟩ := hits 0 q _ hne
    rw [faceKnown, if_neg hH] at hkn
    simp only [decide_eq_true_eq] at hkn
    have hk2 : N = 2 := by omega
    rw [faceAt_eq hv hx hqh (c := 0) (by omega), hk2]
    simp
  · refine absurd ?_ hne
    simp only [hexSum_oneFault hv, ringZ_oneFault hv]
    rw [compZ_before hv (by omega), anti_same, if_neg (c := (N : Int) ≤ (N : Int) - 1 ∧ _) (by omega), ite_self, add_zero, add_zero]

theorem reads_last (hv : lay.Valid) (ho : lay.ObsOk) (h1 : 1 ≤ N) {h : Pt} (hx : HexT lay.tile_width lay.tile_height h)
    (hB : (lay.obsAt N).1 = Basis.ofIdx (hexColour h)) {i : Int} (hi : i < N) (hi3 : (N : Int) - 3 ≤ i) (hc : i % 3 = (hexColour h + 2) % 3)
    (hkn : lay.faceKnown N (hexColour h) = true) :
    lay.Reads N (N, h) (symmDiff (lay.dHex N h) (lay.rF h i))
      fun F => lay.hexSum h (F N) (Basis.ofIdx (hexColour h)).pauli + lay.compZ F h i := by
  have hcr := hexColour_range h
  have hits : ∀ (j : Nat) q P, lay.hexSum h (oneFault j q P N) (Basis.ofIdx (hexColour h)).pauli + lay.compZ (oneFault j q P) h i ≠ 0 → q ∈ lay.qubits_around_hex h ∧ i ≤ j ∧ q ∈ lay.data_qubit_coords ∧ j ≤ N ∧ (N, h) ∈ lay.faultHits N j q := by
    intro j q P hne
    simp only [hexSum_oneFault hv] at hne
    have hqh : q ∈ lay.qubits_around_hex h := by
      by_contra hqh
      refine hne ?_
      rw [compZ_away hv hqh, if_neg (by tauto), add_zero]
    have hj : j ≤ N := by
      by_contra hj
      refine hne ?_
      rw [compZ_before hv (show i < j by omega), if_neg (by omega), add_zero]
    have hj3 : i ≤ j := by
      by_contra hj3
      refine hne ?_
      rw [compZ_after hv (show (j : Int) < i by omega) hqh hc, if_pos ⟨hj, hqh⟩]
      exact zmod2_add_self _
    have := face_hit (N := N) hv hx hqh (k := (i + 3).toNat) (j := j) (by omega) (by omega) (by omega) (fun h => by omega) (by omega)
    rw [Nat.min_eq_right (by omega)] at this
    exact ⟨hqh, hj3, qubits_around_hex_data hv hx hqh, by omega, this⟩
  refine ⟨fun F R hr => ?_, fun F G => ?_, fun F ht => ?_, fun j q P hne => (hits j q P hne).2.2, fun j q hj hne hk => ?_, fun hH q hne => ?_, fun q hne => ?_⟩
  · rw [val_symmDiff, val_rF hr hv hx hi hc, val_dHex hr hv hx _ rfl, hB]
  · simp only [compZ_add, hexSum_frames]; ring
  · rw [ht.known hv ho hx hkn hi hi3 hi (by omega) hc, ht.hex_const hv hx (le_refl _)]
    exact zmod2_add_self _
  · obtain ⟨hqh, -, hqd, -⟩ := hits j q _ hne
    obtain ⟨-, h2, -⟩ := faceAt_spec hv hqd (j : Int)
    simp only at hk
    rw [← hk] at h2
    refine hne ?_
    simp only [hexSum_oneFault hv]
    rw [compZ_own hv (j := j) hqh hc (congrArg Basis.pauli (ofIdx_congr (by omega))) (by omega),
      ofIdx_congr (k := (j : Int)) (k' := hexColour h) (by omega), anti_same, ite_self, add_zero]
  · obtain ⟨hqh, hk3, -⟩ := hits 0 q _ hne
    rw [faceKnown, if_neg hH] at hkn
    simp only [decide_eq_true_eq] at hkn
    rw [faceAt_eq hv hx hqh (c := 0) (by omega), Nat.min_eq_right (by omega)]
    simp
  · obtain ⟨hqh, -⟩ := hits N q _ hne
    simp only [hexSum_oneFault hv] at hne
    have hcN : hexColour h ≠ (N : Int) % 3 := by
      intro hcN
      rw [compZ_before hv (by omega), ofIdx_congr (k := (N : Int)) (k' := hexColour h) (by omega), anti_same, ite_self, add_zero] at hne
      exact hne rfl
    have hB' := Honeycomb.obsAt_basis ho N
    have : hexColour h % 3 = ((N : Int) - 1) % 3 := by
      split_ifs at hB' with hs
      · exact ofIdx_inj (hB.symm.trans hB')
      · exact absurd (ofIdx_inj (hB.symm.trans hB')) (by omega)
    rw [faceAt_eq hv hx hqh (c := (N : Int) - 1) (by omega)]
    simp

/-- Every detector of the closed circuit reads the frames. -/
theorem allDets_reads (hv : lay.Valid) (ho : lay.ObsOk) (h1 : 1 ≤ N) {x : Nat × Pt × Finset Nat} (hx : x ∈ allDets lay N) :
    ∃ φ, lay.Reads N (x.1, x.2.1) x.2.2 φ := by
  rw [allDets, List.mem_append] at hx
  rcases hx with hx | hx
  · obtain ⟨k, hk, hx⟩ := List.mem_flatMap.1 hx
    obtain ⟨y, hy, rfl⟩ := List.mem_map.1 hx
    have hk := List.mem_range.1 hk
    rw [annDets, List.mem_append] at hy
    rcases hy with hy | hy
    · split_ifs at hy with h0
      · obtain ⟨e, he, rfl⟩ := List.mem_map.1 hy
        obtain ⟨rfl, hH⟩ := h0
        exact ⟨_, reads_first hv ho h1 hH he⟩
      · simp at hy
    · split_ifs at hy with h0
      · obtain ⟨h, hh, rfl⟩ := List.mem_map.1 hy
        exact ⟨_, reads_hex hv ho hk hh h0⟩
      · simp at hy
  · obtain ⟨y, hy, rfl⟩ := List.mem_map.1 hx
    have hB := Honeycomb.obsAt_basis ho N
    rw [finDets] at hy
    split_ifs at hy with hs h2 h2 h3
    all_goals first | rw [if_pos hs] at hB | rw [if_neg hs] at hB
    all_goals simp only [List.append_nil, List.nil_append, List.mem_append, List.not_mem_nil, List.mem_map] at hy
    · rcases hy with ⟨e, he, rfl⟩ | ⟨h, hh, rfl⟩
      · exact ⟨_, reads_edge hv h1 hB he⟩
      · obtain ⟨hx, hc⟩ := (mem_round_hex_centers hv).1 hh
        exact ⟨_, reads_last hv ho h1 hx (by rw [hB]; exact ofIdx_congr (by omega)) (by omega) (by omega) (by omega) (by rw [hc]; exact h2)⟩
    · obtain ⟨e, he, rfl⟩ := hy
      exact ⟨_, reads_edge hv h1 hB he⟩
    · rcases hy with ⟨h, hh, rfl⟩ | ⟨h, hh, rfl⟩
      · exact ⟨_, reads_half hv ho h1 hB hh h2⟩
      · obtain ⟨hx, hc⟩ := (mem_round_hex_centers hv).1 hh
        exact ⟨_, reads_last hv ho h1 hx (by rw [hB]; exact ofIdx_congr (by omega)) (by omega) (by omega) (by omega) (by rw [hc]; exact h3)⟩
    · obtain ⟨h, hh, rfl⟩ := hy
      exact ⟨_, reads_half hv ho h1 hB hh h2⟩
    · obtain ⟨h, hh, rfl⟩ := hy
      obtain ⟨hx, hc⟩ := (mem_round_hex_centers hv).1 hh
      exact ⟨_, reads_last hv ho h1 hx (by rw [hB]; exact ofIdx_congr (by omega)) (by omega) (by omega) (by omega) (by rw [hc]; assumption)⟩

/-! ### Several faults -/

theorem located_nil_calm (hv : lay.Valid) {E : Nat → PauliOp} (ht : lay.FaultyTrajectory N E F) (hl : lay.Located E []) : lay.Calm N F := by
  have hE : ∀ k, ∀ q ∈ lay.data_qubit_coords, E k q = 0 := fun k q hq => by
    by_contra hne
    exact absurd (hl k q hq hne) (by simp)
  refine Trajectory.calm ⟨fun q hq => ?_, fun k hk e he => ?_⟩ hv
  · obtain ⟨r, h⟩ := ht.init q hq
    exact ⟨r, by rw [h, hE 0 q hq, add_zero]⟩
  · obtain ⟨r, h1, h2⟩ := ht.step k hk e he
    have hd := edge_ends_data hv (round_edges_subset_all he)
    exact ⟨r, by rw [h1, hE _ _ hd.1, add_zero], by rw [h2, hE _ _ hd.2, add_zero]⟩

/-- Removing one fault. -/
theorem FaultyTrajectory.remove {E : Nat → PauliOp} (ht : lay.FaultyTrajectory N E F) (j : Nat) (q : Pt) :
    lay.FaultyTrajectory N (fun k p => if k = j ∧ p = q then 0 else E k p) (fun k p => F k p + oneFault j q (E j q) k p) := by
  have self : ∀ a : Pauli, a + a = 0 := by decide
  have key : ∀ (k : Nat) (p : Pt), E (k + 1) p + oneFault j q (E j q) (k + 1) p =
      oneFault j q (E j q) k p + if k + 1 = j ∧ p = q then 0 else E (k + 1) p := by
    intro k p
    simp only [oneFault]
    by_cases hp : p = q
    · subst hp
      simp only [and_true]
      by_cases h1 : k + 1 = j
      · subst h1
        rw [if_pos (le_refl _), if_neg (by omega), if_pos rfl, self, add_zero]
      · rw [if_neg h1]
        by_cases h2 : j ≤ k
        · rw [if_pos (by omega), if_pos h2, add_comm]
        · rw [if_neg (by omega), if_neg h2, add_zero, zero_add]
    · simp [hp]
  refine ⟨fun p hp => ?_, fun k hk e he => ?_⟩
  · obtain ⟨r, h⟩ := ht.init p hp
    refine ⟨r, ?_⟩
    simp only [h, oneFault]
    by_cases hq : p = q
    · subst hq
      by_cases hj : j = 0
      · subst hj
        simp only [le_refl, and_self, if_true, add_assoc, self, add_zero]
      · rw [if_neg (by omega), if_neg (by omega), add_zero]
    · simp [hq]
  · obtain ⟨r, h1, h2⟩ := ht.step k hk e he
    refine ⟨r, ?_, ?_⟩
    · simp only [h1, add_assoc]
      rw [key k e.left]
      abel
    · simp only [h2, add_assoc]
      rw [key k e.right]
      abel

/-- The detectors that the faults at `locs` change are among the hits of these faults. -/
theorem faults_hits (hv : lay.Valid) {key : Nat × Pt} {s : Finset Nat} {φ : (Nat → PauliOp) → ZMod 2} (hφ : lay.Reads N key s φ) :
    ∀ (locs : List (Nat × Pt)) (E F : Nat → PauliOp), lay.FaultyTrajectory N E F → lay.Located E locs → φ F ≠ 0 →
      ∃ l ∈ locs, l.2 ∈ lay.data_qubit_coords ∧ l.1 ≤ N ∧ key ∈ lay.faultHits N l.1 l.2
  | [], E, F, ht, hl, hne => absurd (hφ.calm F (located_nil_calm hv ht hl)) hne
  | (j, q) :: locs, E, F, ht, hl, hne => by
    have self : ∀ a : Pauli, a + a = 0 := by decide
    have e : φ F = φ (fun k p => F k p + oneFault j q (E j q) k p) + φ (oneFault j q (E j q)) := by
      rw [← hφ.add]
      congr 1
      funext k p
      rw [add_assoc, self, add_zero]
    by_cases h1 : φ (oneFault j q (E j q)) = 0
    · rw [e, h1, add_zero] at hne
      obtain ⟨l, hm, h⟩ := faults_hits hv hφ locs _ _ (ht.remove j q) (fun k p hp hk => by
        by_cases hkp : k = j ∧ p = q
        · simp [hkp] at hk
        · rw [if_neg hkp] at hk
          rcases List.mem_cons.1 (hl k p hp hk) with h | h
          · obtain ⟨rfl, rfl⟩ := Prod.mk.inj h
            exact absurd ⟨rfl, rfl⟩ hkp
          · exact h) hne
      exact ⟨l, List.mem_cons_of_mem _ hm, h⟩
    · exact ⟨(j, q), by simp, hφ.hits j q _ h1⟩

/-- Where the hits of a fault are: layers `j` to `j + 3`, at faces or edges of the qubit. -/
theorem faultHits_place (hv : lay.Valid) {j : Nat} {q : Pt} (hq : q ∈ lay.data_qubit_coords) (hj : j ≤ N) {key : Nat × Pt}
    (hk : key ∈ lay.faultHits N j q) : j ≤ key.1 ∧ key.1 ≤ j + 3 ∧
      ((HexT lay.tile_width lay.tile_height key.2 ∧ q ∈ lay.qubits_around_hex key.2) ∨
        ∃ e ∈ lay.all_edges, (q = e.left ∨ q = e.right) ∧ key.2 = e.center) := by
  have face : ∀ c, HexT lay.tile_width lay.tile_height (lay.faceAt q c) ∧ q ∈ lay.qubits_around_hex (lay.faceAt q c) := fun c =>
    ⟨(faceAt_spec hv hq c).1, (faceAt_spec hv hq c).2.2⟩
  have edge : ∀ k, ∃ e ∈ lay.all_edges, (q = e.left ∨ q = e.right) ∧ (lay.dataEdge q k).center = e.center := fun k => by
    obtain ⟨e, he, ht⟩ := exists_edge hv hq k
    have ht : q = e.left ∨ q = e.right := ht.imp Eq.symm Eq.symm
    exact ⟨e, round_edges_subset_all he, ht, by rw [dataEdge_eq hv he ht]⟩
  rw [faultHits] at hk
  split_ifs at hk with h1 h2
  · simp only [List.mem_cons, List.not_mem_nil, or_false] at hk
    rcases hk with rfl | rfl | rfl | rfl
    · exact ⟨hj, by omega, Or.inr (edge _)⟩
    all_goals exact ⟨hj, by simp only; omega, Or.inl (face _)⟩
  · simp only [List.mem_cons, List.not_mem_nil, or_false] at hk
    rcases hk with rfl | rfl | rfl | rfl
    · exact ⟨by simp only; omega, by simp only; omega, Or.inr (edge _)⟩
    all_goals exact ⟨by simp only; omega, by simp only; omega, Or.inl (face _)⟩
  · simp only [List.mem_cons, List.not_mem_nil, or_false] at hk
    rcases hk with rfl | rfl | rfl | rfl
    all_goals exact ⟨by simp only; omega, by simp only; omega, Or.inl (face _)⟩

end HoneycombLayout
end Honeycomb
