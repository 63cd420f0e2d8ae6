import Verif.Lemmas.Snap
import Verif.Lemmas.ObsAlg

/-! The tracker's initial state and the final measurement, in closed form. -/

namespace Honeycomb
namespace HoneycombLayout
variable {lay : HoneycombLayout}

theorem mem_round_edges_iff_of (hv : lay.Valid) {r r' : Int} (h0 : 0 ≤ r) (h3 : r < 3) (h0' : 0 ≤ r') (h3' : r' < 3)
    {e : Edge} (he : e ∈ lay.round_edges r) : e ∈ lay.round_edges r' ↔ r' = r := by
  constructor
  · intro h; have := round_edges_disjoint hv h he; omega
  · rintro rfl; exact he

theorem mem_round_hex_iff_of (hv : lay.Valid) {r r' : Int}
    {h : Pt} (he : h ∈ lay.round_hex_centers r) : h ∈ lay.round_hex_centers r' ↔ r' = r := by
  constructor
  · intro h'; exact hex_colour hv h' he
  · rintro rfl; exact he

theorem mem_map_inj {α β : Type} {f : α → β} (hf : Function.Injective f) {l : List α} {a : α} :
    f a ∈ l.map f ↔ a ∈ l := by
  constructor
  · intro h; obtain ⟨b, hb, e⟩ := List.mem_map.1 h; rwa [hf e] at hb
  · exact fun h => List.mem_map.2 ⟨a, h, rfl⟩

theorem injE : Function.Injective Key.edge := fun _ _ h => Key.edge.inj h
theorem injHE : Function.Injective Key.halfEdge := fun _ _ h => Key.halfEdge.inj h
theorem injP : Function.Injective Key.pt := fun _ _ h => Key.pt.inj h
theorem injHP : Function.Injective Key.halfPt := fun _ _ h => Key.halfPt.inj h

theorem initDummies_edge (hv : lay.Valid) (b : Basis) (m : MT) (r : Int) (e : Edge) :
    (lay.initDummies b m r).history (.edge e) =
      if e ∈ lay.round_edges r then eInit b r :: m.history (.edge e) else m.history (.edge e) := by
  simp only [initDummies]
  rw [Tracker.addDummies_history _ ((nodup_round_hex_centers hv r).map injHP), if_neg (by simp),
    Tracker.addDummies_history _ ((nodup_round_hex_centers hv r).map injP), if_neg (by simp),
    Tracker.addDummies_history _ ((nodup_round_edges hv r).map injHE), if_neg (by simp),
    Tracker.addDummies_history _ ((nodup_round_edges hv r).map injE)]
  simp only [mem_map_inj injE, eInit, decide_eq_true_eq, ne_eq]

theorem initDummies_halfEdge (hv : lay.Valid) (b : Basis) (m : MT) (r : Int) (e : Edge) :
    (lay.initDummies b m r).history (.halfEdge e) =
      if e ∈ lay.round_edges r then some ∅ :: m.history (.halfEdge e) else m.history (.halfEdge e) := by
  simp only [initDummies]
  rw [Tracker.addDummies_history _ ((nodup_round_hex_centers hv r).map injHP), if_neg (by simp),
    Tracker.addDummies_history _ ((nodup_round_hex_centers hv r).map injP), if_neg (by simp),
    Tracker.addDummies_history _ ((nodup_round_edges hv r).map injHE),
    Tracker.addDummies_history _ ((nodup_round_edges hv r).map injE), if_neg (c := _ ∈ List.map Key.edge _) (by simp)]
  simp only [mem_map_inj injHE, Bool.false_eq_true, if_false]

theorem initDummies_pt (hv : lay.Valid) (b : Basis) (m : MT) (r : Int) (h : Pt) :
    (lay.initDummies b m r).history (.pt h) =
      if h ∈ lay.round_hex_centers r then eInit b r :: m.history (.pt h) else m.history (.pt h) := by
  simp only [initDummies]
  rw [Tracker.addDummies_history _ ((nodup_round_hex_centers hv r).map injHP), if_neg (by simp),
    Tracker.addDummies_history _ ((nodup_round_hex_centers hv r).map injP),
    Tracker.addDummies_history _ ((nodup_round_edges hv r).map injHE), if_neg (c := _ ∈ List.map Key.halfEdge _) (by simp),
    Tracker.addDummies_history _ ((nodup_round_edges hv r).map injE), if_neg (c := _ ∈ List.map Key.edge _) (by simp)]
  simp only [mem_map_inj injP, eInit, decide_eq_true_eq, ne_eq]

theorem initDummies_halfPt (hv : lay.Valid) (b : Basis) (m : MT) (r : Int) (h : Pt) :
    (lay.initDummies b m r).history (.halfPt h) =
      if h ∈ lay.round_hex_centers r then hInit b r :: m.history (.halfPt h) else m.history (.halfPt h) := by
  simp only [initDummies]
  rw [Tracker.addDummies_history _ ((nodup_round_hex_centers hv r).map injHP),
    Tracker.addDummies_history _ ((nodup_round_hex_centers hv r).map injP), if_neg (c := _ ∈ List.map Key.pt _) (by simp),
    Tracker.addDummies_history _ ((nodup_round_edges hv r).map injHE), if_neg (c := _ ∈ List.map Key.halfEdge _) (by simp),
    Tracker.addDummies_history _ ((nodup_round_edges hv r).map injE), if_neg (c := _ ∈ List.map Key.edge _) (by simp)]
  simp only [mem_map_inj injHP, hInit, decide_eq_true_eq, ne_eq]

theorem initDummies_t (b : Basis) (m : MT) (r : Int) : (lay.initDummies b m r).t = m.t := by
  simp only [initDummies, Tracker.addDummies_t]

/-- The initial state. -/
theorem init_ok (hv : lay.Valid) (ho : lay.ObsOk) :
    ∃ m, lay.faultTolerantInit Tracker.empty =
        .ok ([.on .R lay.used_qubit_indices, .tick] ++ lay.basisChange (lay.obsAt 0).1, m) ∧
      lay.Snap (lay.obsAt 0).1 0 m := by
  refine ⟨(pyRange 3).foldl (lay.initDummies (lay.obsAt 0).1) Tracker.empty, ?_, ?_⟩
  · simp only [faultTolerantInit, obs_before_ok ho, bind, Except.bind, pure, Except.pure]
  · have h3 : pyRange 3 = [0, 1, 2] := by decide
    rw [h3]
    simp only [List.foldl_cons, List.foldl_nil]
    refine ⟨?_, ?_, ?_, ?_, ?_⟩
    · simp [initDummies_t, Tracker.empty]
    · intro r hr0 hr3 e he
      simp only [initDummies_halfEdge hv, past, mem_round_edges_iff_of hv hr0 hr3 (r' := 0) (by omega) (by omega) he,
        mem_round_edges_iff_of hv hr0 hr3 (r' := 1) (by omega) (by omega) he,
        mem_round_edges_iff_of hv hr0 hr3 (r' := 2) (by omega) (by omega) he, Tracker.empty]
      have : r = 0 ∨ r = 1 ∨ r = 2 := by omega
      rcases this with rfl | rfl | rfl <;> simp
    · intro r hr0 hr3 e he
      simp only [initDummies_edge hv, past, mem_round_edges_iff_of hv hr0 hr3 (r' := 0) (by omega) (by omega) he,
        mem_round_edges_iff_of hv hr0 hr3 (r' := 1) (by omega) (by omega) he,
        mem_round_edges_iff_of hv hr0 hr3 (r' := 2) (by omega) (by omega) he, Tracker.empty]
      have : r = 0 ∨ r = 1 ∨ r = 2 := by omega
      rcases this with rfl | rfl | rfl <;> simp
    · intro r hr0 hr3 e he
      simp only [initDummies_halfPt hv, past, mem_round_hex_iff_of hv (r' := 0) he,
        mem_round_hex_iff_of hv (r' := 1) he,
        mem_round_hex_iff_of hv (r' := 2) he, Tracker.empty]
      have : r = 0 ∨ r = 1 ∨ r = 2 := by omega
      rcases this with rfl | rfl | rfl <;> simp
    · intro r hr0 hr3 e he
      simp only [initDummies_pt hv, past, mem_round_hex_iff_of hv (r' := 0) he,
        mem_round_hex_iff_of hv (r' := 1) he,
        mem_round_hex_iff_of hv (r' := 2) he, Tracker.empty]
      have : r = 0 ∨ r = 1 ∨ r = 2 := by omega
      rcases this with rfl | rfl | rfl <;> simp

variable (lay)

/-- The time of the final measurement of data qubit `q` after `k` sub-rounds. -/
def dTime (k : Nat) (q : Pt) : Nat := k * lay.perRound + lay.data_qubit_coords.idxOf q

/-- The latest entry of a key. -/
def topAt (v : Nat → Option (Finset Nat)) (init : Option (Finset Nat)) (c : Int) (k : Nat) : Option (Finset Nat) :=
  (past v init c k).headD none

theorem past_ne_nil (v init c k) : past v init c k ≠ [] := by
  induction k with
  | zero => simp [past]
  | succ k ih => rw [past]; split_ifs <;> simp [ih]

theorem past_head_topAt (v init c k) : (past v init c k).head? = some (topAt v init c k) := by
  rw [topAt]
  cases h : past v init c k with
  | nil => exact absurd h (past_ne_nil v init c k)
  | cons a l => rfl

theorem topAt_eq (v init) {c : Int} {k d : Nat} (h1 : 1 ≤ d) (h3 : d ≤ 3) (hc : ((k : Int) - d) % 3 = c) :
    topAt v init c k = if k < d then init else v (k - d) := by
  have := past_head v init h1 h3 hc
  rw [past_head_topAt] at this
  exact Option.some.inj this

theorem topAt_cases (v init) {c : Int} (hc0 : 0 ≤ c) (hc3 : c < 3) (k : Nat) :
    ∃ d : Nat, 1 ≤ d ∧ d ≤ 3 ∧ ((k : Int) - d) % 3 = c ∧ topAt v init c k = if k < d then init else v (k - d) := by
  have : ((k : Int) - (1 : Nat)) % 3 = c ∨ ((k : Int) - (2 : Nat)) % 3 = c ∨ ((k : Int) - (3 : Nat)) % 3 = c := by
    push_cast; omega
  rcases this with h | h | h
  · exact ⟨1, by omega, by omega, h, topAt_eq v init (by omega) (by omega) h⟩
  · exact ⟨2, by omega, by omega, h, topAt_eq v init (by omega) (by omega) h⟩
  · exact ⟨3, by omega, by omega, h, topAt_eq v init (by omega) (by omega) h⟩

/-- The latest parity of a hex of colour `r`. -/
def topHex (b : Basis) (r : Int) (k : Nat) (h : Pt) : Option (Finset Nat) :=
  topAt (fun j => lay.vHex b j h) (eInit b r) ((r + 2) % 3) k

/-- The latest half parity of a hex of colour `r`. -/
def topHalf (b : Basis) (r : Int) (k : Nat) (h : Pt) : Option (Finset Nat) :=
  topAt (fun j => lay.vHalf j h) (hInit b r) ((r + 1) % 3) k

/-- The latest parity of an edge of colour `r`. -/
def topEdge (b : Basis) (r : Int) (k : Nat) (e : Edge) : Option (Finset Nat) :=
  topAt (fun j => some (lay.vE j e)) (eInit b r) r k

/-- The final data measurements around a hex. -/
def dHex (k : Nat) (h : Pt) : Finset Nat := xorS ((lay.qubits_around_hex h).map fun q => {lay.dTime k q})

/-- The annotations after the final data measurement, `k` sub-rounds having been recorded. -/
def emitFinal (n : Int) (k : Nat) : List Instr :=
  let b := (lay.obsAt 0).1
  let B := (lay.obsAt n).1
  let t := k * lay.perRound + lay.data_qubit_coords.length
  (if Basis.ofIdx (n - 1) = B then
    (lay.round_edges B.index).flatMap fun e =>
      detI t (xorO (some (symmDiff {lay.dTime k e.left} {lay.dTime k e.right})) (lay.topEdge b B.index k e)) (coords3 e.center)
   else
    (lay.round_hex_centers (otherBasis (Basis.ofIdx (n - 1)) B).index).flatMap fun h =>
      detI t (xorO (xorO (some (lay.dHex k h)) (lay.topHalf b (otherBasis (Basis.ofIdx (n - 1)) B).index k h))
        (lay.topHex b (otherBasis (Basis.ofIdx (n - 1)) B).index k h)) (coords3 h)) ++
  ((lay.round_hex_centers B.index).flatMap fun h =>
    detI t (xorO (some (lay.dHex k h)) (lay.topHex b B.index k h)) (coords3 h)) ++
  [.observable (relTo t (xorS ((lay.obsAt n).2.map fun q => {lay.dTime k q}))) lay.obsI]

variable {lay}

theorem beforeO_topHex (hv : lay.Valid) (b : Basis) {r : Int} (_h0 : 0 ≤ r) (_h3 : r < 3) (k : Nat) {h : Pt}
    (hh : h ∈ lay.round_hex_centers r) : BeforeO (k * lay.perRound) (lay.topHex b r k h) := by
  obtain ⟨d, h1, hd3, hc, e⟩ := topAt_cases (fun j => lay.vHex b j h) (eInit b r) (c := (r + 2) % 3) (by omega) (by omega) k
  rw [topHex, e]
  split_ifs with hk
  · exact beforeO_eInit _ _ _
  · exact (beforeO_vHex hv b (k := k - d) (by omega) hh).mono (Nat.mul_le_mul_right _ (by omega))

theorem beforeO_topHalf (hv : lay.Valid) (b : Basis) {r : Int} (_h0 : 0 ≤ r) (_h3 : r < 3) (k : Nat) {h : Pt}
    (hh : h ∈ lay.round_hex_centers r) : BeforeO (k * lay.perRound) (lay.topHalf b r k h) := by
  obtain ⟨d, h1, hd3, hc, e⟩ := topAt_cases (fun j => lay.vHalf j h) (hInit b r) (c := (r + 1) % 3) (by omega) (by omega) k
  rw [topHalf, e]
  split_ifs with hk
  · exact beforeO_hInit _ _ _
  · exact (beforeO_vHalf hv (k := k - d) (by omega) hh).mono (Nat.mul_le_mul_right _ (by omega))

theorem beforeO_topEdge (hv : lay.Valid) (b : Basis) {r : Int} (h0 : 0 ≤ r) (h3 : r < 3) (k : Nat) {e : Edge}
    (he : e ∈ lay.round_edges r) : BeforeO (k * lay.perRound) (lay.topEdge b r k e) := by
  obtain ⟨d, h1, hd3, hc, eq⟩ := topAt_cases (fun j => some (lay.vE j e)) (eInit b r) (c := r) (by omega) (by omega) k
  rw [topEdge, eq]
  split_ifs with hk
  · exact beforeO_eInit _ _ _
  · refine (beforeO_vE hv (k := k - d) ?_).mono (Nat.mul_le_mul_right _ (by omega))
    rw [round_edges_congr lay (r' := r) (by omega)]; exact he

theorem hex_not_data (hv : lay.Valid) {r : Int} {h : Pt} (hh : h ∈ lay.round_hex_centers r) :
    h ∉ lay.data_qubit_coords := by
  intro hd
  have h1 := ((mem_round_hex_centers hv).1 hh).1
  have h2 := (mem_data_qubit_coords hv).1 hd
  simp only [HexT, DataT] at h1 h2
  omega

theorem index_range (b : Basis) : 0 ≤ b.index ∧ b.index < 3 := by cases b <;> decide

theorem otherBasis_ne (a b : Basis) (h : a ≠ b) : otherBasis a b ≠ a ∧ otherBasis a b ≠ b := by
  revert h; cases a <;> cases b <;> decide

theorem index_inj {a b : Basis} (h : a.index = b.index) : a = b := by
  revert h; cases a <;> cases b <;> decide

theorem obsAt_data {n : Int} {q : Pt} (hq : q ∈ (lay.obsAt n).2) : q ∈ lay.data_qubit_coords := by
  simp only [obsAt] at hq
  split_ifs at hq
  · exact obs_v_data hq
  · exact obs_h_data hq

/-- The final measurement. -/
theorem final_ok (hv : lay.Valid) (ho : lay.ObsOk) {k : Nat} {m : MT} (hs : lay.Snap (lay.obsAt 0).1 k m) :
    ∃ m', lay.faultTolerantMeasurement m =
      .ok (lay.basisChange (lay.obsAt lay.sub_rounds).1 ++ [.on .M lay.data_qubit_indices] ++
        lay.emitFinal lay.sub_rounds k, m') := by
  set b := (lay.obsAt 0).1 with hb
  obtain ⟨n, hn⟩ : ∃ n, n = lay.sub_rounds := ⟨_, rfl⟩
  rw [← hn]
  rcases hB : lay.obsAt n with ⟨B, Q⟩
  set D := lay.data_qubit_coords.length with hD
  set t := k * lay.perRound + D with ht
  set m1 := m.addMeasurements (lay.data_qubit_coords.map .pt) with hm1
  have t1 : m1.t = t := by rw [hm1, Tracker.addMeasurements_t, hs.t, List.length_map]
  have hd1 : ∀ q ∈ lay.data_qubit_coords, (m1.history (.pt q)).head? = some (some {lay.dTime k q}) := by
    intro q hq
    rw [hm1, Tracker.addMeasurements_mem _ ((nodup_data_qubit_coords lay).map injP) (List.mem_map.2 ⟨q, hq, rfl⟩),
      idxOf_map injP, hs.t]
    rfl
  have ho1 : ∀ key, (∀ q ∈ lay.data_qubit_coords, Key.pt q ≠ key) → m1.history key = m.history key := by
    intro key hk
    rw [hm1, Tracker.addMeasurements_not_mem]
    intro hc
    obtain ⟨e, he, rfl⟩ := List.mem_map.1 hc
    exact hk e he rfl
  have hle : k * lay.perRound ≤ t := by omega
  have hdT : ∀ q ∈ lay.data_qubit_coords, BeforeO t (some {lay.dTime k q}) := by
    intro q hq s hs x hx
    simp only [Option.mem_def, Option.some.injEq] at hs
    subst hs
    have := List.idxOf_lt_length_iff.2 hq
    rw [Finset.mem_singleton.1 hx, dTime, ht]; omega
  have hpt : ∀ r h, h ∈ lay.round_hex_centers r → ∀ q ∈ lay.data_qubit_coords, Key.pt q ≠ Key.pt h := by
    intro r h hh q hq he
    rw [Key.pt.inj he] at hq
    exact hex_not_data hv hh hq
  have hqd : ∀ r h, h ∈ lay.round_hex_centers r → ∀ q ∈ lay.qubits_around_hex h, q ∈ lay.data_qubit_coords := by
    intro r h hh q hq
    exact qubits_around_hex_data hv ((mem_round_hex_centers hv).1 hh).1 hq
  have hbd : ∀ r h, h ∈ lay.round_hex_centers r → BeforeO t (some (lay.dHex k h)) := by
    intro r h hh
    rw [dHex, ← xorL_some]
    apply beforeO_xorL
    intro o ho
    obtain ⟨q, hq, rfl⟩ := List.mem_map.1 ho
    exact hdT q (hqd r h hh q hq)
  have hk1 : ∀ r h, h ∈ lay.round_hex_centers r → m1.timeSet (lay.hexQubitKeys h) = .ok (some (lay.dHex k h)) := by
    intro r h hh
    have := Tracker.timeSet_plain (m := m1) (xs := lay.qubits_around_hex h) (g := Key.pt)
      (f := fun q => some {lay.dTime k q}) (fun q hq => hd1 q (hqd r h hh q hq))
    rwa [xorL_some] at this
  -- the first group of detectors
  have step1 : ∃ m2, (if Basis.ofIdx (n - 1) = B then
      addGroupsDetect m1 (fun e : Edge => [.plain (.pt e.left), .plain (.pt e.right)]) .edge
        (fun e => coords3 e.center) (lay.round_edges B.index)
    else
      addGroupsDetect m1 (fun h => lay.hexQubitKeys h ++ [.plain (.halfPt h)]) .pt coords3
        (lay.round_hex_centers (otherBasis (Basis.ofIdx (n - 1)) B).index)) =
      .ok ((if Basis.ofIdx (n - 1) = B then
    (lay.round_edges B.index).flatMap fun e =>
      detI t (xorO (some (symmDiff {lay.dTime k e.left} {lay.dTime k e.right})) (lay.topEdge b B.index k e)) (coords3 e.center)
   else
    (lay.round_hex_centers (otherBasis (Basis.ofIdx (n - 1)) B).index).flatMap fun h =>
      detI t (xorO (xorO (some (lay.dHex k h)) (lay.topHalf b (otherBasis (Basis.ofIdx (n - 1)) B).index k h))
        (lay.topHex b (otherBasis (Basis.ofIdx (n - 1)) B).index k h)) (coords3 h)), m2) ∧ m2.t = t ∧
      (∀ q ∈ lay.data_qubit_coords, m2.history (.pt q) = m1.history (.pt q)) ∧
      (∀ h ∈ lay.round_hex_centers B.index, m2.history (.pt h) = m1.history (.pt h)) := by
    by_cases hl : Basis.ofIdx (n - 1) = B
    · rw [if_pos hl, if_pos hl]
      obtain ⟨m2, h2, p2⟩ := addGroupsDetect_eq (m := m1) (keys := fun e : Edge => [.plain (.pt e.left), .plain (.pt e.right)])
        (gk := Key.edge) (crds := fun e => coords3 e.center)
        (v := fun e => some (symmDiff {lay.dTime k e.left} {lay.dTime k e.right}))
        (p := fun e => lay.topEdge b B.index k e) (xs := lay.round_edges B.index)
        ((nodup_round_edges hv _).map injE)
        (by
          intro e he
          have hd := edge_ends_data hv (round_edges_subset_all he)
          obtain ⟨x, hx, hx'⟩ := Tracker.timeSet_cons (ks := []) (Tracker.lookup_plain (hd1 _ hd.2)) rfl
          obtain ⟨y, hy, hy'⟩ := Tracker.timeSet_cons (Tracker.lookup_plain (hd1 _ hd.1)) (hx.trans hx')
          rw [hy, hy', xorO_empty]; rfl)
        (by
          intro e he
          rw [ho1 _ (by simp), hs.edge _ (index_range B).1 (index_range B).2 e he, past_head_topAt]; rfl)
        (by
          intro e he
          have hd := edge_ends_data hv (round_edges_subset_all he)
          rw [t1, ← xorO_some]
          exact beforeO_xorO (hdT _ hd.1) (hdT _ hd.2))
        (by
          intro e he
          rw [t1]
          exact (beforeO_topEdge hv b (index_range B).1 (index_range B).2 k he).mono hle)
        (by
          intro e he key hkey y hy
          simp only [List.mem_cons, List.not_mem_nil, or_false] at hkey
          rcases hkey with rfl | rfl <;> simp [TKey.base])
      rw [t1] at h2
      exact ⟨m2, h2, p2.t.trans t1, fun q _ => p2.other _ (by simp), fun h _ => p2.other _ (by simp)⟩
    · rw [if_neg hl, if_neg hl]
      set o := otherBasis (Basis.ofIdx (n - 1)) B with hob
      have hoB : o ≠ B := (otherBasis_ne _ _ hl).2
      obtain ⟨m2, h2, p2⟩ := addGroupsDetect_eq (m := m1) (keys := fun h => lay.hexQubitKeys h ++ [.plain (.halfPt h)])
        (gk := Key.pt) (crds := coords3)
        (v := fun h => xorO (some (lay.dHex k h)) (lay.topHalf b o.index k h))
        (p := fun h => lay.topHex b o.index k h) (xs := lay.round_hex_centers o.index)
        ((nodup_round_hex_centers hv _).map injP)
        (by
          intro h hh
          refine Tracker.timeSet_append (hk1 _ h hh) ?_
          have hp : (m1.history (.halfPt h)).head? = some (lay.topHalf b o.index k h) := by
            rw [ho1 _ (by simp), hs.halfPt _ (index_range o).1 (index_range o).2 h hh, past_head_topAt]; rfl
          obtain ⟨x, hx, hx'⟩ := Tracker.timeSet_cons (ks := []) (Tracker.lookup_plain hp) rfl
          rw [hx, hx', xorO_empty])
        (by
          intro h hh
          rw [ho1 _ (hpt _ h hh), hs.pt _ (index_range o).1 (index_range o).2 h hh, past_head_topAt]; rfl)
        (by
          intro h hh
          rw [t1]
          exact beforeO_xorO (hbd _ h hh) ((beforeO_topHalf hv b (index_range o).1 (index_range o).2 k hh).mono hle))
        (by
          intro h hh
          rw [t1]
          exact (beforeO_topHex hv b (index_range o).1 (index_range o).2 k hh).mono hle)
        (by
          intro h hh key hkey y hy
          simp only [hexQubitKeys, List.mem_append, List.mem_map, List.mem_singleton] at hkey
          rcases hkey with ⟨q, hq, rfl⟩ | rfl
          · exact Ne.symm (hpt _ y hy q (hqd _ h hh q hq))
          · simp [TKey.base])
      rw [t1] at h2
      refine ⟨m2, h2, p2.t.trans t1, fun q hq => p2.other _ (fun h hh => Ne.symm (hpt _ h hh q hq)),
        fun h hh => p2.other _ ?_⟩
      intro y hy he
      rw [Key.pt.inj he] at hy
      exact hoB (index_inj (hex_colour hv hy hh))
  obtain ⟨m2, h2, t2, hq2, hh2⟩ := step1
  obtain ⟨m3, h3, p3⟩ := addGroupsDetect_eq (m := m2) (keys := lay.hexQubitKeys)
    (gk := Key.pt) (crds := coords3)
    (v := fun h => some (lay.dHex k h))
    (p := fun h => lay.topHex b B.index k h) (xs := lay.round_hex_centers B.index)
    ((nodup_round_hex_centers hv _).map injP)
    (by
      intro h hh
      rw [← hk1 _ h hh]
      apply Tracker.timeSet_congr
      intro key hkey
      obtain ⟨q, hq, rfl⟩ := List.mem_map.1 hkey
      exact hq2 q (hqd _ h hh q hq))
    (by
      intro h hh
      rw [hh2 h hh, ho1 _ (hpt _ h hh), hs.pt _ (index_range B).1 (index_range B).2 h hh, past_head_topAt]; rfl)
    (by intro h hh; rw [t2]; exact hbd _ h hh)
    (by
      intro h hh
      rw [t2]
      exact (beforeO_topHex hv b (index_range B).1 (index_range B).2 k hh).mono hle)
    (by
      intro h hh key hkey y hy
      obtain ⟨q, hq, rfl⟩ := List.mem_map.1 hkey
      exact Ne.symm (hpt _ y hy q (hqd _ h hh q hq)))
  have t3 : m3.t = t := p3.t.trans t2
  have hQd : ∀ q ∈ Q, q ∈ lay.data_qubit_coords := by
    intro q hq
    have h := obsAt_data (lay := lay) (n := n) (q := q)
    rw [hB] at h
    exact h hq
  have hQ := Tracker.timeSet_plain (m := m3) (xs := Q) (g := Key.pt) (f := fun q => some {lay.dTime k q}) (by
    intro q hq
    have hd := hQd q hq
    rw [p3.other _ (fun h hh => Ne.symm (hpt _ h hh q hd)), hq2 q hd]
    exact hd1 q hd)
  rw [xorL_some] at hQ
  have hobs := includeObservable_eq hQ (by
    rw [t3, ← xorL_some]
    apply beforeO_xorL
    intro o ho
    obtain ⟨q, hq, rfl⟩ := List.mem_map.1 ho
    exact hdT q (hQd q hq)) lay.obsI
  rw [t3] at hobs
  rw [t2] at h3
  refine ⟨m3, ?_⟩
  simp only [faultTolerantMeasurement, ← hn, obs_before_ok ho, hB, bind, Except.bind, pure, Except.pure,
    obs_index_ok ho, ← hm1, emitFinal, ← hb]
  rw [ht, hD] at h2 h3 hobs
  by_cases hl : Basis.ofIdx (n - 1) = B
  · simp only [if_pos hl] at h2 ⊢
    simp only [h2, h3, hobs, List.append_assoc]
  · simp only [if_neg hl] at h2 ⊢
    simp only [h2, h3, hobs, List.append_assoc]

end HoneycombLayout
end Honeycomb
