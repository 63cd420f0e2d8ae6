import Verif.Lemmas.TrackerLoop
import Verif.Lemmas.Hex

/-! Closed form of the tracker's state after `k` sub-rounds and of the instructions emitted by each sub-round. -/

namespace Honeycomb
namespace HoneycombLayout
variable (lay : HoneycombLayout)

/-- The observable names the generator supports. -/
def ObsOk : Prop := lay.obs = "V" ∨ lay.obs = "H"

/-- `obs_before_sub_round` for a supported observable. -/
def obsAt (k : Int) : Basis × List Pt :=
  if lay.obs = "V" then lay.obs_v_before_sub_round k else lay.obs_h_before_sub_round k

def obsE : List Edge := if lay.obs = "V" then lay.obs_v_edges else lay.obs_h_edges

def obsI : Nat := if lay.obs = "V" then 0 else 1

variable {lay}

theorem obs_before_ok (h : lay.ObsOk) (k : Int) : lay.obs_before_sub_round k = .ok (lay.obsAt k) := by
  rcases h with h | h <;> simp [obs_before_sub_round, obsAt, h]

theorem obs_edges_ok (h : lay.ObsOk) : lay.obs_edges = .ok lay.obsE := by
  rcases h with h | h <;> simp [obs_edges, obsE, h]

theorem obs_index_ok (h : lay.ObsOk) : lay.obs_index = .ok lay.obsI := by
  rcases h with h | h <;> simp [obs_index, obsI, h]

variable (lay)

/-- The number of edges measured per sub-round. -/
def perRound : Nat := (lay.round_edges 0).length

/-- The time at which sub-round `k` measures edge `e`. -/
def mTime (k : Nat) (e : Edge) : Nat := k * lay.perRound + (lay.round_edges k).idxOf e

/-- The style is PC3. -/
def isPC3 : Bool := lay.style == "PC3"

/-- The recovered edge parity of sub-round `k`. -/
def vE (k : Nat) (e : Edge) : Finset Nat :=
  if lay.isPC3 ∧ 3 ≤ k then symmDiff {lay.mTime k e} {lay.mTime (k - 3) e} else {lay.mTime k e}

/-- First half of a hexagon's parity, measured in sub-round `k`. -/
def vHalf (k : Nat) (h : Pt) : Option (Finset Nat) :=
  xorL ((lay.first_edges_around_hex h).map fun e => some (lay.vE k e))

/-- The initial entry of edges and hexes of colour `r`. -/
def eInit (b : Basis) (r : Int) : Option (Finset Nat) := if r ≠ b.index then none else some ∅

/-- The initial entry of the half-hexes of colour `r`. -/
def hInit (b : Basis) (r : Int) : Option (Finset Nat) := if r ≠ (b.index - 1) % 3 then none else some ∅

/-- The parity of a hexagon completed in sub-round `k`. -/
def vHex (b : Basis) (k : Nat) (h : Pt) : Option (Finset Nat) :=
  xorO (xorL ((lay.second_edges_around_hex h).map fun e => some (lay.vE k e)))
    (if k < 1 then hInit b (((k : Int) - 2) % 3) else lay.vHalf (k - 1) h)

/-- The history after `k` sub-rounds of a key that gets the entry `v j` in every sub-round `j ≡ c (mod 3)`. -/
def past (v : Nat → Option (Finset Nat)) (init : Option (Finset Nat)) (c : Int) : Nat → List (Option (Finset Nat))
  | 0 => [init]
  | k + 1 => if (k : Int) % 3 = c then v k :: past v init c k else past v init c k

theorem past_head (v init) {c : Int} {k d : Nat} (h1 : 1 ≤ d) (h3 : d ≤ 3) (hc : ((k : Int) - d) % 3 = c) :
    (past v init c k).head? = some (if k < d then init else v (k - d)) := by
  have hd : d = 1 ∨ d = 2 ∨ d = 3 := by omega
  match k with
  | 0 => simp [past]; omega
  | 1 =>
    simp only [past]
    rcases hd with rfl | rfl | rfl
    · rw [if_pos (by push_cast at hc ⊢; omega)]; simp
    · rw [if_neg (by push_cast at hc ⊢; omega)]; simp
    · rw [if_neg (by push_cast at hc ⊢; omega)]; simp
  | 2 =>
    simp only [past]
    rcases hd with rfl | rfl | rfl
    · rw [if_pos (by push_cast at hc ⊢; omega)]; simp
    · rw [if_neg (by push_cast at hc ⊢; omega), if_pos (by push_cast at hc ⊢; omega)]; simp
    · rw [if_neg (by push_cast at hc ⊢; omega), if_neg (by push_cast at hc ⊢; omega)]; simp
  | k + 3 =>
    simp only [past]
    rcases hd with rfl | rfl | rfl
    · rw [if_pos (by push_cast at hc ⊢; omega)]; simp
    · rw [if_neg (by push_cast at hc ⊢; omega), if_pos (by push_cast at hc ⊢; omega)]; simp
    · rw [if_neg (by push_cast at hc ⊢; omega), if_neg (by push_cast at hc ⊢; omega),
        if_pos (by push_cast at hc ⊢; omega)]; simp

/-- The tracker's state after `k` sub-rounds, starting in basis `b`. -/
structure Snap (b : Basis) (k : Nat) (m : MT) : Prop where
  t : m.t = k * lay.perRound
  halfEdge : ∀ r : Int, 0 ≤ r → r < 3 → ∀ e ∈ lay.round_edges r,
    m.history (.halfEdge e) = past (fun j => some {lay.mTime j e}) (some ∅) r k
  edge : ∀ r : Int, 0 ≤ r → r < 3 → ∀ e ∈ lay.round_edges r,
    m.history (.edge e) = past (fun j => some (lay.vE j e)) (eInit b r) r k
  halfPt : ∀ r : Int, 0 ≤ r → r < 3 → ∀ h ∈ lay.round_hex_centers r,
    m.history (.halfPt h) = past (fun j => lay.vHalf j h) (hInit b r) ((r + 1) % 3) k
  pt : ∀ r : Int, 0 ≤ r → r < 3 → ∀ h ∈ lay.round_hex_centers r,
    m.history (.pt h) = past (fun j => lay.vHex b j h) (eInit b r) ((r + 2) % 3) k

/-- The previous value of the hexagons completed in sub-round `k`. -/
def prevHex (b : Basis) (k : Nat) (h : Pt) : Option (Finset Nat) :=
  if k < 3 then eInit b (((k : Int) - 2) % 3) else lay.vHex b (k - 3) h

/-- An exclusive or of sets is a set. -/
def xorS (l : List (Finset Nat)) : Finset Nat := l.foldr symmDiff ∅

/-- The parity of the observable's edges in sub-round `k`. -/
def vObs (k : Nat) : Finset Nat := xorS ((obsEdgesOf lay.obsE (lay.round_edges k)).map (lay.vE k))

/-- The measurement instruction of sub-round `k`. -/
def emitMeas (k : Nat) : List Instr :=
  if lay.isEM3 then [] else [.on .M ((lay.round_edges k).map fun e => lay.idx e.center)]

/-- The annotations of sub-round `k`. -/
def emitAnn (k : Nat) : List Instr :=
  (if lay.isPC3 then [] else [.observable (relTo ((k + 1) * lay.perRound) (lay.vObs k)) lay.obsI]) ++
  (if k = 0 ∧ (lay.obsAt 0).1 = .X then
    (lay.round_edges 0).flatMap fun e => detI ((k + 1) * lay.perRound) (some (lay.vE 0 e)) (coords3 e.center) else []) ++
  ((lay.round_hex_centers (((k : Int) - 2) % 3)).flatMap fun h =>
    detI ((k + 1) * lay.perRound) (xorO (lay.vHex (lay.obsAt 0).1 k h) (lay.prevHex (lay.obsAt 0).1 k h)) (coords3 h)) ++
  [.shift [0, 0, 1]]

variable {lay}

theorem perRound_eq (hv : lay.Valid) (r : Int) : (lay.round_edges r).length = lay.perRound := by
  have h1 := length_round_edges hv r
  have h2 := length_round_edges hv 0
  simp only [perRound]; omega

theorem mTime_lt (hv : lay.Valid) {k : Nat} {e : Edge} (he : e ∈ lay.round_edges k) :
    lay.mTime k e < (k + 1) * lay.perRound := by
  have := List.idxOf_lt_length_iff.2 he
  rw [perRound_eq hv] at this
  simp only [mTime, Nat.add_mul, Nat.one_mul]; omega

theorem beforeO_vE (hv : lay.Valid) {k : Nat} {e : Edge} (he : e ∈ lay.round_edges k) :
    BeforeO ((k + 1) * lay.perRound) (some (lay.vE k e)) := by
  intro s hs x hx
  simp only [Option.mem_def, Option.some.injEq] at hs
  subst hs
  simp only [vE] at hx
  split_ifs at hx with h
  · rcases Finset.mem_symmDiff.1 hx with h' | h'
    · rw [Finset.mem_singleton.1 h'.1]; exact mTime_lt hv he
    · rw [Finset.mem_singleton.1 h'.1]
      refine lt_of_lt_of_le (mTime_lt hv (k := k - 3) ?_) ?_
      · rw [round_edges_congr lay (r' := k) (by omega)]; exact he
      · exact Nat.mul_le_mul_right _ (by omega)
  · rw [Finset.mem_singleton.1 hx]; exact mTime_lt hv he

theorem beforeO_eInit (b r t) : BeforeO t (eInit b r) := by
  simp only [eInit]; split_ifs
  · exact beforeO_none t
  · exact beforeO_empty t

theorem beforeO_hInit (b r t) : BeforeO t (hInit b r) := by
  simp only [hInit]; split_ifs
  · exact beforeO_none t
  · exact beforeO_empty t

theorem first_mem (hv : lay.Valid) {r : Int} {h : Pt} (hh : h ∈ lay.round_hex_centers r) {e : Edge}
    (he : e ∈ lay.first_edges_around_hex h) : e ∈ lay.round_edges (r + 1) := by
  obtain ⟨hx, rfl⟩ := (mem_round_hex_centers hv).1 hh
  exact first_edges_mem hv hx he

theorem second_mem (hv : lay.Valid) {r : Int} {h : Pt} (hh : h ∈ lay.round_hex_centers r) {e : Edge}
    (he : e ∈ lay.second_edges_around_hex h) : e ∈ lay.round_edges (r + 2) := by
  obtain ⟨hx, rfl⟩ := (mem_round_hex_centers hv).1 hh
  exact second_edges_mem hv hx he

theorem beforeO_vHalf (hv : lay.Valid) {k : Nat} {h : Pt} {r : Int} (hr : ((k : Int) - 1) % 3 = r % 3)
    (hh : h ∈ lay.round_hex_centers r) : BeforeO ((k + 1) * lay.perRound) (lay.vHalf k h) := by
  apply beforeO_xorL
  intro o ho
  obtain ⟨e, he, rfl⟩ := List.mem_map.1 ho
  apply beforeO_vE hv
  rw [round_edges_congr lay (r' := r + 1) (by omega)]
  exact first_mem hv hh he

theorem beforeO_vHex (hv : lay.Valid) (b : Basis) {k : Nat} {h : Pt} {r : Int} (hr : ((k : Int) - 2) % 3 = r % 3)
    (hh : h ∈ lay.round_hex_centers r) : BeforeO ((k + 1) * lay.perRound) (lay.vHex b k h) := by
  apply beforeO_xorO
  · apply beforeO_xorL
    intro o ho
    obtain ⟨e, he, rfl⟩ := List.mem_map.1 ho
    apply beforeO_vE hv
    rw [round_edges_congr lay (r' := r + 2) (by omega)]
    exact second_mem hv hh he
  · split_ifs with h0
    · exact beforeO_hInit _ _ _
    · exact (beforeO_vHalf hv (k := k - 1) (by omega) hh).mono (Nat.mul_le_mul_right _ (by omega))

theorem beforeO_prevHex (hv : lay.Valid) (b : Basis) {k : Nat} {h : Pt} {r : Int} (hr : ((k : Int) - 2) % 3 = r % 3)
    (hh : h ∈ lay.round_hex_centers r) : BeforeO ((k + 1) * lay.perRound) (lay.prevHex b k h) := by
  simp only [prevHex]
  split_ifs with h0
  · exact beforeO_eInit _ _ _
  · exact (beforeO_vHex hv b (k := k - 3) (by omega) hh).mono (Nat.mul_le_mul_right _ (by omega))

theorem idxOf_map {α β : Type} [DecidableEq α] [DecidableEq β] {f : α → β} (hf : Function.Injective f) (l : List α)
    (a : α) : (l.map f).idxOf (f a) = l.idxOf a := by
  induction l with
  | nil => rfl
  | cons b l ih =>
    by_cases h : b = a
    · subst h; simp
    · rw [List.map_cons, List.idxOf_cons_ne _ (fun e => h (hf e)), List.idxOf_cons_ne _ h, ih]

theorem mem_obsEdgesOf {oe re : List Edge} {e : Edge} (h : e ∈ obsEdgesOf oe re) : e ∈ re := by
  simp only [obsEdgesOf, mem_pySet, List.mem_filter, decide_eq_true_eq] at h
  exact h.2

theorem xorL_some {α : Type} (l : List α) (f : α → Finset Nat) : xorL (l.map fun a => some (f a)) = some (xorS (l.map f)) := by
  induction l with
  | nil => rfl
  | cons a l ih => rw [List.map_cons, xorL_cons, ih]; rfl

theorem hex_colour (hv : lay.Valid) {r r' : Int} {h : Pt} (hh : h ∈ lay.round_hex_centers r)
    (hh' : h ∈ lay.round_hex_centers r') : r = r' :=
  ((mem_round_hex_centers hv).1 hh).2.symm.trans ((mem_round_hex_centers hv).1 hh').2

theorem cons_of_head {α : Type} {l : List α} {a : α} (h : l.head? = some a) : ∃ l', l = a :: l' := by
  cases l with
  | nil => simp at h
  | cons b l => simp only [List.head?_cons, Option.some.injEq] at h; exact ⟨l, by rw [h]⟩

/-- One sub-round: what it emits and the state it leaves. -/
theorem subRound_ok (hv : lay.Valid) (ho : lay.ObsOk) {k : Nat} {m : MT} (hs : lay.Snap (lay.obsAt 0).1 k m)
    {sr : Int} (hr : sr % 3 = (k : Int) % 3) (h0 : sr = 0 ↔ k = 0) :
    ∃ m', lay.subRoundMeasurementsAndDetectors m sr = .ok (lay.emitMeas k ++ lay.emitAnn k, m') ∧
      lay.Snap (lay.obsAt 0).1 (k + 1) m' := by
  set b := (lay.obsAt 0).1 with hb
  have hedges : lay.round_edges sr = lay.round_edges k := round_edges_congr lay hr
  have hkr : (0 : Int) ≤ (k : Int) % 3 ∧ (k : Int) % 3 < 3 := by omega
  have hmk : ∀ e, e ∈ lay.round_edges k → e ∈ lay.round_edges ((k : Int) % 3) := by
    intro e he; rwa [round_edges_emod]
  have hnd := nodup_round_edges hv (k : Int)
  have injH : Function.Injective Key.halfEdge := fun a b h => Key.halfEdge.inj h
  -- the new measurements
  set m1 := m.addMeasurements ((lay.round_edges k).map .halfEdge) with hm1
  have t1 : m1.t = (k + 1) * lay.perRound := by
    rw [hm1, Tracker.addMeasurements_t, hs.t, List.length_map, perRound_eq hv, Nat.add_mul, Nat.one_mul]
  have he1 : ∀ e ∈ lay.round_edges k, m1.history (.halfEdge e) = some {lay.mTime k e} :: m.history (.halfEdge e) := by
    intro e he
    rw [hm1, Tracker.addMeasurements_mem _ (hnd.map injH) (List.mem_map.2 ⟨e, he, rfl⟩), idxOf_map injH, hs.t]
    rfl
  have ho1 : ∀ key, (∀ e ∈ lay.round_edges k, Key.halfEdge e ≠ key) → m1.history key = m.history key := by
    intro key hk
    rw [hm1, Tracker.addMeasurements_not_mem]
    intro hc
    obtain ⟨e, he, rfl⟩ := List.mem_map.1 hc
    exact hk e he rfl
  -- the recovered edge values
  obtain ⟨m2, hg2, p2⟩ := addGroups_eq (m := m1) (keys := recoverKeys lay.isPC3) (gk := Key.edge)
    (v := fun e => some (lay.vE k e)) (xs := lay.round_edges k)
    (hnd.map fun a b h => Key.edge.inj h)
    (by
      intro e he
      have hh := he1 e he
      rw [hs.halfEdge _ hkr.1 hkr.2 e (hmk e he)] at hh
      have hp := past_head (fun j => some {lay.mTime j e}) (some ∅) (c := (k : Int) % 3) (k := k) (d := 3)
        (by omega) (by omega) (by omega)
      obtain ⟨l, hl⟩ := cons_of_head hp
      rw [hl] at hh
      have l0 : m1.lookup (.prev (.halfEdge e) 0) = .ok (some {lay.mTime k e}) :=
        Tracker.lookup_prev0 (by rw [hh]; rfl)
      have l1 := Tracker.lookup_prev1 hh
      simp only [recoverKeys, vE]
      by_cases hpc : lay.isPC3 = true
      · rw [if_pos hpc]
        obtain ⟨x, hx, hx'⟩ := Tracker.timeSet_cons (ks := []) l1 rfl
        obtain ⟨y, hy, hy'⟩ := Tracker.timeSet_cons l0 (hx.trans hx')
        rw [hy, hy', xorO_empty]
        by_cases h3 : 3 ≤ k
        · have h3' : ¬ k < 3 := by omega
          rw [if_neg h3', if_pos (⟨hpc, h3⟩ : lay.isPC3 = true ∧ 3 ≤ k)]; rfl
        · have h3' : k < 3 := by omega
          rw [if_pos h3', if_neg (fun h => h3 h.2), xorO_empty]
      · rw [if_neg hpc, if_neg (by rintro ⟨h, _⟩; exact hpc h)]
        obtain ⟨x, hx, hx'⟩ := Tracker.timeSet_cons (ks := []) l0 rfl
        rw [hx, hx', xorO_empty])
    (by
      intro e he key hkey y hy
      simp only [recoverKeys] at hkey
      split_ifs at hkey <;> simp only [List.mem_cons, List.not_mem_nil, or_false] at hkey
      · rcases hkey with rfl | rfl <;> simp [TKey.base]
      · subst hkey; simp [TKey.base])
  have t2 : m2.t = (k + 1) * lay.perRound := p2.t.trans t1
  have top2 : ∀ e ∈ lay.round_edges k, (m2.history (.edge e)).head? = some (some (lay.vE k e)) := by
    intro e he; rw [p2.mem e he]; rfl
  -- the observable
  have hobs : includeObservable m2 ((obsEdgesOf lay.obsE (lay.round_edges k)).map fun e => .plain (.edge e)) lay.obsI =
      .ok [.observable (relTo ((k + 1) * lay.perRound) (lay.vObs k)) lay.obsI] := by
    have := Tracker.timeSet_plain (m := m2) (xs := obsEdgesOf lay.obsE (lay.round_edges k)) (g := Key.edge)
      (f := fun e => some (lay.vE k e)) (fun e he => top2 e (mem_obsEdgesOf he))
    rw [xorL_some] at this
    rw [includeObservable_eq this, t2]
    · rfl
    · rw [t2, ← xorL_some]
      apply beforeO_xorL
      intro o ho
      obtain ⟨e, he, rfl⟩ := List.mem_map.1 ho
      exact beforeO_vE hv (mem_obsEdgesOf he)
  -- the first detectors
  have hfirst : k = 0 → detectAll m2 (fun e => [.plain (.edge e)]) (fun e => coords3 e.center) (lay.round_edges 0) =
      .ok ((lay.round_edges 0).flatMap fun e => detI ((k + 1) * lay.perRound) (some (lay.vE 0 e)) (coords3 e.center)) := by
    intro hk
    rw [← t2]
    apply detectAll_eq (v := fun e => some (lay.vE 0 e))
    · intro e he
      have := top2 e (by rw [hk]; exact he)
      obtain ⟨x, hx, hx'⟩ := Tracker.timeSet_cons (ks := []) (Tracker.lookup_plain this) rfl
      rw [hx, hx', xorO_empty, hk]
    · intro e he
      rw [t2, hk]; exact beforeO_vE hv (k := 0) he
  -- half hexes
  have hr1 : (sr - 1) % 3 = ((k : Int) - 1) % 3 := by omega
  obtain ⟨m3, hg3, p3⟩ := addGroups_eq (m := m2) (keys := firstKeys lay) (gk := Key.halfPt)
    (v := fun h => lay.vHalf k h) (xs := lay.round_hex_centers (((k : Int) - 1) % 3))
    ((nodup_round_hex_centers hv _).map fun a b h => Key.halfPt.inj h)
    (by
      intro h hh
      apply Tracker.timeSet_plain
      intro e he
      apply top2
      rw [round_edges_congr lay (r' := ((k : Int) - 1) % 3 + 1) (by omega)]
      exact first_mem hv hh he)
    (by
      intro h hh key hkey y hy
      obtain ⟨e, he, rfl⟩ := List.mem_map.1 hkey
      simp [TKey.base])
  have t3 : m3.t = (k + 1) * lay.perRound := p3.t.trans t2
  -- hexes
  have hr2 : (sr - 2) % 3 = ((k : Int) - 2) % 3 := by omega
  have hcol : (0 : Int) ≤ ((k : Int) - 2) % 3 ∧ ((k : Int) - 2) % 3 < 3 := by omega
  obtain ⟨m4, hg4, p4⟩ := addGroupsDetect_eq (m := m3) (keys := secondKeys lay) (gk := Key.pt) (crds := coords3)
    (v := fun h => lay.vHex b k h) (p := fun h => lay.prevHex b k h)
    (xs := lay.round_hex_centers (((k : Int) - 2) % 3))
    ((nodup_round_hex_centers hv _).map fun a b h => Key.pt.inj h)
    (by
      intro h hh
      have e1 : m3.history (.halfPt h) = m.history (.halfPt h) := by
        rw [p3.other _ (by
            intro y hy hc
            have := Key.halfPt.inj hc
            subst this
            have := hex_colour hv hy hh
            omega),
          p2.other _ (by simp), ho1 _ (by simp)]
      rw [hs.halfPt _ hcol.1 hcol.2 h hh] at e1
      have hp := past_head (fun j => lay.vHalf j h) (hInit b (((k : Int) - 2) % 3))
        (c := (((k : Int) - 2) % 3 + 1) % 3) (k := k) (d := 1) (by omega) (by omega) (by omega)
      rw [← e1] at hp
      have hA := Tracker.timeSet_plain (m := m3) (xs := lay.second_edges_around_hex h) (g := Key.edge)
        (f := fun e => some (lay.vE k e)) (by
          intro e he
          rw [p3.other _ (by simp)]
          apply top2
          rw [round_edges_congr lay (r' := ((k : Int) - 2) % 3 + 2) (by omega)]
          exact second_mem hv hh he)
      have hB : m3.timeSet [.plain (.halfPt h)] = .ok (if k < 1 then hInit b (((k : Int) - 2) % 3) else lay.vHalf (k - 1) h) := by
        obtain ⟨x, hx, hx'⟩ := Tracker.timeSet_cons (ks := []) (Tracker.lookup_plain hp) rfl
        rw [hx, hx', xorO_empty]
      have hAB := Tracker.timeSet_append hA hB
      exact hAB)
    (by
      intro h hh
      rw [p3.other _ (by simp), p2.other _ (by simp), ho1 _ (by simp), hs.pt _ hcol.1 hcol.2 h hh]
      exact past_head (fun j => lay.vHex b j h) (eInit b (((k : Int) - 2) % 3))
        (c := (((k : Int) - 2) % 3 + 2) % 3) (k := k) (d := 3) (by omega) (by omega) (by omega))
    (by intro h hh; rw [t3]; exact beforeO_vHex hv b (by omega) hh)
    (by intro h hh; rw [t3]; exact beforeO_prevHex hv b (by omega) hh)
    (by
      intro h hh key hkey y hy
      simp only [secondKeys, List.mem_append, List.mem_map, List.mem_singleton] at hkey
      rcases hkey with ⟨e, he, rfl⟩ | rfl <;> simp [TKey.base])
  refine ⟨m4, ?_, ?_⟩
  · have hX : (lay.style == "PC3") = lay.isPC3 := rfl
    rw [t3] at hg4
    simp only [subRoundMeasurementsAndDetectors, hedges, ← hm1, hX, hg2, hr1, hr2, hg3, hg4, bind, Except.bind, pure,
      Except.pure, obs_edges_ok ho, obs_index_ok ho, obs_before_ok ho, hobs, ← hb]
    simp only [emitMeas, emitAnn, bne, hX]
    by_cases hpc : lay.isPC3 = true
    · by_cases hk : k = 0
      · by_cases hx : b = .X
        · simp [hpc, h0.2 hk, hk, hx, hb ▸ hx, hk ▸ hfirst hk]
        · simp [hpc, h0.2 hk, hk, hx, ← hb]
      · simp [hpc, hk, mt h0.1 hk, ← hb]
    · by_cases hk : k = 0
      · by_cases hx : b = .X
        · simp [hpc, h0.2 hk, hk, hx, hb ▸ hx, hk ▸ hfirst hk]
        · simp [hpc, h0.2 hk, hk, hx, ← hb]
      · simp [hpc, hk, mt h0.1 hk, ← hb]
  · refine ⟨p4.t.trans t3, ?_, ?_, ?_, ?_⟩
    · intro r hr0 hr3 e he
      rw [p4.other _ (by simp), p3.other _ (by simp), p2.other _ (by simp), past]
      by_cases hc : (k : Int) % 3 = r
      · rw [if_pos hc, he1 e (by rw [← round_edges_emod, hc]; exact he), hs.halfEdge r hr0 hr3 e he]
      · rw [if_neg hc, ho1 _ (by
          intro y hy h
          have := Key.halfEdge.inj h
          subst this
          have := round_edges_disjoint hv hy he
          omega), hs.halfEdge r hr0 hr3 e he]
    · intro r hr0 hr3 e he
      rw [p4.other _ (by simp), p3.other _ (by simp), past]
      by_cases hc : (k : Int) % 3 = r
      · rw [if_pos hc, p2.mem e (by rw [← round_edges_emod, hc]; exact he), ho1 _ (by simp), hs.edge r hr0 hr3 e he]
      · rw [if_neg hc, p2.other _ (by
          intro y hy h
          have := Key.edge.inj h
          subst this
          have := round_edges_disjoint hv hy he
          omega), ho1 _ (by simp), hs.edge r hr0 hr3 e he]
    · intro r hr0 hr3 h hh
      rw [p4.other _ (by simp), past]
      by_cases hc : (k : Int) % 3 = (r + 1) % 3
      · rw [if_pos hc, p3.mem h (by rw [show ((k : Int) - 1) % 3 = r by omega]; exact hh), p2.other _ (by simp),
          ho1 _ (by simp), hs.halfPt r hr0 hr3 h hh]
      · rw [if_neg hc, p3.other _ (by
          intro y hy he
          have := Key.halfPt.inj he
          subst this
          have := hex_colour hv hy hh
          omega), p2.other _ (by simp), ho1 _ (by simp), hs.halfPt r hr0 hr3 h hh]
    · intro r hr0 hr3 h hh
      rw [past]
      by_cases hc : (k : Int) % 3 = (r + 2) % 3
      · rw [if_pos hc, p4.mem h (by rw [show ((k : Int) - 2) % 3 = r by omega]; exact hh), p3.other _ (by simp),
          p2.other _ (by simp), ho1 _ (by simp), hs.pt r hr0 hr3 h hh]
      · rw [if_neg hc, p4.other _ (by
          intro y hy he
          have := Key.pt.inj he
          subst this
          have := hex_colour hv hy hh
          omega), p3.other _ (by simp), p2.other _ (by simp), ho1 _ (by simp), hs.pt r hr0 hr3 h hh]

end HoneycombLayout
end Honeycomb
