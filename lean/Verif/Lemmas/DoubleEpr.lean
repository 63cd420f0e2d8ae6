import Verif.Model.DoubleEpr
import Verif.Lemmas.Unroll

/-! The circuit of the double EPR experiment in closed form. -/

namespace Honeycomb
namespace HoneycombLayout
variable (lay : HoneycombLayout)

/-- The tracker's state after `k` sub-rounds. -/
structure EprSnap (k : Nat) (m : MT) : Prop where
  t : m.t = k * lay.perRound
  halfPt : 1 ≤ k → ∀ h ∈ lay.round_hex_centers (((k : Int) - 2) % 3), (m.history (.halfPt h)).head? = some (lay.vHalf (k - 1) h)
  pt : ∀ j : Nat, 3 ≤ j → j < k → k ≤ j + 3 → ∀ h ∈ lay.round_hex_centers (((j : Int) - 2) % 3),
    (m.history (.pt h)).head? = some (lay.vHex .X j h)

/-- The edges of observable `i`. -/
def eprEdges (i : Nat) : List Edge := if i % 2 = 0 then lay.obs_h_edges else lay.obs_v_edges

/-- The parity that sub-round `k` adds to observable `i`. -/
def eprObs (k i : Nat) : Finset Nat := xorS ((obsEdgesOf (lay.eprEdges i) (lay.round_edges k)).map (lay.vE k))

/-- The parity measurements of sub-round `k`. -/
def eprMpp (k : Nat) : Instr :=
  { gate := .MPP, targets := (lay.round_edges k).flatMap fun e =>
    [.pauli (sub_round_edge_basis k) (lay.idx e.left), .comb, .pauli (sub_round_edge_basis k) (lay.idx e.right)] }

/-- The annotations of sub-round `k`. -/
def eprAnn (k : Nat) : List Instr :=
  ([0, 1, 2, 3].map fun i : Nat => Instr.observable (relTo ((k + 1) * lay.perRound) (lay.eprObs k i)) i) ++
  (if 6 ≤ k then (lay.round_hex_centers (((k : Int) - 2) % 3)).flatMap fun h =>
    detI ((k + 1) * lay.perRound) (xorO (lay.vHex .X k h) (lay.vHex .X (k - 3) h)) [] else [])

/-- Sub-round `k` without noise. -/
def eprEmit (k : Nat) : List Instr := [lay.eprMpp k] ++ lay.eprAnn k ++ [.tick]

variable {lay}

theorem vE_plain (hp : lay.isPC3 = false) (k : Nat) (e : Edge) : lay.vE k e = {lay.mTime k e} := by
  rw [vE, if_neg (by simp [hp])]

theorem eprObservables_ok {m : MT} {k : Nat} (ht : m.t = (k + 1) * lay.perRound) (hv : lay.Valid)
    (he : ∀ e ∈ lay.round_edges k, (m.history (.edge e)).head? = some (some (lay.vE k e))) (ids : List Nat) :
    lay.eprObservables m (lay.round_edges k) ids =
      .ok (ids.map fun i : Nat => Instr.observable (relTo ((k + 1) * lay.perRound) (lay.eprObs k i)) i) := by
  induction ids with
  | nil => rfl
  | cons i ids ih =>
    have h := Tracker.timeSet_plain (m := m) (xs := obsEdgesOf (lay.eprEdges i) (lay.round_edges k)) (g := Key.edge)
      (f := fun e => some (lay.vE k e)) (fun e h => he e (mem_obsEdgesOf h))
    rw [xorL_some] at h
    have h1 := includeObservable_eq h (by
      rw [ht, ← xorL_some]
      apply beforeO_xorL
      intro o ho
      obtain ⟨e, h, rfl⟩ := List.mem_map.1 ho
      exact beforeO_vE hv (mem_obsEdgesOf h)) i
    rw [ht] at h1
    simp only [eprObservables]
    rw [eprEdges] at h1
    rw [h1, ih]
    rfl

/-- One sub-round: what it emits and the state it leaves. -/
theorem eprSubRound_ok (hv : lay.Valid) (hp : lay.isPC3 = false) {k : Nat} {m : MT} (hs : lay.EprSnap k m) :
    ∃ m', lay.eprSubRound m k = .ok (lay.eprEmit k, m') ∧ lay.EprSnap (k + 1) m' := by
  have hnd := nodup_round_edges hv (k : Int)
  have injE : Function.Injective Key.edge := fun a b h => Key.edge.inj h
  set m1 := m.addMeasurements ((lay.round_edges k).map .edge) with hm1
  have t1 : m1.t = (k + 1) * lay.perRound := by
    rw [hm1, Tracker.addMeasurements_t, hs.t, List.length_map, perRound_eq hv, Nat.add_mul, Nat.one_mul]
  have top1 : ∀ e ∈ lay.round_edges k, (m1.history (.edge e)).head? = some (some (lay.vE k e)) := by
    intro e he
    rw [hm1, Tracker.addMeasurements_mem _ (hnd.map injE) (List.mem_map.2 ⟨e, he, rfl⟩), idxOf_map injE, hs.t, vE_plain hp]
    rfl
  have ho1 : ∀ key, (∀ e ∈ lay.round_edges k, Key.edge e ≠ key) → m1.history key = m.history key := by
    intro key hk
    rw [hm1, Tracker.addMeasurements_not_mem]
    intro hc
    obtain ⟨e, he, rfl⟩ := List.mem_map.1 hc
    exact hk e he rfl
  have hobs := eprObservables_ok t1 hv top1 [0, 1, 2, 3]
  -- half hexes
  obtain ⟨m2, hg2, p2⟩ := addGroups_eq (m := m1) (keys := firstKeys lay) (gk := Key.halfPt)
    (v := fun h => lay.vHalf k h) (xs := lay.round_hex_centers (((k : Int) - 1) % 3))
    ((nodup_round_hex_centers hv _).map fun a b h => Key.halfPt.inj h)
    (by
      intro h hh
      apply Tracker.timeSet_plain
      intro e he
      apply top1
      rw [round_edges_congr lay (r' := ((k : Int) - 1) % 3 + 1) (by omega)]
      exact first_mem hv hh he)
    (by
      intro h hh key hkey y hy
      obtain ⟨e, he, rfl⟩ := List.mem_map.1 hkey
      simp [TKey.base])
  have t2 : m2.t = (k + 1) * lay.perRound := p2.t.trans t1
  have half2 : ∀ h ∈ lay.round_hex_centers (((k : Int) - 2) % 3), m2.history (.halfPt h) = m.history (.halfPt h) := by
    intro h hh
    rw [p2.other _ (by
      intro y hy hc
      have := Key.halfPt.inj hc
      subst this
      have := hex_colour hv hy hh
      omega), ho1 _ (by simp)]
  have pt2 : ∀ h, m2.history (.pt h) = m.history (.pt h) := fun h => by rw [p2.other _ (by simp), ho1 _ (by simp)]
  -- the groups of the second halves
  have hgrp : 1 ≤ k → ∀ h ∈ lay.round_hex_centers (((k : Int) - 2) % 3), m2.timeSet (secondKeys lay h) = .ok (lay.vHex .X k h) := by
    intro h1 h hh
    have hp := hs.halfPt h1 h hh
    rw [← half2 h hh] at hp
    have hA := Tracker.timeSet_plain (m := m2) (xs := lay.second_edges_around_hex h) (g := Key.edge)
      (f := fun e => some (lay.vE k e)) (by
        intro e he
        rw [p2.other _ (by simp)]
        apply top1
        rw [round_edges_congr lay (r' := ((k : Int) - 2) % 3 + 2) (by omega)]
        exact second_mem hv hh he)
    have hB : m2.timeSet [.plain (.halfPt h)] = .ok (lay.vHalf (k - 1) h) := by
      obtain ⟨x, hx, hx'⟩ := Tracker.timeSet_cons (ks := []) (Tracker.lookup_plain hp) rfl
      rw [hx, hx', xorO_empty]
    have hAB := Tracker.timeSet_append hA hB
    rw [vHex, if_neg (by omega)]
    exact hAB
  have hdisj : ∀ x ∈ lay.round_hex_centers (((k : Int) - 2) % 3), ∀ key ∈ secondKeys lay x,
      ∀ y ∈ lay.round_hex_centers (((k : Int) - 2) % 3), Key.pt y ≠ key.base := by
    intro h hh key hkey y hy
    simp only [secondKeys, List.mem_append, List.mem_map, List.mem_singleton] at hkey
    rcases hkey with ⟨e, he, rfl⟩ | rfl <;> simp [TKey.base]
  have hptn : ((lay.round_hex_centers (((k : Int) - 2) % 3)).map Key.pt).Nodup :=
    (nodup_round_hex_centers hv _).map fun a b h => Key.pt.inj h
  -- the state after the sub-round
  have snap : ∀ m', (m'.t = m2.t) → (∀ key, (∀ h ∈ lay.round_hex_centers (((k : Int) - 2) % 3), Key.pt h ≠ key) → m'.history key = m2.history key) →
      (3 ≤ k → ∀ h ∈ lay.round_hex_centers (((k : Int) - 2) % 3), (m'.history (.pt h)).head? = some (lay.vHex .X k h)) → lay.EprSnap (k + 1) m' := by
    intro m' e1 e2 e3
    refine ⟨e1.trans t2, fun _ h hh => ?_, fun j h3 hj hk h hh => ?_⟩
    · rw [show (((k + 1 : Nat) : Int) - 2) % 3 = ((k : Int) - 1) % 3 by push_cast; omega] at hh
      rw [e2 _ (by simp), p2.mem h hh]
      rfl
    · by_cases hjk : j = k
      · subst hjk
        exact e3 h3 h hh
      · rw [e2 _ (by
          intro y hy hc
          have := Key.pt.inj hc
          subst this
          have := hex_colour hv hy hh
          omega), pt2]
        exact hs.pt j h3 (by omega) (by omega) h hh
  by_cases h6 : 6 ≤ k
  · obtain ⟨m3, hg3, p3⟩ := addGroupsDetect_eq (m := m2) (keys := secondKeys lay) (gk := Key.pt) (crds := fun _ => [])
      (v := fun h => lay.vHex .X k h) (p := fun h => lay.vHex .X (k - 3) h)
      (xs := lay.round_hex_centers (((k : Int) - 2) % 3)) hptn (hgrp (by omega))
      (by
        intro h hh
        rw [pt2]
        refine hs.pt (k - 3) (by omega) (by omega) (by omega) h ?_
        rwa [show (((k - 3 : Nat) : Int) - 2) % 3 = ((k : Int) - 2) % 3 by omega])
      (by intro h hh; rw [t2]; exact beforeO_vHex hv .X (by omega) hh)
      (by
        intro h hh; rw [t2]
        exact (beforeO_vHex hv .X (k := k - 3) (by omega) hh).mono (Nat.mul_le_mul_right _ (by omega)))
      hdisj
    refine ⟨m3, ?_, snap m3 p3.t p3.other fun _ h hh => by rw [p3.mem h hh]; rfl⟩
    rw [t2] at hg3
    simp only [eprSubRound, ← hm1, hobs, hg2, hg3, bind, Except.bind, pure, Except.pure, if_pos (show (6 : Int) ≤ (k : Int) by omega)]
    simp only [eprEmit, eprAnn, eprMpp, if_pos h6, List.append_assoc]
  · by_cases h3 : 3 ≤ k
    · obtain ⟨m3, hg3, p3⟩ := addGroups_eq (m := m2) (keys := secondKeys lay) (gk := Key.pt)
        (v := fun h => lay.vHex .X k h) (xs := lay.round_hex_centers (((k : Int) - 2) % 3)) hptn (hgrp (by omega)) hdisj
      refine ⟨m3, ?_, snap m3 p3.t p3.other fun _ h hh => by rw [p3.mem h hh]; rfl⟩
      simp only [eprSubRound, ← hm1, hobs, hg2, hg3, bind, Except.bind, pure, Except.pure, if_neg (show ¬ (6 : Int) ≤ (k : Int) by omega),
        if_pos (show (3 : Int) ≤ (k : Int) by omega)]
      simp only [eprEmit, eprAnn, eprMpp, if_neg h6, List.append_assoc]
    · refine ⟨m2, ?_, snap m2 rfl (fun _ _ => rfl) fun h => absurd h h3⟩
      simp only [eprSubRound, ← hm1, hobs, hg2, bind, Except.bind, pure, Except.pure, if_neg (show ¬ (6 : Int) ≤ (k : Int) by omega),
        if_neg (show ¬ (3 : Int) ≤ (k : Int) by omega)]
      simp only [eprEmit, eprAnn, eprMpp, if_neg h6, List.append_assoc]

theorem eprSnap_zero : lay.EprSnap 0 Tracker.empty where
  t := by simp [Tracker.empty]
  halfPt h := by omega
  pt j _ h := by omega

end HoneycombLayout
end Honeycomb
