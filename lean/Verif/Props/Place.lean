import Verif.Lemmas.Place
import Verif.Props.Coverage

/-!
# Errors are noticed where and when they happen (C107)

`lay.DamagedRecord B l rec` (`Spec/Damage.lean`): everything inside the region `B` may have gone wrong at any time. `CanSample n l rec`: the
noise channels and measurements of `l` made `n` errors. `lay.Touches B p` (`Spec/Place.lean`): `p` is a face or an edge with a qubit of `B`.
`lay.glitchReach` (`Spec/Glitch.lean`) is at most 8.
-/

namespace Honeycomb
open HoneycombLayout

variable {lay : HoneycombLayout} {N : Nat} {rec : List (ZMod 2)}

/-- The fired detectors of the generated circuit are among those of the closed list. -/
theorem fired_det (hv : lay.Valid) (hs : lay.Supported) (hN : lay.sub_rounds = N) {d : Circuit} (hd : lay.makeCircuit = .ok d)
    (hl : rec.length = N * lay.perRound + lay.data_qubit_coords.length) {i : Nat} {x : List Rat × Nat}
    (hi : (detectorValues d.flatten rec)[i]? = some (some 1)) (hx : (detectorCoords d.flatten)[i]? = some x) :
    ∃ y ∈ allDets lay N, x.1 = [crd y.2.1.x, crd y.2.1.y, (y.1 : Rat)] ∧ val (recAt rec) y.2.2 ≠ 0 := by
  obtain ⟨ht, -⟩ := noisy_run hv hs hN hd
  have hval : detectorValues d.flatten rec = detectorValues (lay.closedCircuit N) rec := by rw [detectorValues, ht, detectorValues]
  have hco : detectorCoords d.flatten = detectorCoords (lay.closedCircuit N) := by rw [detectorCoords, ht, detectorCoords]
  rw [hval, values_eq hv hs hN hl, List.getElem?_map] at hi
  rw [hco, closed_coords_eq hv hs hN, List.getElem?_map] at hx
  obtain ⟨y, hy, hf⟩ := Option.map_eq_some_iff.1 hi
  rw [hy] at hx
  obtain rfl := Option.some.inj hx
  exact ⟨y, List.mem_of_getElem? hy, rfl, by rw [Option.some.inj hf]; decide⟩

theorem absoluteCoords_length (l : List (Instr × Nat)) : ∀ o, (absoluteCoords o l).length = (l.filter fun x => x.1.gate = .DETECTOR).length := by
  induction l with
  | nil => intro o; rfl
  | cons x l ih =>
    intro o
    rw [absoluteCoords]
    split
    · rename_i h; rw [ih, List.filter_cons_of_neg (by simp [h])]
    · rename_i h; rw [List.length_cons, ih, List.filter_cons_of_pos (by simp [h]), List.length_cons]
    · rename_i h; rw [ih, List.filter_cons_of_neg (by simpa using h)]

theorem coords_unique {p p' : Pt} {k k' : Nat} (h : [crd p.x, crd p.y, (k : Rat)] = [crd p'.x, crd p'.y, (k' : Rat)]) : p = p' ∧ k = k' := by
  simp only [List.cons.injEq, and_true] at h
  obtain ⟨h1, h2, h3⟩ := h
  have hc : ∀ a b : Int, crd a = crd b → a = b := fun a b h => by
    rw [crd, crd, div_left_inj' (by norm_num)] at h
    exact_mod_cast h
  refine ⟨?_, by exact_mod_cast h3⟩
  cases p; cases p'
  simp only at h1 h2
  rw [hc _ _ h1, hc _ _ h2]

/-- C107: if everything inside the region `B` goes wrong, only detectors at faces and edges with a data qubit of `B` fire. -/
theorem c107_region (lay : HoneycombLayout) (hv : lay.Valid) (hs : lay.Supported) :
    ∃ d, lay.makeCircuit = .ok d ∧ ∀ (B : Pt → Prop) rec, lay.DamagedRecord B d.flatten rec →
      ∀ (i : Nat) (x : List Rat × Nat), (detectorValues d.flatten rec)[i]? = some (some 1) → (detectorCoords d.flatten)[i]? = some x →
        ∃ (layer : Nat) (p : Pt), x.1 = [crd p.x, crd p.y, (layer : Rat)] ∧ lay.Touches B p := by
  obtain ⟨N, hN⟩ := Int.eq_ofNat_of_zero_le (show 0 ≤ lay.sub_rounds by have := hs.2.2.1; omega)
  obtain ⟨_, _, d, _, _, _, _, _, _, _, _, _, _, _, _, hd⟩ := makeCircuit_ok hv hs hN
  refine ⟨d, hd, ?_⟩
  rintro B rec ⟨m, rec0, ⟨F, F', -, hr⟩, hlen, hfl⟩ i x hi hx
  obtain ⟨G, hG⟩ := noisy_frun_of hv hs hN hd (fun hst q hq => by
    rcases hq with ⟨p, hp, _, rfl⟩ | ⟨ha, _⟩
    · exact List.mem_map_of_mem hp
    · exact absurd hst ha.2) hr
  obtain ⟨hl, h⟩ := damage_place hv hs hN hG hlen hfl
  obtain ⟨y, hy, e, hne⟩ := fired_det hv hs hN hd hl hi hx
  exact ⟨y.1, y.2.1, e, h y hy hne⟩

/-- One error. -/
theorem one_place (hv : lay.Valid) (hs : lay.Supported) (hN : lay.sub_rounds = N) {d : Circuit} (hd : lay.makeCircuit = .ok d) {n : Nat} (hn : n ≤ 1)
    (hr : CanSample n d.flatten rec) : ∃ locs : List (Nat × Edge), locs.length ≤ n ∧ (∀ l ∈ locs, l.2 ∈ lay.all_edges) ∧
      ∀ (i : Nat) (x : List Rat × Nat), (detectorValues d.flatten rec)[i]? = some (some 1) → (detectorCoords d.flatten)[i]? = some x →
        ∃ l ∈ locs, ∃ (layer : Nat) (p : Pt), x.1 = [crd p.x, crd p.y, (layer : Rat)] ∧ l.1 ≤ layer ∧ layer ≤ l.1 + lay.glitchReach ∧
          lay.Touches (fun q => q = l.2.left ∨ q = l.2.right) p := by
  have h1 : 1 ≤ N := by have := hs.2.2.1; omega
  obtain ⟨F, F', hF, hr⟩ := hr
  obtain ⟨es, rec0, G, m, hle, hes, hrun, hdiff⟩ := sampled hv hs hN hd hr.loose
  obtain ⟨g1, g2, g3⟩ := sampled_inside hv hs hN hes hrun hdiff
  obtain ⟨hl, h⟩ := damage_place hv hs hN g1 g2 g3
  match es, hle, hes, h with
  | [], _, _, h =>
    refine ⟨[], by simp, by simp, fun i x hi hx => ?_⟩
    obtain ⟨y, hy, e, hne⟩ := fired_det hv hs hN hd hl hi hx
    obtain ⟨q, -, ⟨e, he, -⟩, -⟩ := h y hy hne
    simp at he
  | e :: e' :: es, hle, _, _ => simp at hle; omega
  | [e], hle, hes, h =>
    obtain rfl : n = 1 := by simp at hle; omega
    have place : ∀ y ∈ allDets lay N, val (recAt rec) y.2.2 ≠ 0 → lay.Touches (fun q => q = e.left ∨ q = e.right) y.2.1 := fun y hy hne => by
      obtain ⟨q, a, ⟨e1, he1, b⟩, c⟩ := h y hy hne
      rw [List.mem_singleton] at he1
      exact ⟨q, a, he1 ▸ b, c⟩
    rcases one_error hr rfl with ⟨a, b, F1, F2, r1, r3, hcut, k1, k3, rfl⟩ | ⟨rec1, T, k, hT, hlen, hd1⟩
    · obtain ⟨d', hd', hg⟩ := c106_glitch lay hv hs
      obtain rfl := Except.ok.inj (hd.symm.trans hd')
      refine ⟨[(min ((measured a).length / lay.perRound) N, e)], by simp, by simpa using hes, fun i x hi hx => ?_⟩
      obtain ⟨y, hy, ey, hne⟩ := fired_det hv hs hN hd hl hi hx
      obtain ⟨layer, p, ex, u1, u2⟩ := hg a [] b _ (by simpa using hcut) ⟨F, F1, F2, F', r1, [], r3, hF, k1, rfl, k3, by simp⟩ i x hi hx
      obtain ⟨rfl, rfl⟩ := coords_unique (ey.symm.trans ex)
      have hyN := allDets_layer hy
      rw [perRound_eq hv, hN] at u1
      rw [perRound_eq hv, List.append_nil] at u2
      refine ⟨_, List.mem_singleton_self _, y.1, y.2.1, ey, ?_, ?_, place y hy hne⟩
      · simp only; omega
      · simp only; omega
    · refine ⟨[(min (T / lay.perRound) N, e)], by simp, by simpa using hes, fun i x hi hx => ?_⟩
      obtain ⟨y, hy, ey, hne⟩ := fired_det hv hs hN hd hl hi hx
      obtain ⟨ht, hsim⟩ := noisy_run hv hs hN hd
      obtain ⟨T', hT'⟩ := hsim _ _ _ k
      have hz : val (recAt rec1) y.2.2 = 0 := by
        have := (closed_zero hv hs hN hT').1
        have hv0 : some (val (recAt rec1) y.2.2) ∈ detectorValues (lay.closedCircuit N) rec1 := by
          rw [values_eq hv hs hN (hlen ▸ hl)]; exact List.mem_map.2 ⟨y, hy, rfl⟩
        rw [detectorValues] at hv0
        obtain ⟨z, hz, e⟩ := List.mem_map.1 hv0
        rw [List.mem_filter] at hz
        rw [this z hz.1 (by simpa using hz.2)] at e
        exact (Option.some.inj e).symm
      obtain ⟨t, ht1, ht2⟩ := wrong_result (R := recAt rec) (R0 := recAt rec1) (s := y.2.2) (by rw [hz]; exact hne)
      obtain rfl : t = T := by
        by_contra hc
        refine ht2 ?_
        rw [recAt, recAt, List.getD_eq_getElem?_getD, List.getD_eq_getElem?_getD, hd1 t hc]
      obtain ⟨u1, u2⟩ := usedBy_layer hv hN h1 (allDets_used hv hs hN hy ht1) (allDets_layer hy)
      exact ⟨_, List.mem_singleton_self _, y.1, y.2.1, ey, u1, u2, place y hy hne⟩

/-- C107: `n` errors of the noise channels and measurements have `n` places `(k, e)`, a sub-round and an edge, such that every detector that
fires is one of layers `k` to `k + lay.glitchReach` and at a face or an edge of one end of `e`, for one of the places. -/
theorem c107_errors (lay : HoneycombLayout) (hv : lay.Valid) (hs : lay.Supported) :
    ∃ d, lay.makeCircuit = .ok d ∧ ∀ n rec, CanSample n d.flatten rec →
      ∃ locs : List (Nat × Edge), locs.length ≤ n ∧ (∀ l ∈ locs, l.2 ∈ lay.all_edges) ∧
        ∀ (i : Nat) (x : List Rat × Nat), (detectorValues d.flatten rec)[i]? = some (some 1) → (detectorCoords d.flatten)[i]? = some x →
          ∃ l ∈ locs, ∃ (layer : Nat) (p : Pt), x.1 = [crd p.x, crd p.y, (layer : Rat)] ∧ l.1 ≤ layer ∧ layer ≤ l.1 + lay.glitchReach ∧
            lay.Touches (fun q => q = l.2.left ∨ q = l.2.right) p := by
  obtain ⟨N, hN⟩ := Int.eq_ofNat_of_zero_le (show 0 ≤ lay.sub_rounds by have := hs.2.2.1; omega)
  obtain ⟨_, _, d, _, _, _, _, _, _, _, _, _, _, _, _, hd⟩ := makeCircuit_ok hv hs hN
  refine ⟨d, hd, fun n => ?_⟩
  induction n with
  | zero => exact fun rec hr => one_place hv hs hN hd (by omega) hr
  | succ n ih =>
    intro rec hr
    obtain ⟨ra, rb, ha, hb, rfl⟩ := hr.split
    obtain ⟨la, a1, a2, a3⟩ := ih ra ha
    obtain ⟨lb, b1, b2, b3⟩ := one_place hv hs hN hd le_rfl hb
    refine ⟨la ++ lb, by rw [List.length_append]; omega, fun l hl => (List.mem_append.1 hl).elim (a2 l) (b2 l), fun i x hi hx => ?_⟩
    rw [detectorValues_add, List.getElem?_zipWith] at hi
    obtain hv1 | hv2 : (detectorValues d.flatten ra)[i]? = some (some 1) ∨ (detectorValues d.flatten rb)[i]? = some (some 1) := by
      generalize (detectorValues d.flatten ra)[i]? = u at hi ⊢
      generalize (detectorValues d.flatten rb)[i]? = v at hi ⊢
      have key : ∀ u v : ZMod 2, u + v = 1 → u = 1 ∨ v = 1 := by decide
      rcases u with _ | _ | u <;> rcases v with _ | _ | v <;> simp [addOpt] at hi ⊢
      exact key u v hi
    · obtain ⟨l, hl, h⟩ := a3 i x hv1 hx
      exact ⟨l, List.mem_append_left _ hl, h⟩
    · obtain ⟨l, hl, h⟩ := b3 i x hv2 hx
      exact ⟨l, List.mem_append_right _ hl, h⟩

/-- The hypotheses of C107 are met: in a noisy SD6 circuit a single error fires detector 100, at its place; and a bit flip of a data qubit `q`
before the first instruction is damage in the region that is just `q`. -/
example : ∃ d, HoneycombLayout.makeCircuit ⟨4, 6, 40, "SD6", "V", 1/1000⟩ = .ok d ∧
    (∃ rec k e, CanSample 1 d.flatten rec ∧ (detectorValues d.flatten rec)[100]? = some (some 1) ∧ ∃ x, (detectorCoords d.flatten)[100]? = some x ∧
      ∃ (layer : Nat) (p : Pt), x.1 = [crd p.x, crd p.y, (layer : Rat)] ∧ k ≤ layer ∧ layer ≤ k + 6 ∧
        HoneycombLayout.Touches ⟨4, 6, 40, "SD6", "V", 1/1000⟩ (fun q => q = Edge.left e ∨ q = Edge.right e) p) ∧
    ∀ q ∈ HoneycombLayout.data_qubit_coords ⟨4, 6, 40, "SD6", "V", 1/1000⟩, ∃ rec,
      HoneycombLayout.DamagedRecord ⟨4, 6, 40, "SD6", "V", 1/1000⟩ (· = q) d.flatten rec := by
  have hv : HoneycombLayout.Valid ⟨4, 6, 40, "SD6", "V", 1/1000⟩ := by constructor <;> decide
  have hs : HoneycombLayout.Supported ⟨4, 6, 40, "SD6", "V", 1/1000⟩ := by refine ⟨?_, ?_, ?_, ?_⟩ <;> simp
  obtain ⟨d, hd, h⟩ := c107_errors _ hv hs
  obtain ⟨d', hd', h'⟩ := c22_detectors _ hv hs
  obtain rfl := Except.ok.inj (hd.symm.trans hd')
  obtain ⟨d', hd', hw⟩ := c101_watches _ hv hs (by norm_num)
  obtain rfl := Except.ok.inj (hd.symm.trans hd')
  obtain ⟨rec, a, b, -⟩ := hw 100 (by simp at h'; omega)
  refine ⟨d, hd, ?_, fun q hq => ?_⟩
  · obtain ⟨locs, l1, -, l3⟩ := h 1 rec a
    obtain ⟨x, hx⟩ : ∃ x, (detectorCoords d.flatten)[100]? = some x := by
      have hlt := (List.getElem?_eq_some_iff.1 b).1
      rw [detectorValues, List.length_map, ← absoluteCoords_length] at hlt
      exact ⟨_, List.getElem?_eq_getElem hlt⟩
    obtain ⟨l, -, layer, p, e, u1, u2, u3⟩ := l3 100 x b hx
    exact ⟨rec, l.1, l.2, a, b, x, hx, layer, p, e, u1, u2, u3⟩
  · obtain ⟨rec, F', hr⟩ := runs_exists (Frame.mul (fun _ => 0) (HoneycombLayout.idx ⟨4, 6, 40, "SD6", "V", 1/1000⟩ q) (1, 0)) (actions d.flatten)
    exact ⟨rec, 1, rec, ⟨fun _ => 0, F', fun _ => rfl, .fault _ (1, 0) (.inl ⟨q, hq, rfl, rfl⟩) (runs_to_faulty hr)⟩, rfl, fun t ht => absurd rfl ht⟩

end Honeycomb
