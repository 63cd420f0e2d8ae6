import Verif.Props.Damage
import Verif.Lemmas.AttainedEM3

/-!
# How few errors of the noise channels defeat the code (C77, C78), and examples for C73-C76

Vocabulary in `Spec/Damage.lean`: `CanSample n l rec` says that sampling `l` can give the record `rec` with `n` errors drawn from the
noise channels, each with positive probability.
-/

namespace Honeycomb
open HoneycombLayout

/-- C77: with noise, in every style, the generated circuit can be sampled so that no detector fires, the layout's observable is flipped, and
the noise channels made exactly `data_width` ("V"), two thirds of `data_height` ("H") errors. -/
theorem c77_undetected_flip (lay : HoneycombLayout) (hv : lay.Valid) (hs : lay.Supported) (hp : 0 < lay.noise) :
    ∃ d, lay.makeCircuit = .ok d ∧ ∃ (n : Nat) (rec : List (ZMod 2)), (n : Int) = (if lay.obs = "V" then lay.data_width else lay.data_height / 3 * 2) ∧
      CanSample n d.flatten rec ∧ (∀ v ∈ detectorValues d.flatten rec, v = some 0) ∧
      observableValue (if lay.obs = "V" then 0 else 1) d.flatten rec = some 1 := by
  obtain ⟨N, hN⟩ := Int.eq_ofNat_of_zero_le (show 0 ≤ lay.sub_rounds by have := hs.2.2.1; omega)
  obtain ⟨_, _, d, _, _, _, _, _, _, _, _, _, _, _, _, hd⟩ := makeCircuit_ok hv hs hN
  obtain ⟨rec, h1, h2, h3⟩ := reset_sampled hv hs hN hp hd
  exact ⟨d, hd, _, rec, lineQubits_length hv, h1, h2, h3⟩

/-- C77: for a given size, style, noise and number of sub-rounds, the least number of errors of the noise channels that, with no detector
firing, flip the observable of the circuit for "V" or of the circuit for "H" lies between half of the reported `code_distance` and
the reported `code_distance`. -/
theorem c77_between (lay : HoneycombLayout) (hv : lay.Valid) (hs : lay.Supported) (hp : 0 < lay.noise) :
    ∃ n : Nat, lay.code_distance_1qdep ≤ 2 * n ∧ (n : Int) ≤ lay.code_distance_1qdep ∧
      IsLeast {n : Nat | ∃ obs ∈ ["V", "H"], ∃ d rec, ({ lay with obs := obs } : HoneycombLayout).makeCircuit = .ok d ∧
        CanSample n d.flatten rec ∧ (∀ v ∈ detectorValues d.flatten rec, v = some 0) ∧
        observableValue (if obs = "V" then 0 else 1) d.flatten rec ≠ some 0} n := by
  classical
  have hvo : ∀ o, ({ lay with obs := o } : HoneycombLayout).Valid := fun o => ⟨hv.1, hv.2, hv.3, hv.4⟩
  have hso : ∀ o ∈ ["V", "H"], ({ lay with obs := o } : HoneycombLayout).Supported := fun o ho => ⟨hs.1, by simpa using ho, hs.2.2⟩
  obtain ⟨d1, e1, n1, r1, l1, a1, b1, c1⟩ := c77_undetected_flip _ (hvo "V") (hso "V" (by simp)) hp
  obtain ⟨d2, e2, n2, r2, l2, a2, b2, c2⟩ := c77_undetected_flip _ (hvo "H") (hso "H" (by simp)) hp
  simp only [if_true, show ¬ ("H" = "V") by decide, if_false] at l1 l2 c1 c2
  obtain ⟨P, hP⟩ : ∃ P : Nat → Prop, P = fun n => ∃ obs ∈ ["V", "H"], ∃ d rec, ({ lay with obs := obs } : HoneycombLayout).makeCircuit = .ok d ∧
    CanSample n d.flatten rec ∧ (∀ v ∈ detectorValues d.flatten rec, v = some 0) ∧
    observableValue (if obs = "V" then 0 else 1) d.flatten rec ≠ some 0 := ⟨_, rfl⟩
  have p1 : P n1 := by rw [hP]; exact ⟨"V", by simp, d1, r1, e1, a1, b1, by rw [if_pos rfl, c1]; decide⟩
  have p2 : P n2 := by rw [hP]; exact ⟨"H", by simp, d2, r2, e2, a2, b2, by rw [if_neg (by decide), c2]; decide⟩
  have hmin := Nat.find_spec (⟨n1, p1⟩ : ∃ n, P n)
  have h1 := Nat.find_min' (⟨n1, p1⟩ : ∃ n, P n) p1
  have h2 := Nat.find_min' (⟨n1, p1⟩ : ∃ n, P n) p2
  refine ⟨Nat.find (⟨n1, p1⟩ : ∃ n, P n), ?_, by rw [code_distance_1qdep, ← l1, ← l2]; omega, ?_⟩
  · obtain ⟨m, hm⟩ : ∃ m, Nat.find (⟨n1, p1⟩ : ∃ n, P n) = m := ⟨_, rfl⟩
    rw [hm] at hmin ⊢
    rw [hP] at hmin
    obtain ⟨o, ho, d, rec, hd, hr, hdet, hobs⟩ := hmin
    obtain ⟨d', hd', h⟩ := c76_observable_distance _ (hvo o) (hso o ho)
    rw [hd] at hd'
    obtain rfl := Except.ok.inj hd'
    have := h m rec hr hdet hobs
    rw [code_distance_1qdep]
    simp only at this
    split_ifs at this <;> omega
  · rw [← hP]
    exact ⟨hmin, fun m hm => Nat.find_min' _ hm⟩

/-- C78, one value per observable: with noise and the direct parity measurements of "EM3" and "EM3_v2" the bounds of C76 are exact. The least
number of errors of the noise channels that, with no detector firing, flip the layout's observable is half of `data_width` ("V", at
least two sub-rounds), a third of `data_height` ("H"). -/
theorem c78_observable_distance_exact (lay : HoneycombLayout) (hv : lay.Valid) (hs : lay.Supported) (hst : lay.style = "EM3" ∨ lay.style = "EM3_v2")
    (hp : 0 < lay.noise) (hr : lay.obs = "V" → 2 ≤ lay.sub_rounds) :
    ∃ d, lay.makeCircuit = .ok d ∧ ∃ n : Nat, (if lay.obs = "V" then 2 * (n : Int) = lay.data_width else 3 * (n : Int) = lay.data_height) ∧
      IsLeast {n : Nat | ∃ rec, CanSample n d.flatten rec ∧ (∀ v ∈ detectorValues d.flatten rec, v = some 0) ∧
        observableValue (if lay.obs = "V" then 0 else 1) d.flatten rec ≠ some 0} n := by
  obtain ⟨N, hN⟩ := Int.eq_ofNat_of_zero_le (show 0 ≤ lay.sub_rounds by have := hs.2.2.1; omega)
  obtain ⟨d, hd, h⟩ := c76_observable_distance lay hv hs
  obtain ⟨rec, h1, h2, h3⟩ := edges_sampled hv hs (by simpa [isEM3] using hst) hN hp (by
    have := hs.2.2.1
    rw [lineRound]
    split_ifs with hV
    · have := hr hV; omega
    · omega) hd
  have hl := lineQubits_length hv
  have he := lineEdges_length hv
  have hh := hv.height_six
  have hn : if lay.obs = "V" then 2 * (lay.lineEdges.length : Int) = lay.data_width else 3 * (lay.lineEdges.length : Int) = lay.data_height := by
    split_ifs at hl ⊢ <;> omega
  refine ⟨d, hd, lay.lineEdges.length, hn, ⟨rec, h1, h2, by
    rw [show observableValue (if lay.obs = "V" then 0 else 1) d.flatten rec = some 1 from h3]; decide⟩, ?_⟩
  rintro m ⟨rec', hr', hdet, hobs⟩
  have := h m rec' hr' hdet hobs
  split_ifs at this hn <;> omega

/-- C78: with noise, "EM3" or "EM3_v2" and at least two sub-rounds, exactly half of the reported `code_distance` errors of the noise
channels are needed to flip the observable of the circuit for "V" or of the circuit for "H" with no detector firing. -/
theorem c78_circuit_distance_exact (lay : HoneycombLayout) (hv : lay.Valid) (hs : lay.Supported) (hst : lay.style = "EM3" ∨ lay.style = "EM3_v2")
    (hp : 0 < lay.noise) (hr : 2 ≤ lay.sub_rounds) :
    ∃ n : Nat, 2 * (n : Int) = lay.code_distance_1qdep ∧
      IsLeast {n : Nat | ∃ obs ∈ ["V", "H"], ∃ d rec, ({ lay with obs := obs } : HoneycombLayout).makeCircuit = .ok d ∧
        CanSample n d.flatten rec ∧ (∀ v ∈ detectorValues d.flatten rec, v = some 0) ∧
        observableValue (if obs = "V" then 0 else 1) d.flatten rec ≠ some 0} n := by
  have hvo : ∀ o, ({ lay with obs := o } : HoneycombLayout).Valid := fun o => ⟨hv.1, hv.2, hv.3, hv.4⟩
  have hso : ∀ o ∈ ["V", "H"], ({ lay with obs := o } : HoneycombLayout).Supported := fun o ho => ⟨hs.1, by simpa using ho, hs.2.2⟩
  obtain ⟨d1, e1, n1, l1, ⟨r1, a1, b1, c1⟩, m1⟩ := c78_observable_distance_exact _ (hvo "V") (hso "V" (by simp)) hst hp (fun _ => hr)
  obtain ⟨d2, e2, n2, l2, ⟨r2, a2, b2, c2⟩, m2⟩ := c78_observable_distance_exact _ (hvo "H") (hso "H" (by simp)) hst hp (fun _ => hr)
  simp only [if_true, show ¬ ("H" = "V") by decide, if_false] at l1 l2 c1 c2 m1 m2
  refine ⟨min n1 n2, by rw [code_distance_1qdep]; omega, ?_, ?_⟩
  · rcases Nat.le_total n1 n2 with h | h
    · rw [Nat.min_eq_left h]
      exact ⟨"V", by simp, d1, r1, e1, a1, b1, by rw [if_pos rfl]; exact c1⟩
    · rw [Nat.min_eq_right h]
      exact ⟨"H", by simp, d2, r2, e2, a2, b2, by rw [if_neg (by decide)]; exact c2⟩
  · rintro m ⟨o, ho, d, rec, hd, hr, hdet, hobs⟩
    simp only [List.mem_cons, List.not_mem_nil, or_false] at ho
    rcases ho with rfl | rfl
    · obtain rfl := Except.ok.inj (e1.symm.trans hd)
      exact (Nat.min_le_left _ _).trans (m1 ⟨rec, hr, hdet, by rw [if_pos rfl] at hobs; exact hobs⟩)
    · obtain rfl := Except.ok.inj (e2.symm.trans hd)
      exact (Nat.min_le_right _ _).trans (m2 ⟨rec, hr, hdet, by rw [if_neg (by decide)] at hobs; exact hobs⟩)

/-! ## Examples -/

/-- The hypotheses of C73, C76, C77 and C78: a noisy layout of width 4 and height 6 in style "EM3_v2". Two errors flip the observable of "V"
undetected, the bound of C76. -/
example : ∃ d rec, HoneycombLayout.makeCircuit ⟨4, 6, 40, "EM3_v2", "V", 1/1000⟩ = .ok d ∧ CanSample 2 d.flatten rec ∧
    (∀ v ∈ detectorValues d.flatten rec, v = some 0) ∧ observableValue 0 d.flatten rec ≠ some 0 := by
  obtain ⟨d, hd, n, hn, ⟨rec, h1, h2, h3⟩, -⟩ := c78_observable_distance_exact ⟨4, 6, 40, "EM3_v2", "V", 1/1000⟩ (by constructor <;> decide)
    (by refine ⟨?_, ?_, ?_, ?_⟩ <;> simp) (.inr rfl) (by norm_num) (fun _ => by norm_num)
  simp only [if_true] at hn h3
  obtain rfl : n = 2 := by omega
  exact ⟨d, rec, hd, h1, h2, h3⟩

/-- The hypotheses of C77 in a style with ancillas: four errors. -/
example : ∃ d rec, HoneycombLayout.makeCircuit ⟨4, 6, 40, "SD6", "H", 1/1000⟩ = .ok d ∧ CanSample 4 d.flatten rec ∧
    (∀ v ∈ detectorValues d.flatten rec, v = some 0) ∧ observableValue 1 d.flatten rec = some 1 := by
  obtain ⟨d, hd, n, rec, hn, h1, h2, h3⟩ := c77_undetected_flip ⟨4, 6, 40, "SD6", "H", 1/1000⟩ (by constructor <;> decide)
    (by refine ⟨?_, ?_, ?_, ?_⟩ <;> simp) (by norm_num)
  simp only [show ¬ ("H" = "V") by decide, if_false] at hn h3
  obtain rfl : n = 4 := by omega
  exact ⟨d, rec, hd, h1, h2, h3⟩

/-- The hypotheses of C74 and C75: damage everywhere can flip the observable undetected. -/
example : ∃ d rec, HoneycombLayout.makeCircuit ⟨4, 6, 40, "SD6", "V", 1/1000⟩ = .ok d ∧
    HoneycombLayout.DamagedRecord ⟨4, 6, 40, "SD6", "V", 1/1000⟩ (fun _ => True) d.flatten rec ∧
    (∀ v ∈ detectorValues d.flatten rec, v = some 0) ∧ observableValue 0 d.flatten rec ≠ some 0 := by
  obtain ⟨d, hd, n, rec, hn, h1, h2, h3⟩ := c69_observable_distance_attained ⟨4, 6, 40, "SD6", "V", 1/1000⟩ (by constructor <;> decide)
    (by refine ⟨?_, ?_, ?_, ?_⟩ <;> simp)
  refine ⟨d, rec, hd, ⟨n, rec, ?_, rfl, fun t h => absurd rfl h⟩, h2, by
    rw [show observableValue 0 d.flatten rec = some 1 from h3]; decide⟩
  obtain ⟨F, F', hF, hr⟩ := h1
  refine ⟨F, F', hF, hr.mono fun q hq => ?_⟩
  obtain ⟨p, hp, rfl⟩ := List.mem_map.1 hq
  exact .inl ⟨p, hp, trivial, rfl⟩

end Honeycomb
