import Verif.Props.Components
import Verif.Props.Attained

/-!
# Which detection events can happen (C108)

`detectionBits d rec` (`Spec/Correct.lean`) says for every detector whether it fires in a sample, `observableValue` whether the logical observable is
flipped. `lay.finalHalf` (`Spec/Components.lean`) are the detectors in the final layer and in every other layer before it.
-/

namespace Honeycomb
open HoneycombLayout

variable {lay : HoneycombLayout} {d : Circuit} {f g : Nat → ZMod 2}

/-- Some errors give the detectors the values `f`. -/
def Attains (d : Circuit) (f : Nat → ZMod 2) : Prop :=
  ∃ n rec, CanSample n d.flatten rec ∧ ∀ y < d.num_detectors, (detectorValues d.flatten rec)[y]? = some (some (f y))

theorem Attains.add (h : Attains d f) (h' : Attains d g) : Attains d (f + g) := by
  obtain ⟨n, r, a, b⟩ := h
  obtain ⟨n', r', a', b'⟩ := h'
  refine ⟨_, _, a.sum a', fun y hy => ?_⟩
  rw [detectorValues_add, List.getElem?_zipWith, b y hy, b' y hy]
  rfl

theorem Attains.congr (h : Attains d f) (e : ∀ y < d.num_detectors, f y = g y) : Attains d g := by
  obtain ⟨n, r, a, b⟩ := h
  exact ⟨n, r, a, fun y hy => by rw [b y hy, e y hy]⟩

theorem attains_of_bits (hv : lay.Valid) (hs : lay.Supported) (hd : lay.makeCircuit = .ok d) {n : Nat} {rec : List (ZMod 2)} (hr : CanSample n d.flatten rec)
    {y : Nat} (hy : y < d.num_detectors) {b : ZMod 2} (hb : (detectionBits d rec)[y]? = some true ↔ b = 1) :
    (detectorValues d.flatten rec)[y]? = some (some b) := by
  have hlt : y < (detectorValues d.flatten rec).length := by rw [detectorValues_length]; exact hy
  have hm := (sample_defined hv hs hd hr).1 _ (List.getElem_mem hlt)
  rw [detectionBits, List.getElem?_map, List.getElem?_eq_getElem hlt] at hb
  rw [List.getElem?_eq_getElem hlt]
  obtain ⟨v, e⟩ := Option.isSome_iff_exists.1 hm
  have key : ∀ v b : ZMod 2, (v = 1 ↔ b = 1) → v = b := by decide
  rw [e] at hb ⊢
  simp only [Option.map_some, Option.some.injEq, decide_eq_true_eq] at hb
  rw [key v b hb]

theorem attains_zero (hv : lay.Valid) (hs : lay.Supported) (hd : lay.makeCircuit = .ok d) (hw : ∃ n rec, CanSample n d.flatten rec) : Attains d 0 := by
  obtain ⟨n, rec, hr⟩ := hw
  have : Attains d (fun y => (((detectorValues d.flatten rec)[y]?).getD none).getD 0) := ⟨n, rec, hr, fun y hy => by
    have hlt : y < (detectorValues d.flatten rec).length := by rw [detectorValues_length]; exact hy
    have hm := (sample_defined hv hs hd hr).1 _ (List.getElem_mem hlt)
    obtain ⟨v, e⟩ := Option.isSome_iff_exists.1 hm
    simp only [List.getElem?_eq_getElem hlt, Option.getD_some, e]⟩
  refine (this.add this).congr fun y _ => ?_
  exact (by decide : ∀ a : ZMod 2, a + a = 0) _

/-- The two ends of a way along edges can fire together. -/
theorem attains_connected (hv : lay.Valid) (hs : lay.Supported) (hd : lay.makeCircuit = .ok d) {m : Dem} (hm : ErrorModelOf d m) (hw : ∃ n rec, CanSample n d.flatten rec)
    {gr : NxGraph} (hg : demToNxGraph m = .ok gr) {u v : Nat} (h : gr.Connected u v) :
    Attains d (fun y => (if y = u then 1 else 0) + if y = v then 1 else 0) := by
  have h2 : ∀ e ∈ m.mechanisms, e.p ≠ 0 → e.dets.length ≤ 2 := fun e he h0 => (hm.two e he h0).2
  obtain ⟨g', hg', hedge, -⟩ := c35_graph m hm.coords hm.prob h2
  obtain rfl := Except.ok.inj (hg.symm.trans hg')
  have self : ∀ a : ZMod 2, a + a = 0 := by decide
  induction h with
  | refl => exact (attains_zero hv hs hd hw).congr fun y _ => (self _).symm
  | @tail b c _ hbc ih =>
    have step : Attains d (fun y => (if y = b then 1 else 0) + if y = c then 1 else 0) := by
      obtain ⟨e, he⟩ := List.exists_mem_of_ne_nil _ ((hedge b c).1 hbc)
      rw [Dem.between, List.mem_filter, decide_eq_true_iff] at he
      obtain ⟨he, h0, hc⟩ := he
      obtain ⟨rec, hr, hsym, -⟩ := hm.sound e he h0
      have hnd := (hm.two e he h0).1
      refine ⟨1, rec, hr, fun y hy => attains_of_bits hv hs hd hr hy ?_⟩
      rw [← hsym y]
      rw [Mechanism.connects, hm.detectors] at hc
      have key : ∀ (p q : Prop) [Decidable p] [Decidable q], ¬ (p ∧ q) → (p ∨ q ↔ (if p then (1 : ZMod 2) else 0) + (if q then 1 else 0) = 1) := by
        intro p q _ _ h
        by_cases hp : p <;> by_cases hq : q <;> simp_all
      rcases hc with hc | hc | ⟨hc, hb⟩ | ⟨hc, hb⟩
      · rw [hc] at hnd ⊢
        rw [← key _ _ fun h => by simp [← h.1, ← h.2] at hnd]
        simp
      · rw [hc] at hnd ⊢
        rw [← key _ _ fun h => by simp [← h.1, ← h.2] at hnd]
        simp [or_comm]
      · simp only
        rw [hc, if_neg (show ¬ y = c by omega), add_zero, List.mem_singleton]
        by_cases h : y = b <;> simp [h]
      · simp only
        rw [hc, if_neg (show ¬ y = b by omega), zero_add, List.mem_singleton]
        by_cases h : y = c <;> simp [h]
    refine (ih.add step).congr fun y _ => ?_
    simp only [Pi.add_apply]
    generalize (if y = u then (1 : ZMod 2) else 0) = p, (if y = b then (1 : ZMod 2) else 0) = q, (if y = c then (1 : ZMod 2) else 0) = r
    revert p q r
    decide

theorem attains_sum {S : Finset Nat} {F : Nat → Nat → ZMod 2} (h0 : Attains d 0) (h : ∀ x ∈ S, Attains d (F x)) : Attains d (∑ x ∈ S, F x) := by
  induction S using Finset.induction_on with
  | empty => simpa using h0
  | insert x S hx ih =>
    rw [Finset.sum_insert hx]
    exact (h x (Finset.mem_insert_self _ _)).add (ih fun y hy => h y (Finset.mem_insert_of_mem hy))

/-- C108: with noise, the detection events that can happen are exactly those with an even number of detectors of `lay.finalHalf`. -/
theorem c108_patterns (lay : HoneycombLayout) (hv : lay.Valid) (hs : lay.Supported) (hp : 0 < lay.noise) :
    ∃ d, lay.makeCircuit = .ok d ∧ ∀ bits : List Bool, (∃ n rec, CanSample n d.flatten rec ∧ detectionBits d rec = bits) ↔
      bits.length = d.num_detectors ∧ Even (lay.finalHalf.filter fun i => bits[i]? = some true).card := by
  classical
  obtain ⟨d, hd, he⟩ := c105_even lay hv hs
  refine ⟨d, hd, fun bits => ⟨?_, ?_⟩⟩
  · rintro ⟨n, rec, hr, rfl⟩
    exact ⟨detectionBits_length d rec, he n rec hr⟩
  · rintro ⟨hlen, hev⟩
    obtain ⟨d', hd', hw⟩ := c101_watches lay hv hs hp
    obtain rfl := Except.ok.inj (hd.symm.trans hd')
    obtain ⟨d', hd', hlt, ⟨f0, hf0⟩, -⟩ := c105_sizes lay hv hs
    obtain rfl := Except.ok.inj (hd.symm.trans hd')
    obtain ⟨d', hd', hcon⟩ := c105_components lay hv hs hp
    obtain rfl := Except.ok.inj (hd.symm.trans hd')
    obtain ⟨m, hm, -⟩ := exists_errorModel (1 / 2) (by norm_num) (by norm_num) hw
    obtain ⟨gr, hg, -, hc⟩ := hcon m hm
    have hw' : ∃ n rec, CanSample n d.flatten rec := by
      obtain ⟨rec, hr, -⟩ := hw f0 (hlt f0 hf0)
      exact ⟨1, rec, hr⟩
    have hbd : d.num_detectors ∉ lay.finalHalf := fun h => lt_irrefl _ (hlt _ h)
    set S := (Finset.range d.num_detectors).filter fun i => bits[i]? = some true with hS
    have h0 := attains_zero hv hs hd hw'
    have hsum := attains_sum (S := S) (F := fun x y => (if y = x then 1 else 0) + if y = (if x ∈ lay.finalHalf then f0 else d.num_detectors) then 1 else 0) h0
      fun x hx => by
        have hx' := Finset.mem_range.1 (Finset.mem_filter.1 hx).1
        refine attains_connected hv hs hd hm hw' hg ((hc x _ hx'.le ?_).2 ?_)
        · split_ifs
          · exact (hlt f0 hf0).le
          · exact le_rfl
        · split_ifs with h
          · exact ⟨fun _ => hf0, fun _ => h⟩
          · exact ⟨fun h' => absurd h' h, fun h' => absurd h' hbd⟩
    obtain ⟨n, rec, hr, hval⟩ := hsum
    refine ⟨n, rec, hr, List.ext_getElem? fun y => ?_⟩
    rcases Nat.lt_or_ge y d.num_detectors with hy | hy
    · have hbits : (detectionBits d rec)[y]? = some (decide ((∑ x ∈ S, fun y => (if y = x then (1 : ZMod 2) else 0) +
          if y = (if x ∈ lay.finalHalf then f0 else d.num_detectors) then 1 else 0) y = 1)) := by
        rw [detectionBits, List.getElem?_map, hval y hy]
        simp
      rw [hbits, Finset.sum_apply, Finset.sum_add_distrib, Finset.sum_ite_eq]
      have hz : (∑ x ∈ S, if y = (if x ∈ lay.finalHalf then f0 else d.num_detectors) then (1 : ZMod 2) else 0) = 0 := by
        by_cases hyf : y = f0
        · have : ∀ x ∈ S, (if y = (if x ∈ lay.finalHalf then f0 else d.num_detectors) then (1 : ZMod 2) else 0) = if x ∈ lay.finalHalf then 1 else 0 := by
            intro x _
            split_ifs <;> simp_all
          rw [Finset.sum_congr rfl this, Finset.sum_boole]
          have e : (S.filter fun x => x ∈ lay.finalHalf) = lay.finalHalf.filter fun i => bits[i]? = some true := by
            ext x
            simp only [hS, Finset.mem_filter, Finset.mem_range]
            exact ⟨fun h => ⟨h.2, h.1.2⟩, fun h => ⟨⟨hlt x h.1, h.2⟩, h.1⟩⟩
          rw [e]
          exact (ZMod.natCast_eq_zero_iff_even).2 hev
        · refine Finset.sum_eq_zero fun x _ => if_neg ?_
          split_ifs
          · exact hyf
          · omega
      rw [hz, add_zero]
      have hyb : y < bits.length := by omega
      rw [List.getElem?_eq_getElem hyb]
      have hSy : y ∈ S ↔ bits[y] = true := by rw [hS, Finset.mem_filter, Finset.mem_range, List.getElem?_eq_getElem hyb]; simp [hy]
      by_cases hb : bits[y] = true
      · rw [if_pos (hSy.2 hb), hb]; simp
      · rw [if_neg (fun h => hb (hSy.1 h))]
        simp at hb
        simp [hb]
    · rw [List.getElem?_eq_none (by rw [detectionBits_length]; exact hy), List.getElem?_eq_none (by omega)]

/-- C108: whatever detectors fire, the logical observable can be flipped or not. -/
theorem c108_undecided (lay : HoneycombLayout) (hv : lay.Valid) (hs : lay.Supported) (hp : 0 < lay.noise) :
    ∃ d, lay.makeCircuit = .ok d ∧ ∀ n rec, CanSample n d.flatten rec → ∀ b : ZMod 2, ∃ n' rec', CanSample n' d.flatten rec' ∧
      detectionBits d rec' = detectionBits d rec ∧ observableValue (if lay.obs = "V" then 0 else 1) d.flatten rec' = some b := by
  obtain ⟨d, hd, m, flip, -, h1, h2, h3⟩ := c77_undetected_flip lay hv hs hp
  refine ⟨d, hd, fun n rec hr b => ?_⟩
  obtain ⟨v, hv0⟩ := Option.isSome_iff_exists.1 (sample_defined hv hs hd hr).2
  have e : lay.obsI = if lay.obs = "V" then 0 else 1 := rfl
  rw [e] at hv0
  by_cases hb : v = b
  · exact ⟨n, rec, hr, rfl, by rw [hv0, hb]⟩
  · refine ⟨_, _, hr.sum h1, ?_, ?_⟩
    · rw [detectionBits, detectionBits, detectorValues_add]
      congr 1
      refine List.ext_getElem (by rw [List.length_zipWith, detectorValues_length, detectorValues_length, Nat.min_self]) fun t ht ht' => ?_
      have hlt : t < (detectorValues d.flatten flip).length := by rw [detectorValues_length]; rw [detectorValues_length] at ht'; exact ht'
      rw [List.getElem_zipWith, h2 _ (List.getElem_mem hlt)]
      rcases (detectorValues d.flatten rec)[t] with _ | w
      · rfl
      · exact congrArg some (add_zero w)
    · rw [observableValue_add, hv0, h3]
      exact congrArg some ((by decide : ∀ v b : ZMod 2, v ≠ b → v + 1 = b) v b hb)

/-- C108: of the `2 ^ n` patterns of `n` detectors exactly half can happen. -/
theorem c108_count (lay : HoneycombLayout) (hv : lay.Valid) (hs : lay.Supported) (hp : 0 < lay.noise) :
    ∃ d, lay.makeCircuit = .ok d ∧ 2 * {bits : List Bool | ∃ n rec, CanSample n d.flatten rec ∧ detectionBits d rec = bits}.ncard = 2 ^ d.num_detectors := by
  classical
  obtain ⟨d, hd, h⟩ := c108_patterns lay hv hs hp
  obtain ⟨d', hd', hlt, ⟨f0, hf0⟩, -⟩ := c105_sizes lay hv hs
  obtain rfl := Except.ok.inj (hd.symm.trans hd')
  refine ⟨d, hd, ?_⟩
  set n := d.num_detectors with hn
  -- patterns as vectors
  let par : List Bool → Nat := fun bits => (lay.finalHalf.filter fun i => bits[i]? = some true).card
  let A : Finset (List.Vector Bool n) := Finset.univ.filter fun v => Even (par v.toList)
  let B : Finset (List.Vector Bool n) := Finset.univ.filter fun v => ¬ Even (par v.toList)
  have e1 : {bits : List Bool | ∃ n rec, CanSample n d.flatten rec ∧ detectionBits d rec = bits} = (A.image List.Vector.toList : Finset (List Bool)) := by
    ext bits
    simp only [Set.mem_setOf_eq, h bits, Finset.coe_image, Set.mem_image, Finset.mem_coe]
    constructor
    · rintro ⟨a, b⟩
      exact ⟨⟨bits, a⟩, Finset.mem_filter.2 ⟨Finset.mem_univ _, b⟩, rfl⟩
    · rintro ⟨v, hv, rfl⟩
      exact ⟨v.2, (Finset.mem_filter.1 hv).2⟩
  have toggle : ∀ v : List.Vector Bool n, ∃ w : List.Vector Bool n, w = ⟨v.toList.modify f0 (! ·), by rw [List.length_modify]; exact v.2⟩ := fun v => ⟨_, rfl⟩
  choose tg htg using toggle
  have tgl : ∀ v, (tg v).toList = v.toList.modify f0 (! ·) := fun v => by rw [htg]; rfl
  have tg2 : ∀ v, tg (tg v) = v := fun v => by
    apply List.Vector.eq
    rw [tgl, tgl, List.modify_modify_eq]
    conv_rhs => rw [← List.modify_id f0 v.toList]
    congr 1
    funext b
    simp
  have hf : f0 < n := hlt f0 hf0
  have flips : ∀ v : List.Vector Bool n, Even (par (tg v).toList) ↔ ¬ Even (par v.toList) := fun v => by
    have hlen : v.toList.length = n := v.2
    have hrest : ∀ i, i ≠ f0 → (tg v).toList[i]? = v.toList[i]? := fun i hi => by
      have : f0 ≠ i := fun e => hi e.symm
      simp [tgl, List.getElem?_modify, this]
    have hat : (tg v).toList[f0]? = some true ↔ ¬ v.toList[f0]? = some true := by
      have : f0 < v.toList.length := by omega
      rw [tgl, List.getElem?_modify, List.getElem?_eq_getElem this]
      cases v.toList[f0] <;> simp
    have split : ∀ bits : List Bool, par bits = ((lay.finalHalf.erase f0).filter fun i => bits[i]? = some true).card + if bits[f0]? = some true then 1 else 0 := by
      intro bits
      show (lay.finalHalf.filter _).card = _
      conv_lhs => rw [← Finset.insert_erase hf0, Finset.filter_insert]
      split_ifs with hb
      · rw [Finset.card_insert_of_notMem (by simp)]
      · rfl
    rw [split, split]
    have : ((lay.finalHalf.erase f0).filter fun i => (tg v).toList[i]? = some true) = (lay.finalHalf.erase f0).filter fun i => v.toList[i]? = some true :=
      Finset.filter_congr fun i hi => by rw [hrest i (Finset.ne_of_mem_erase hi)]
    rw [this]
    by_cases hb : v.toList[f0]? = some true
    · rw [if_neg (by rw [hat]; exact not_not.2 hb), if_pos hb, add_zero, Nat.even_add_one, not_not]
    · rw [if_pos (hat.2 hb), if_neg hb, add_zero, Nat.even_add_one]
  have hAB : A.card = B.card := Finset.card_bij' (fun v _ => tg v) (fun v _ => tg v)
    (fun v hv => Finset.mem_filter.2 ⟨Finset.mem_univ _, fun hc => (flips v).1 hc (Finset.mem_filter.1 hv).2⟩)
    (fun v hv => Finset.mem_filter.2 ⟨Finset.mem_univ _, (flips v).2 (Finset.mem_filter.1 hv).2⟩)
    (fun v _ => tg2 v) (fun v _ => tg2 v)
  have hsum : A.card + B.card = 2 ^ n := by
    rw [Finset.card_filter_add_card_filter_not, Finset.card_univ, card_vector, Fintype.card_bool]
  rw [e1, Set.ncard_coe_finset, Finset.card_image_of_injective _ (fun v w e => List.Vector.eq _ _ e)]
  omega

/-- The hypotheses of C108 are met: of the detection events of a circuit with 32 detectors, in which half of the patterns can happen, a
single error fires detector 31, and other errors fire the same detectors with the other value of the observable. -/
example : ∃ d, HoneycombLayout.makeCircuit ⟨4, 6, 6, "SD6", "V", 1/1000⟩ = .ok d ∧ d.num_detectors = 32 ∧
    {bits : List Bool | ∃ n rec, CanSample n d.flatten rec ∧ detectionBits d rec = bits}.ncard = 2 ^ 31 ∧
    ∃ rec, CanSample 1 d.flatten rec ∧ (detectorValues d.flatten rec)[31]? = some (some 1) ∧ ∀ b, ∃ n' rec', CanSample n' d.flatten rec' ∧
      detectionBits d rec' = detectionBits d rec ∧ observableValue 0 d.flatten rec' = some b := by
  have hv : HoneycombLayout.Valid ⟨4, 6, 6, "SD6", "V", 1/1000⟩ := by constructor <;> decide
  have hs : HoneycombLayout.Supported ⟨4, 6, 6, "SD6", "V", 1/1000⟩ := by refine ⟨?_, ?_, ?_, ?_⟩ <;> simp
  obtain ⟨d, hd, h⟩ := c108_count _ hv hs (by norm_num)
  obtain ⟨d', hd', h'⟩ := c22_detectors _ hv hs
  obtain rfl := Except.ok.inj (hd.symm.trans hd')
  obtain ⟨d', hd', hw⟩ := c101_watches _ hv hs (by norm_num)
  obtain rfl := Except.ok.inj (hd.symm.trans hd')
  obtain ⟨d', hd', hu⟩ := c108_undecided _ hv hs (by norm_num)
  obtain rfl := Except.ok.inj (hd.symm.trans hd')
  have h32 : d.num_detectors = 32 := by simp at h'; omega
  obtain ⟨rec, a, b, -⟩ := hw 31 (by omega)
  refine ⟨d, hd, h32, ?_, rec, a, b, fun v => by simpa using hu 1 rec a v⟩
  rw [h32] at h
  omega

end Honeycomb
