import Verif.Lemmas.Tokens
import Verif.Lemmas.MatchingWalk
import Verif.Props.Sampling
import Verif.Lemmas.SlotSites
import Verif.Lemmas.SimpleModel
import Verif.Spec.Analysis

/-!
# How likely the edges of the matching graph are

Few errors fire a given detector, so few lines of an error model fire it, and each of them is about as likely as one error.
-/

namespace Honeycomb
open scoped ENNReal
open HoneycombLayout

theorem probOdd_small (ps : List Rat) (h : ∀ p ∈ ps, 0 ≤ p ∧ p ≤ 1 / 2) :
    0 ≤ probOdd ps ∧ probOdd ps ≤ 1 / 2 ∧ probOdd ps ≤ ps.sum ∧ ∀ p ∈ ps, p ≤ probOdd ps := by
  induction ps with
  | nil => simp [probOdd_nil]
  | cons p ps ih =>
    obtain ⟨h1, h2⟩ := h p (by simp)
    obtain ⟨i1, i2, i3, i4⟩ := ih fun q hq => h q (by simp [hq])
    rw [probOdd_cons, List.sum_cons]
    have a1 := mul_nonneg h1 i1
    have a2 := mul_nonneg i1 (by linarith : 0 ≤ 1 - 2 * p)
    have a3 := mul_nonneg h1 (by linarith : 0 ≤ 1 - 2 * probOdd ps)
    have a4 := mul_nonneg (by linarith : 0 ≤ 1 - 2 * p) (by linarith : 0 ≤ 1 - 2 * probOdd ps)
    refine ⟨by linarith, by linarith, by linarith, fun q hq => ?_⟩
    rcases List.mem_cons.1 hq with rfl | hq
    · linarith
    · linarith [i4 q hq]

variable {d : Circuit} {a : Nat} {rec : List (ZMod 2)} {lay : HoneycombLayout} {N : Nat}

theorem HitAt.at (h : HitAt d a rec) : SampleAt d.flatten [a] rec := by
  obtain ⟨F, hits, hF, hm, hb⟩ := h
  obtain ⟨G, hG⟩ := sampleCircuit_placed _ hm
  have e : trues hits = [a] := List.perm_singleton.1 ((List.perm_ext_iff_of_nodup (trues_nodup _) (List.nodup_singleton a)).2 fun b => by
    rw [mem_trues, hb, List.mem_singleton])
  rw [e] at hG
  exact ⟨F, G, hF, hG⟩

theorem PlacedRuns.chance {F F' : Frame} {l : List Instr} {H : List Nat} (h : PlacedRuns F l rec F' H) :
    ∀ a ∈ H, ∃ i ∈ l, (placeChances l)[a]? = some i.chance ∧ 0 < i.places := by
  have cons : ∀ (i : Instr) (l : List Instr), placeChances (i :: l) = List.replicate i.slots i.chance ++ placeChances l := fun i l => rfl
  induction h with
  | nil F => simp
  | @step F F1 F' i l r1 r2 H h1 _ ih =>
    intro a ha
    obtain ⟨k, hk, rfl⟩ := List.mem_map.1 ha
    obtain ⟨j, hj, e, hp⟩ := ih k hk
    refine ⟨j, List.mem_cons_of_mem _ hj, ?_, hp⟩
    rw [cons, List.getElem?_append_right (by simp), List.length_replicate, Nat.add_sub_cancel, e]
  | @error F F' i l rec H E s P ha hE hP _ ih =>
    intro a hm
    rcases List.mem_cons.1 hm with rfl | hm
    · have hs := (List.getElem?_eq_some_iff.1 hE).1
      refine ⟨i, by simp, ?_, ?_⟩
      · rw [cons, List.getElem?_append_left (by rw [List.length_replicate, Instr.slots]; omega), List.getElem?_replicate, if_pos (by rw [Instr.slots]; omega)]
      · rw [Instr.places, if_neg (by obtain ⟨x, hx, -⟩ := ha; exact List.ne_nil_of_mem hx), ← errors_length]
        omega
    · exact ih a hm
  | @flip F F' i l rec H t ha ht _ ih =>
    intro a hm
    rcases List.mem_cons.1 hm with rfl | hm
    · refine ⟨i, by simp, ?_, ?_⟩
      · rw [cons, List.getElem?_append_left (by rw [List.length_replicate, Instr.slots]; omega), List.getElem?_replicate, if_pos (by rw [Instr.slots]; omega)]
      · rw [Instr.places, if_neg (by obtain ⟨x, hx, -⟩ := ha; exact List.ne_nil_of_mem hx)]
        omega
    · exact ih a hm

/-- The places that can fire the detector `w` are few. -/
theorem firing_places (hv : lay.Valid) (hs : lay.Supported) (hN : lay.sub_rounds = N) (hd : lay.makeCircuit = .ok d) {r Δ : Nat} (hr : r = 48)
    (hΔ : Δ = 2 * ((2 * r + 1) ^ 2 * 25920)) (w : Nat) :
    ∃ X : Finset Nat, X.card ≤ Δ ∧ ∀ a rec, SampleAt d.flatten [a] rec → fired d.flatten rec w ≠ 0 → a ∈ X := by
  classical
  set M := (d.flatten.map Instr.slots).sum with hM
  set X := (Finset.range M).filter fun a => ∃ rec, SampleAt d.flatten [a] rec ∧ fired d.flatten rec w ≠ 0 with hX
  refine ⟨X, ?_, fun a rec h1 h2 => ?_⟩
  · rcases X.eq_empty_or_nonempty with h | ⟨a, ha⟩
    · rw [h]; simp
    · obtain ⟨-, ra, h1, h2⟩ := Finset.mem_filter.1 ha
      rw [hΔ]
      refine (Finset.card_le_card fun b hb => ?_).trans (share_bound hv hs hN hd hr a M)
      obtain ⟨hbM, rb, h3, h4⟩ := Finset.mem_filter.1 hb
      exact Finset.mem_filter.2 ⟨hbM, ra, rb, w, h1, h3, h2, h4⟩
  · obtain ⟨F, F', hF, h⟩ := h1
    exact Finset.mem_filter.2 ⟨Finset.mem_range.2 (h.lt a (by simp)), rec, ⟨F, F', hF, h⟩, h2⟩

theorem sum_card_le {lines : List ErrorLine} (hd : lines.Pairwise fun line line' => Disjoint line.causes line'.causes) : ∀ {X : Finset (Nat × Nat)},
    (∀ line ∈ lines, line.causes ⊆ X) → (lines.map fun line => line.causes.card).sum ≤ X.card := by
  classical
  induction hd with
  | nil => simp
  | @cons line lines h1 _ ih =>
    intro X hX
    rw [List.map_cons, List.sum_cons]
    have h2 := ih (X := X \ line.causes) fun line' h' => Finset.subset_sdiff.2 ⟨hX line' (List.mem_cons_of_mem _ h'), (h1 line' h').symm⟩
    rw [Finset.card_sdiff_of_subset (hX line (by simp))] at h2
    have h3 := Finset.card_le_card (hX line (by simp))
    omega

theorem part_sum (w : Nat) {p : Rat} (hp : 0 ≤ p) : ∀ parts : List (List Nat × List Nat), (parts.flatMap Prod.fst).Nodup →
    (parts.map fun x => if w ∈ x.1 then p else 0).sum ≤ if w ∈ parts.flatMap Prod.fst then p else 0
  | [], _ => by simp
  | x :: parts, h => by
    rw [List.flatMap_cons, List.nodup_append] at h
    have ih := part_sum w hp parts h.2.1
    rw [List.map_cons, List.sum_cons, List.flatMap_cons]
    by_cases h1 : w ∈ x.1
    · have h2 : w ∉ parts.flatMap Prod.fst := fun h2 => h.2.2 w h1 w h2 rfl
      rw [if_neg h2] at ih
      rw [if_pos h1, if_pos (List.mem_append_left _ h1)]
      linarith
    · rw [if_neg h1, zero_add]
      refine ih.trans ?_
      by_cases h2 : w ∈ parts.flatMap Prod.fst
      · rw [if_pos h2, if_pos (List.mem_append_right _ h2)]
      · rw [if_neg h2, if_neg (by simp only [List.mem_append]; tauto)]

theorem sum_filter_map {α : Type} (f : α → Rat) (P : α → Bool) : ∀ l : List α, ((l.filter P).map f).sum = (l.map fun x => if P x then f x else 0).sum
  | [] => rfl
  | x :: l => by
    rw [List.filter_cons, List.map_cons, List.sum_cons]
    cases P x <;> simp [sum_filter_map f P l]

theorem sum_flatMap_map {α β : Type} (f : β → Rat) (g : α → List β) : ∀ l : List α, ((l.flatMap g).map f).sum = (l.map fun x => ((g x).map f).sum).sum
  | [] => rfl
  | x :: l => by rw [List.flatMap_cons, List.map_append, List.sum_append, sum_flatMap_map f g l, List.map_cons, List.sum_cons]

/-- The probability of a line. -/
theorem line_probability (hv : lay.Valid) (hs : lay.Supported) (hp0 : 0 < lay.noise) (hp : lay.noise ≤ 1) (hd : lay.makeCircuit = .ok d) {m : Dem} {lines : List ErrorLine}
    (h : AnalysisOf d m lines) (hw : lay.worst ≤ 1 / 2) {line : ErrorLine} (hl : line ∈ lines) :
    lay.worst / 5000 ≤ line.p ∧ line.p ≤ 1 / 2 ∧ line.p ≤ line.causes.card * lay.worst := by
  have hw0 : 0 < lay.worst := by rw [worst]; split_ifs <;> linarith
  obtain ⟨P, e, hP⟩ := h.chance line hl
  have hb : ∀ a ∈ line.causes, lay.worst / 5000 ≤ P a ∧ P a ≤ lay.worst := fun a ha => by
    obtain ⟨-, rec, hr, -⟩ := h.fires line hl a ha
    obtain ⟨F, F', hF, hr⟩ := hr.at
    obtain ⟨i, hi, hc, hpl⟩ := hr.chance a.1 (by simp)
    obtain ⟨c0, c1, c2⟩ := chance_between hv hs hp hd i hi hpl
    obtain ⟨b1, b2⟩ := hP a ha _ hc
    have k2 : P a ≤ lay.worst := by
      have := (ENNReal.ofReal_le_ofReal_iff (by exact_mod_cast hw0.le)).1 (b2.trans c1)
      exact_mod_cast this
    refine ⟨?_, k2⟩
    have h5 : ENNReal.ofReal ((lay.worst : ℝ) / 5000) ≤ ENNReal.ofReal (P a) := by
      refine le_trans ?_ b1
      rw [show (lay.worst : ℝ) / 5000 = lay.worst / 50 / 100 by ring, ENNReal.ofReal_div_of_pos (by norm_num)]
      simp only [ENNReal.ofReal_ofNat]
      exact ENNReal.div_le_div_right c2 _
    have hpos : 0 < (lay.worst : ℝ) / 5000 := by
      have : (0 : ℝ) < lay.worst := by exact_mod_cast hw0
      positivity
    have h6 := (ENNReal.ofReal_le_ofReal_iff' ).1 h5
    rcases h6 with h6 | h6
    · have h7 : ((lay.worst / 5000 : Rat) : ℝ) ≤ P a := by push_cast; exact h6
      exact_mod_cast h7
    · linarith
  have hmem : ∀ p ∈ line.causes.toList.map P, 0 ≤ p ∧ p ≤ 1 / 2 := fun p hp => by
    obtain ⟨a, ha, rfl⟩ := List.mem_map.1 hp
    obtain ⟨b1, b2⟩ := hb a (Finset.mem_toList.1 ha)
    exact ⟨le_trans (by positivity) b1, b2.trans hw⟩
  obtain ⟨-, s2, s3, s4⟩ := probOdd_small _ hmem
  rw [← e] at s2 s3 s4
  obtain ⟨a, ha⟩ := h.caused line hl
  refine ⟨(hb a ha).1.trans (s4 _ (List.mem_map_of_mem (Finset.mem_toList.2 ha))), s2, s3.trans ?_⟩
  have := List.sum_le_card_nsmul (line.causes.toList.map P) lay.worst fun p hp => by
    obtain ⟨a, ha, rfl⟩ := List.mem_map.1 hp
    exact (hb a (Finset.mem_toList.1 ha)).2
  rw [List.length_map, Finset.length_toList, nsmul_eq_mul] at this
  exact this

/-- The probabilities of the components that connect two nodes. -/
theorem between_probability (hv : lay.Valid) (hs : lay.Supported) (hp0 : 0 < lay.noise) (hp : lay.noise ≤ 1) (hd : lay.makeCircuit = .ok d) {m : Dem}
    {lines : List ErrorLine} (h : AnalysisOf d m lines) (hw : lay.worst ≤ 1 / 2) {r Δ : Nat} (hr : r = 48) (hΔ : Δ = 2 * ((2 * r + 1) ^ 2 * 25920))
    {u v : Nat} (hne : m.between u v ≠ []) :
    lay.worst / 5000 ≤ probOdd ((m.between u v).map Mechanism.p) ∧ probOdd ((m.between u v).map Mechanism.p) ≤ 15 * Δ * lay.worst := by
  classical
  obtain ⟨N, hN⟩ := Int.eq_ofNat_of_zero_le (show 0 ≤ lay.sub_rounds by have := hs.2.2.1; omega)
  have hw0 : 0 < lay.worst := by rw [worst]; split_ifs <;> linarith
  have hline := fun line hl => line_probability hv hs hp0 hp hd h hw (line := line) hl
  have hmem : ∀ e ∈ m.mechanisms, lay.worst / 5000 ≤ e.p ∧ e.p ≤ 1 / 2 := fun e he => by
    rw [h.mechanisms, List.mem_flatMap] at he
    obtain ⟨line, hl, he⟩ := he
    obtain ⟨x, -, rfl⟩ := List.mem_map.1 he
    exact ⟨(hline line hl).1, (hline line hl).2.1⟩
  obtain ⟨-, -, s3, s4⟩ := probOdd_small ((m.between u v).map Mechanism.p) fun p hp => by
    obtain ⟨e, he, rfl⟩ := List.mem_map.1 hp
    obtain ⟨b1, b2⟩ := hmem e (List.mem_filter.1 he).1
    exact ⟨le_trans (by positivity) b1, b2⟩
  obtain ⟨e0, he0⟩ := List.exists_mem_of_ne_nil _ hne
  refine ⟨(hmem e0 (List.mem_filter.1 he0).1).1.trans (s4 _ (List.mem_map_of_mem he0)), s3.trans ?_⟩
  have hlt : ∀ e ∈ m.mechanisms, e.p ≠ 0 → ∀ x ∈ e.dets, x < m.num_detectors := fun e he h0 x hx => by
    obtain ⟨rec, -, h1, -⟩ := h.sound e he h0
    have := (h1 x).1 hx
    rw [h.detectors]
    by_contra hge
    rw [List.getElem?_eq_none (by rw [detectionBits_length]; omega)] at this
    cases this
  obtain ⟨w, hw1⟩ : ∃ w, ∀ e ∈ m.between u v, w ∈ e.dets := by
    by_cases hu : u = m.num_detectors
    · refine ⟨v, fun e he => ?_⟩
      obtain ⟨he, hc⟩ := List.mem_filter.1 he
      have hc := of_decide_eq_true hc
      have hcm := connects_mem (hlt e he hc.1) hc.2
      by_cases hv' : v = m.num_detectors
      · exfalso
        have hnil : ∀ x, x ∉ e.dets := fun x hx => by
          obtain ⟨h1 | h1, h2⟩ := (hcm x).1 hx
          · exact h2 (h1.trans hu)
          · exact h2 (h1.trans hv')
        rcases hc.2 with h1 | h1 | ⟨h1, -⟩ | ⟨h1, -⟩ <;> exact hnil _ (by rw [h1]; exact List.mem_cons_self)
      · exact (hcm v).2 ⟨.inr rfl, hv'⟩
    · refine ⟨u, fun e he => ?_⟩
      obtain ⟨he, hc⟩ := List.mem_filter.1 he
      have hc := of_decide_eq_true hc
      exact (connects_mem (hlt e he hc.1) hc.2 u).2 ⟨.inl rfl, hu⟩
  obtain ⟨X, hX, hXm⟩ := firing_places hv hs hN hd hr hΔ w
  have hpos : ∀ e ∈ m.mechanisms, 0 ≤ e.p := fun e he => le_trans (by positivity) (hmem e he).1
  have hcount : ((lines.filter fun line => w ∈ line.dets).map fun line => line.causes.card).sum ≤ Δ * 15 := by
    refine (sum_card_le (X := X ×ˢ Finset.range 15) (h.once.filter _) fun line hl a ha => ?_).trans ?_
    · obtain ⟨hl, hwl⟩ := List.mem_filter.1 hl
      obtain ⟨h15, rec, hr, hx⟩ := h.fires line hl a ha
      refine Finset.mem_product.2 ⟨hXm _ rec hr.at ?_, Finset.mem_range.2 h15⟩
      rw [(fired_one w).2 ((hx w).1 (of_decide_eq_true hwl))]
      decide
    · rw [Finset.card_product, Finset.card_range]
      exact Nat.mul_le_mul hX le_rfl
  calc ((m.between u v).map Mechanism.p).sum
      ≤ (m.mechanisms.map fun e => if w ∈ e.dets then e.p else 0).sum := by
        rw [Dem.between, sum_filter_map]
        refine List.sum_le_sum fun e he => ?_
        split_ifs with h1 h2 h2
        · exact le_rfl
        · exact absurd (hw1 e (List.mem_filter.2 ⟨he, h1⟩)) h2
        · exact hpos e he
        · exact le_rfl
    _ ≤ (lines.map fun line => if w ∈ line.dets then line.p else 0).sum := by
        rw [h.mechanisms, sum_flatMap_map]
        refine List.sum_le_sum fun line hl => ?_
        rw [List.map_map]
        exact part_sum w (le_trans (by positivity) (hline line hl).1) _ (h.disjoint line hl)
    _ = ((lines.filter fun line => w ∈ line.dets).map ErrorLine.p).sum := by
        rw [sum_filter_map]
        simp only [decide_eq_true_eq]
    _ ≤ ((lines.filter fun line => w ∈ line.dets).map fun line => (line.causes.card : Rat) * lay.worst).sum :=
        List.sum_le_sum fun line hl => (hline line (List.mem_filter.1 hl).1).2.2
    _ = (((lines.filter fun line => w ∈ line.dets).map fun line => line.causes.card).sum : Nat) * lay.worst := by
        rw [List.sum_map_mul_right, Nat.cast_list_sum, List.map_map]
        rfl
    _ ≤ (Δ * 15 : Nat) * lay.worst := mul_le_mul_of_nonneg_right (by exact_mod_cast hcount) hw0.le
    _ = 15 * Δ * lay.worst := by push_cast; ring

end Honeycomb
