import Verif.Lemmas.NoError
import Verif.Props.Correct
import Verif.Props.Pipeline
import Verif.Props.SurfaceCode
import Verif.Spec.Lab

/-! One call of `sample_decode_count_correct` for a circuit. -/

namespace Honeycomb

theorem hasShape_iff (m : BitMatrix) (r c : Nat) : hasShape m r c = true ↔ m.length = r ∧ ∀ x ∈ m, x.length = c := by
  simp [hasShape]

theorem shots_shape (c : Circuit) (recs : List (List (ZMod 2))) :
    ∀ r ∈ recs.map (fun rec => detectionBits c rec ++ observableBits c rec), r.length = c.num_detectors + c.num_observables := by
  intro r hr
  obtain ⟨rec, -, rfl⟩ := List.mem_map.1 hr
  rw [List.length_append, detectionBits_length, observableBits_length]

theorem shots_take (c : Circuit) (recs : List (List (ZMod 2))) :
    (recs.map fun rec => detectionBits c rec ++ observableBits c rec).map (List.take c.num_detectors) = recs.map (detectionBits c) := by
  rw [List.map_map]
  refine List.map_congr_left fun rec _ => ?_
  rw [Function.comp_apply, ← detectionBits_length c rec, List.take_left]

theorem shots_dets (c : Circuit) (recs : List (List (ZMod 2))) :
    (if c.num_observables = 0 then recs.map (fun rec => detectionBits c rec ++ observableBits c rec)
      else (recs.map fun rec => detectionBits c rec ++ observableBits c rec).map (dropLastN c.num_observables)) = recs.map (detectionBits c) := by
  split_ifs with h0
  · refine List.map_congr_left fun rec _ => ?_
    have : observableBits c rec = [] := List.eq_nil_of_length_eq_zero (by rw [observableBits_length, h0])
    rw [this, List.append_nil]
  · rw [List.map_map]
    refine List.map_congr_left fun rec _ => ?_
    rw [Function.comp_apply, dropLastN, List.length_append, observableBits_length, Nat.add_sub_cancel, List.take_left]

/-- What a successful call returns. -/
theorem count_iff (c : Circuit) (decoder : String) (recs : List (List (ZMod 2))) (decode : Bool → Bool → BitMatrix → Except PyErr BitMatrix) (m : Nat) :
    sampleDecodeCountCorrect ⟨c.num_detectors, c.num_observables⟩ none decoder
      (recs.map fun rec => detectionBits c rec ++ observableBits c rec) decode = .ok m ↔
    ∃ flags preds, decoderFlags decoder = .ok flags ∧ decode flags.1 flags.2 (recs.map (detectionBits c)) = .ok preds ∧
      preds.length = recs.length ∧ (∀ r ∈ preds, r.length = c.num_observables) ∧
      m = ((Finset.range recs.length).filter fun j => preds[j]? = (recs[j]?).map (observableBits c)).card := by
  have good : ∀ flags preds, decoderFlags decoder = .ok flags → decode flags.1 flags.2 (recs.map (detectionBits c)) = .ok preds →
      preds.length = recs.length → (∀ r ∈ preds, r.length = c.num_observables) →
      sampleDecodeCountCorrect ⟨c.num_detectors, c.num_observables⟩ none decoder
        (recs.map fun rec => detectionBits c rec ++ observableBits c rec) decode =
        .ok ((Finset.range recs.length).filter fun j => preds[j]? = (recs[j]?).map (observableBits c)).card := by
    intro flags preds h1 h2 h3 h4
    rw [c38_counts ⟨c.num_detectors, c.num_observables⟩ none decoder flags _ preds decode h1 (.inl rfl) (shots_shape c recs)
      (by rw [shots_take]; exact h2) ⟨by rw [h3, List.length_map], h4⟩]
    congr 1
    rw [List.length_map]
    congr 1
    apply Finset.filter_congr
    intro j hj
    rw [Finset.mem_range] at hj
    have hj' : j < preds.length := by omega
    simp only [List.getD_eq_getElem?_getD, List.getElem?_map, List.getElem?_eq_getElem hj, List.getElem?_eq_getElem hj', Option.map_some,
      Option.getD_some, Option.some.injEq]
    rw [← detectionBits_length c recs[j], List.drop_left]
  constructor
  · intro h
    cases hf : decoderFlags decoder with
    | error e => simp [sampleDecodeCountCorrect, hf, bind, Except.bind] at h
    | ok flags =>
      cases hd : decode flags.1 flags.2 (recs.map (detectionBits c)) with
      | error e =>
        exfalso
        obtain ⟨f1, f2⟩ := flags
        simp only [sampleDecodeCountCorrect, hf, bind, Except.bind, shots_dets] at h
        dsimp only at hd
        rw [hd] at h
        simp only at h
        split_ifs at h
      | ok preds =>
        by_cases hs : preds.length = recs.length ∧ ∀ r ∈ preds, r.length = c.num_observables
        · rw [good flags preds hf hd hs.1 hs.2] at h
          exact ⟨flags, preds, rfl, hd, hs.1, hs.2, (Except.ok.inj h).symm⟩
        · exfalso
          obtain ⟨f1, f2⟩ := flags
          obtain ⟨obs, hobs⟩ : ∃ o, o = if c.num_observables = 0 then (recs.map fun rec => detectionBits c rec ++ observableBits c rec).map (fun _ => [])
              else (recs.map fun rec => detectionBits c rec ++ observableBits c rec).map (takeLastN c.num_observables) := ⟨_, rfl⟩
          have hlen : obs.length = recs.length := by rw [hobs]; split_ifs <;> simp
          have hbad : hasShape preds recs.length c.num_observables = false := by
            rw [← Bool.not_eq_true, hasShape_iff]
            exact hs
          simp only [sampleDecodeCountCorrect, hf, bind, Except.bind, shots_dets, ← hobs, hlen] at h
          dsimp only at hd
          rw [hd] at h
          simp only [hbad, Bool.not_false, if_true] at h
          split_ifs at h
  · rintro ⟨flags, preds, h1, h2, h3, h4, rfl⟩
    exact good flags preds h1 h2 h3 h4

variable {lab : Lab}

theorem sample_counted {p : MadeProblem} {k : Nat} {b : Row} (hb : b.1 = p.1)
    (h : lab.sample p k b.2.num_shots = .ok (b.2.num_correct, b.2.total_processing_seconds)) : ∃ c, p.2 = .ok c ∧ Counted lab c k b := by
  unfold Lab.sample at h
  cases hc : p.2 with
  | error e => rw [hc] at h; cases h
  | ok c =>
    rw [hc] at h
    dsimp only at h
    cases hf : decoderFlags p.1.decoder with
    | error e => rw [hf] at h; cases h
    | ok fl =>
      rw [hf] at h
      dsimp only at h
      cases hr : lab.records p.1 k b.2.num_shots c with
      | error e => rw [hr] at h; cases h
      | ok recs =>
        rw [hr] at h
        dsimp only at h
        split at h
        · cases h
        · rename_i m hm
          obtain ⟨flags, preds, h1, h2, h3, h4, e⟩ := (count_iff _ _ _ _ _).1 hm
          simp only [Except.ok.injEq, Prod.mk.injEq] at h
          refine ⟨c, rfl, recs, flags, preds, by rw [hb]; exact hr, by rw [hb]; exact h1, by rw [hb]; exact h2, h3, ?_, by rw [hb]; exact h.2.symm⟩
          rw [← h.1, e]

/-- A sampled batch comes from a call. -/
theorem batch_call {F : FloatText} {a : CollectArgs} {fuel : Nat} {probs : List DecodingProblem} {file : Option Text} {effs : List Eff} {err : Option PyErr}
    (h : collect F a fuel probs file = some (effs, err)) {b : Row} (hb : b ∈ batches effs) :
    ∃ p ∈ probs, ∃ k, b.1 = p.desc ∧ p.sample k b.2.num_shots = .ok (b.2.num_correct, b.2.total_processing_seconds) := by
  obtain ⟨bss, l1, l2, -, l4⟩ := c48_order F a fuel probs file effs err h
  rw [l2] at hb
  obtain ⟨bs, hbs, hb⟩ := List.mem_flatten.1 hb
  obtain ⟨i, hi, rfl⟩ := List.getElem_of_mem hbs
  obtain ⟨j, hj, rfl⟩ := List.getElem_of_mem hb
  have hlen : i < (probs.take bss.length).length := by rw [List.length_take]; omega
  have := (List.forall₂_iff_get.mp l4).2 i hlen hi
  obtain ⟨e1, e2⟩ := this j _ (List.getElem?_eq_getElem hj)
  exact ⟨_, List.mem_of_mem_take (List.getElem_mem hlen), j, e1, e2⟩

/-- All predictions right: all shots are correct. -/
theorem counted_all {c : Circuit} {k : Nat} {b : Row} (hl : lab.Sound) (h : Counted lab c k b)
    (hok : ∀ recs flags preds, lab.records b.1 k b.2.num_shots c = .ok recs → decoderFlags b.1.decoder = .ok flags →
      lab.decode b.1 k c flags.1 flags.2 (recs.map (detectionBits c)) = .ok preds → preds = recs.map (observableBits c)) :
    b.2.num_correct = b.2.num_shots := by
  obtain ⟨recs, flags, preds, h1, h2, h3, h4, h5, -⟩ := h
  obtain rfl := hok recs flags preds h1 h2 h3
  rw [h5, ← (hl _ _ _ _ _ h1).1, Finset.filter_true_of_mem, Finset.card_range]
  intro j _
  rw [List.getElem?_map]

namespace HoneycombLayout
variable {lay : HoneycombLayout} {d : Circuit}

/-- Without noise no detector fires and no observable is flipped. -/
theorem noiseless_bits (hv : lay.Valid) (hs : lay.Supported) (h0 : lay.noise = 0) (hd : lay.makeCircuit = .ok d) {n : Nat} {rec : List (ZMod 2)}
    (h : CanSample n d.flatten rec) :
    (∀ x ∈ detectionBits d rec, x = false) ∧ observableBits d rec = List.replicate d.num_observables false := by
  obtain ⟨-, hr⟩ := noiseless_record hv hs h0 hd h
  obtain ⟨d1, hd1, h1⟩ := c18_no_detector_fires lay hv hs
  obtain ⟨d2, hd2, h2⟩ := c19_observable_not_flipped lay hv hs
  obtain rfl := Except.ok.inj (hd.symm.trans hd1)
  obtain rfl := Except.ok.inj (hd.symm.trans hd2)
  constructor
  · intro x hx
    obtain ⟨v, hv', rfl⟩ := List.mem_map.1 hx
    rw [h1 rec hr v hv']
    decide
  · rw [List.eq_replicate_iff]
    refine ⟨observableBits_length d rec, fun x hx => ?_⟩
    obtain ⟨k, -, rfl⟩ := List.mem_map.1 hx
    by_cases hk : k = lay.obsI
    · subst hk
      have := h2 rec hr
      rw [show (if lay.obs = "V" then 0 else 1) = lay.obsI from rfl] at this
      rw [this]
      decide
    · rw [other_observable hv hs hd k hk rec]
      decide

end HoneycombLayout
end Honeycomb
