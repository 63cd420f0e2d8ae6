import Verif.Lemmas.Lab

/-!
# What a row of the data counts (C95)

From the layout to the row of the data file. Vocabulary in `Spec/Lab.lean`: `Lab` (sampler, decoder and clock), `Lab.Sound` (the sampler returns
as many samples of the circuit as requested), `Counted` (the row counts the right predictions for the shots of one call), `CircuitOf` (the circuit
that belongs to a description).
-/

namespace Honeycomb
open HoneycombLayout

/-- C95: batch number `k` of a problem counts the right predictions for the shots of call number `k`, sampled from the circuit of that problem. -/
theorem c95_counts (F : FloatText) (lab : Lab) (a : CollectArgs) (fuel : Nat) (probs : List MadeProblem) (file : Option Text) (effs : List Eff)
    (err : Option PyErr) (h : collect F a fuel (probs.map lab.problem) file = some (effs, err)) :
    ∃ bss : List (List Row), bss.length ≤ probs.length ∧ batches effs = bss.flatten ∧
      List.Forall₂ (fun p bs => ∀ k b, bs[k]? = some b → b.1 = p.1 ∧ ∃ c, p.2 = .ok c ∧ Counted lab c k b) (probs.take bss.length) bss := by
  obtain ⟨bss, l1, l2, -, l4⟩ := c48_order F a fuel _ file effs err h
  rw [List.length_map] at l1
  refine ⟨bss, l1, l2, ?_⟩
  rw [← List.map_take, List.forall₂_map_left_iff] at l4
  refine l4.imp fun p bs hp k b hb => ?_
  obtain ⟨e1, e2⟩ := hp k b hb
  exact ⟨e1, sample_counted e1 e2⟩

/-- C95: `num_correct` is never negative and at most `num_shots`, and `num_shots` is the number of shots that were sampled. -/
theorem c95_bounds (lab : Lab) (hl : lab.Sound) (c : Circuit) (k : Nat) (b : Row) (h : Counted lab c k b) :
    0 ≤ b.2.num_correct ∧ b.2.num_correct ≤ b.2.num_shots := by
  obtain ⟨recs, flags, preds, h1, -, -, -, h5, -⟩ := h
  rw [h5, ← (hl _ _ _ _ _ h1).1]
  refine ⟨by positivity, ?_⟩
  have := Finset.card_filter_le (Finset.range recs.length) fun j => preds[j]? = (recs[j]?).map (observableBits c)
  rw [Finset.card_range] at this
  exact_mod_cast this

theorem scriptProblems_descs (read : String → Except PyErr Circuit) (here : String) (dir : Option String) :
    (scriptProblems read here dir).map Prod.fst = scriptDescs dir := by
  have h1 : honeycombProblems.map Prod.fst = honeycombDescs := by
    rw [honeycombProblems, honeycombDescs, List.map_flatMap]
    simp only [List.map_map, Function.comp_def, HoneycombLayout.asDecoderProblem]
  have h2 : ∀ directory, (surfaceCodeProblems read directory).map Prod.fst = surfaceCodeDescs := by
    intro directory
    rw [surfaceCodeProblems, surfaceCodeDescs]
    simp only [List.map_flatMap, List.map_map, Function.comp_def]
  rw [scriptProblems, scriptDescs, List.map_append, h1, apply_ite (List.map Prod.fst), h2]
  rfl

/-- The oracle of `Model/Script.lean` that does what the circuits do. -/
def Lab.oracle (lab : Lab) (probs : List MadeProblem) (d : DecodingProblemDesc) : Nat → Int → Except PyErr (Int × Rat) :=
  match probs.find? fun p => decide (p.1 = d) with
  | some p => lab.sample p
  | none => fun _ _ => .error .keyError

theorem oracle_of {lab : Lab} {probs : List MadeProblem} (hn : (probs.map Prod.fst).Nodup) {p : MadeProblem} (hp : p ∈ probs) :
    lab.oracle probs p.1 = lab.sample p := by
  unfold Lab.oracle
  cases hf : probs.find? fun q => decide (q.1 = p.1) with
  | none => exact absurd (List.find?_eq_none.1 hf p hp) (by simp)
  | some q =>
    have e : q.1 = p.1 := by simpa using List.find?_some hf
    rw [List.inj_on_of_nodup_map hn (List.mem_of_find?_eq_some hf) hp e]

theorem problems_of {lab : Lab} {probs : List MadeProblem} (hn : (probs.map Prod.fst).Nodup) :
    probs.map lab.problem = (probs.map Prod.fst).map fun d => ⟨d, lab.oracle probs d⟩ := by
  rw [List.map_map]
  refine List.map_congr_left fun p hp => ?_
  rw [Function.comp_apply, oracle_of hn hp]
  rfl

/-- C95: the collection script with its circuits is the script of C79-C81 and C91 with an oracle. If the sampler is sound and the times can be
written, the oracle is honest, as C91 requires. -/
theorem c95_oracle (lab : Lab) (read : String → Except PyErr Circuit) (here : String) (dir : Option String) :
    ∃ sample, (∀ F : FloatText, lab.Sound → (∀ d k, F.Faithful (lab.seconds d k)) → Honest F sample) ∧
      (∀ p ∈ scriptProblems read here dir, sample p.1 = lab.sample p) ∧
      ∀ F s fuel file, s.surface_dir = dir → collectCircuits F s lab read here fuel file = collectData F s sample fuel file := by
  have hn : ((scriptProblems read here dir).map Prod.fst).Nodup := by
    rw [scriptProblems_descs]; exact c79_distinct dir
  refine ⟨lab.oracle (scriptProblems read here dir), fun F hl ht => ?_, fun p hp => oracle_of hn hp, ?_⟩
  · intro d k n c t hn' h
    unfold Lab.oracle at h
    cases hp : (scriptProblems read here dir).find? fun p => decide (p.1 = d) with
    | none => rw [hp] at h; cases h
    | some p =>
      rw [hp] at h
      obtain ⟨c', -, hc⟩ := sample_counted (b := (p.1, ⟨n, c, t⟩)) rfl h
      obtain ⟨b1, b2⟩ := c95_bounds lab hl c' k _ hc
      obtain ⟨-, -, -, -, -, -, -, -, e⟩ := hc
      exact ⟨b1, b2, by rw [show t = lab.seconds p.1 k from e]; exact ht _ _⟩
  · rintro F s fuel file rfl
    rw [collectCircuits, collectData, problems_of hn, scriptProblems_descs]
    rfl

/-- C95: the files that the collection script with its circuits leaves behind are those of C91. -/
theorem c95_file (F : FloatText) (lab : Lab) (hl : lab.Sound) (ht : ∀ d k, F.Faithful (lab.seconds d k)) (read : String → Except PyErr Circuit)
    (here : String) (s : ScriptArgs) (ho : s.has_out = true) (hm : ∀ m, s.max_batch_size = some m → 1 ≤ m) (fuel : Nat) (file : Option Text)
    (runs : List (Bool × List Row)) (hf : CollectedFile F file runs) (effs : List Eff) (err : Option PyErr)
    (h : collectCircuits F s lab read here fuel file = some (effs, err)) :
    CollectedFile F (fileAfter file effs) (runs ++ [(true, batches effs)]) := by
  obtain ⟨sample, h1, -, h3⟩ := c95_oracle lab read here s.surface_dir
  rw [h3 F s fuel file rfl] at h
  exact .run hf ho hm (h1 F hl ht) h (List.prefix_refl _) (script_last h) fun _ => rfl

/-- C95: in the collection script every row counts the right predictions for shots of the circuit that the row describes. -/
theorem c95_script (F : FloatText) (lab : Lab) (read : String → Except PyErr Circuit) (here : String) (s : ScriptArgs) (fuel : Nat)
    (file : Option Text) (effs : List Eff) (err : Option PyErr) (h : collectCircuits F s lab read here fuel file = some (effs, err)) :
    ∀ b ∈ batches effs, ∃ c k, CircuitOf read (s.surface_dir.getD (here ++ "/surface_code_circuits")) b.1 c ∧ Counted lab c k b := by
  intro b hb
  rw [collectCircuits] at h
  cases hp : selectProblems ((scriptProblems read here s.surface_dir).map lab.problem) s.problem_id with
  | error e => rw [hp] at h; cases h; simp [batches] at hb
  | ok probs =>
    rw [hp] at h
    cases ha : s.collectArgs with
    | error e => rw [ha] at h; cases h; simp [batches] at hb
    | ok a =>
      rw [ha] at h
      obtain ⟨q, hq, k, e1, e2⟩ := batch_call h hb
      obtain ⟨p, hps, rfl⟩ := List.mem_map.1 (select_sub hp q hq)
      obtain ⟨c, hc, hcount⟩ := sample_counted (p := p) e1 e2
      refine ⟨c, k, ?_, hcount⟩
      have e1 : b.1 = p.1 := e1
      rw [scriptProblems, List.mem_append] at hps
      rcases hps with hps | hps
      · left
        obtain ⟨decoder, -, hps⟩ := List.mem_flatMap.1 hps
        obtain ⟨lay, hlay, rfl⟩ := List.mem_map.1 hps
        exact ⟨lay, hlay, by rw [e1]; rfl, hc⟩
      · right
        split_ifs at hps with hd
        · simp at hps
        · simp only [surfaceCodeProblems, List.mem_flatMap, List.mem_map] at hps
          obtain ⟨decoder, -, d, -, p', -, name, hname, obs, -, rfl⟩ := hps
          refine ⟨name, hname, by rw [e1]; rfl, ?_⟩
          rw [e1]
          have hc : surfaceCodeCircuit read (s.surface_dir.getD (here ++ "/surface_code_circuits")) name p' obs d = .ok c := hc
          unfold surfaceCodeCircuit at hc
          cases hr : read (surfaceCodePath (s.surface_dir.getD (here ++ "/surface_code_circuits")) name obs d) with
          | error e => rw [hr] at hc; cases hc
          | ok f =>
            rw [hr] at hc
            refine ⟨f, ?_, ?_⟩
            · rw [← hr, surfaceCodePath]
              simp only [List.mem_cons, List.not_mem_nil, or_false] at hname
              rcases hname with rfl | rfl
              · rw [show "SD6".toLower = "sd6" by decide +kernel]; rfl
              · rw [show "SI1000".toLower = "si1000" by decide +kernel]; rfl
            · simp only [List.mem_cons, List.not_mem_nil, or_false] at hname
              rcases hname with rfl | rfl
              · exact hc
              · exact hc

/-- C95: the collection script makes all its honeycomb circuits. It comes to its end without exception if the surface code circuits can be made, the
sampler always returns shots, and the decoder always returns predictions of the right shape. -/
theorem c95_completes (F : FloatText) (lab : Lab) (hl : lab.Sound) (hr : ∀ d k n c, 1 ≤ n → ∃ recs, lab.records d k n c = .ok recs)
    (hd : ∀ d k c i j dets, ∃ preds : BitMatrix, lab.decode d k c i j dets = .ok preds ∧ preds.length = dets.length ∧ ∀ r ∈ preds, r.length = c.num_observables)
    (read : String → Except PyErr Circuit) (here : String) (dir : Option String)
    (hsurf : dir = some "-" ∨ dir = some "" ∨
      ∀ p ∈ surfaceCodeProblems read (dir.getD (here ++ "/surface_code_circuits")), ∃ c, p.2 = .ok c)
    (cr : Option Int) (o : Bool) (ms me mb : Option Int) (hmb : ∀ m, mb = some m → 1 ≤ m) (file : Option Text) :
    ∃ fuel0, ∀ fuel, fuel0 ≤ fuel → ∃ effs, collectCircuits F (mainArgs dir none cr o ms me mb) lab read here fuel file = some (effs, none) := by
  obtain ⟨sample, -, h2, h3⟩ := c95_oracle lab read here dir
  have hmade : ∀ p ∈ scriptProblems read here dir, ∃ c, p.2 = .ok c := by
    intro p hp
    rw [scriptProblems, List.mem_append] at hp
    rcases hp with hp | hp
    · obtain ⟨decoder, -, hp⟩ := List.mem_flatMap.1 hp
      obtain ⟨lay, hlay, rfl⟩ := List.mem_map.1 hp
      obtain ⟨-, hv, hs⟩ := c66_layouts lay hlay
      obtain ⟨c, hc, -⟩ := c89_corrects lay hv hs
      exact ⟨c, hc⟩
    · split_ifs at hp with hx
      · simp at hp
      · rcases hsurf with h | h | h
        · exact absurd (.inl h) hx
        · exact absurd (.inr h) hx
        · exact h p hp
  have hdecoder : ∀ p ∈ scriptProblems read here dir, ∃ flags, decoderFlags p.1.decoder = .ok flags := by
    have key : ∀ decoder ∈ DECODERS, ∃ flags, decoderFlags decoder = .ok flags := by
      intro decoder h
      simp only [DECODERS, List.mem_cons, List.not_mem_nil, or_false] at h
      rcases h with rfl | rfl
      exacts [⟨_, c38_flags.2.1⟩, ⟨_, c38_flags.2.2⟩]
    intro p hp
    rw [scriptProblems, List.mem_append] at hp
    rcases hp with hp | hp
    · obtain ⟨decoder, hdec, hp⟩ := List.mem_flatMap.1 hp
      obtain ⟨lay, -, rfl⟩ := List.mem_map.1 hp
      exact key decoder hdec
    · split_ifs at hp with hx
      · simp at hp
      · simp only [surfaceCodeProblems, List.mem_flatMap, List.mem_map] at hp
        obtain ⟨decoder, hdec, d, -, p', -, name, -, obs, -, rfl⟩ := hp
        exact key decoder hdec
  have hsample : ∀ d ∈ scriptDescs dir, ∀ i n, 1 ≤ n → ∃ c t, sample d i n = .ok (c, t) ∧ 0 ≤ c ∧ c ≤ n := by
    intro d hdm i n hn
    rw [← scriptProblems_descs read here dir] at hdm
    obtain ⟨p, hp, rfl⟩ := List.mem_map.1 hdm
    rw [h2 p hp]
    obtain ⟨c, hc⟩ := hmade p hp
    obtain ⟨flags, hf⟩ := hdecoder p hp
    obtain ⟨recs, hrec⟩ := hr p.1 i n c hn
    obtain ⟨preds, hp1, hp2, hp3⟩ := hd p.1 i c flags.1 flags.2 (recs.map (detectionBits c))
    obtain ⟨m, hcount⟩ : ∃ m, sampleDecodeCountCorrect ⟨c.num_detectors, c.num_observables⟩ none p.1.decoder
        (recs.map fun rec => detectionBits c rec ++ observableBits c rec) (lab.decode p.1 i c) = .ok m :=
      ⟨_, (count_iff c p.1.decoder recs (lab.decode p.1 i c) _).2 ⟨flags, preds, hf, hp1, by rw [hp2, List.length_map], hp3, rfl⟩⟩
    have hs : lab.sample p i n = .ok ((m : Int), lab.seconds p.1 i) := by
      unfold Lab.sample
      simp only [hc, hf, hrec, hcount]
    refine ⟨_, _, hs, ?_⟩
    obtain ⟨c', -, hcounted⟩ := sample_counted (b := (p.1, ⟨n, m, lab.seconds p.1 i⟩)) rfl hs
    exact c95_bounds lab hl c' i _ hcounted
  classical
  obtain ⟨fuel0, hfuel⟩ := c81_terminates F dir cr o ms me mb hmb (fun d => if d ∈ scriptDescs dir then sample d else fun _ _ => .ok (0, 0))
    (fun d i n hn => by
      split_ifs with hm
      · exact hsample d hm i n hn
      · exact ⟨0, 0, rfl, le_rfl, by omega⟩) file
  refine ⟨fuel0, fun fuel hle => ?_⟩
  obtain ⟨effs, he⟩ := hfuel fuel hle
  refine ⟨effs, ?_⟩
  rw [h3 F _ fuel file rfl, ← he, collectData, collectData]
  have hmap : ((scriptDescs dir).map fun d => (⟨d, sample d⟩ : DecodingProblem)) =
      (scriptDescs dir).map fun d => ⟨d, if d ∈ scriptDescs dir then sample d else fun _ _ => .ok (0, 0)⟩ :=
    List.map_congr_left fun d hdm => by rw [if_pos hdm]
  rw [show (mainArgs dir none cr o ms me mb).surface_dir = dir from rfl, hmap]

/-! ## Runs without errors -/

/-- C95: without noise no logical error is ever recorded, if the decoder predicts no flip when it sees no detection event. -/
theorem c95_no_noise (F : FloatText) (lab : Lab) (hl : lab.Sound) (hq : lab.Quiet) (a : CollectArgs) (fuel : Nat)
    (probs : List (HoneycombLayout × String)) (hp : ∀ p ∈ probs, p.1.Valid ∧ p.1.Supported ∧ p.1.noise = 0) (file : Option Text) (effs : List Eff)
    (err : Option PyErr) (h : collect F a fuel (probs.map fun p => lab.problem (p.1.asDecoderProblem p.2)) file = some (effs, err)) :
    ∀ b ∈ batches effs, b.2.num_correct = b.2.num_shots := by
  intro b hb
  obtain ⟨q, hq', k, e1, e2⟩ := batch_call h hb
  obtain ⟨⟨lay, decoder⟩, hmem, rfl⟩ := List.mem_map.1 hq'
  obtain ⟨hv, hs, h0⟩ := hp _ hmem
  obtain ⟨c, hc, hcount⟩ := sample_counted (p := lay.asDecoderProblem decoder) e1 e2
  refine counted_all hl hcount fun recs flags preds h1 _ h3 => ?_
  have hbits := fun rec hrec => (((hl _ _ _ _ _ h1).2 rec hrec).elim fun m hm => noiseless_bits hv hs h0 hc hm :
    (∀ x ∈ detectionBits c rec, x = false) ∧ observableBits c rec = List.replicate c.num_observables false)
  rw [hq] at h3
  · rw [← Except.ok.inj h3, List.map_map]
    exact List.map_congr_left fun rec hrec => (hbits rec hrec).2.symm
  · intro r hr
    obtain ⟨rec, hrec, rfl⟩ := List.mem_map.1 hr
    exact (hbits rec hrec).1

/-- C95: with a minimum error decoder no logical error is recorded as long as fewer than a quarter of `data_width` ("V"), a sixth of `data_height`
("H") errors happen in every shot. -/
theorem c95_few_errors (F : FloatText) (lab : Lab) (hl : lab.Sound) (a : CollectArgs) (fuel : Nat)
    (probs : List (HoneycombLayout × String)) (hp : ∀ p ∈ probs, p.1.Valid ∧ p.1.Supported)
    (hdec : ∀ p ∈ probs, ∀ c, p.1.makeCircuit = .ok c → ∃ guess, MinimumErrors c guess ∧
      ∀ k i j dets, lab.decode (p.1.asDecoderProblemDesc p.2) k c i j dets = .ok (dets.map guess))
    (hfew : ∀ p ∈ probs, ∀ c, p.1.makeCircuit = .ok c → ∀ k n recs, lab.records (p.1.asDecoderProblemDesc p.2) k n c = .ok recs →
      ∀ rec ∈ recs, ∃ m, CanSample m c.flatten rec ∧ (if p.1.obs = "V" then 4 * (m : Int) < p.1.data_width else 6 * (m : Int) < p.1.data_height))
    (file : Option Text) (effs : List Eff)
    (err : Option PyErr) (h : collect F a fuel (probs.map fun p => lab.problem (p.1.asDecoderProblem p.2)) file = some (effs, err)) :
    ∀ b ∈ batches effs, b.2.num_correct = b.2.num_shots := by
  intro b hb
  obtain ⟨q, hq', k, e1, e2⟩ := batch_call h hb
  obtain ⟨⟨lay, decoder⟩, hmem, rfl⟩ := List.mem_map.1 hq'
  obtain ⟨hv, hs⟩ := hp _ hmem
  obtain ⟨c, hc, hcount⟩ := sample_counted (p := lay.asDecoderProblem decoder) e1 e2
  obtain ⟨guess, hg, hgd⟩ := hdec _ hmem c hc
  obtain ⟨d, hd, hcor⟩ := c89_corrects lay hv hs
  obtain rfl := Except.ok.inj (hc.symm.trans hd)
  have e1 : b.1 = lay.asDecoderProblemDesc decoder := e1
  refine counted_all hl hcount fun recs flags preds h1 _ h3 => ?_
  rw [e1] at h1 h3
  rw [hgd] at h3
  rw [← Except.ok.inj h3, List.map_map]
  refine List.map_congr_left fun rec hrec => ?_
  obtain ⟨m, hm, hlt⟩ := hfew _ hmem c hc k _ recs h1 rec hrec
  exact hcor guess hg m rec hm hlt

/-- C95: without noise, data collection for a problem ends after exactly `max_shots` shots, no exception and no logical error, if the sampler always
returns shots and at least one error is asked for. -/
theorem c95_no_noise_total (F : FloatText) (lab : Lab) (hl : lab.Sound) (hq : lab.Quiet)
    (hr : ∀ d k n c, 1 ≤ n → ∃ recs, lab.records d k n c = .ok recs) (a : CollectArgs) (h1 : 1 ≤ a.min_shots) (h2 : a.min_shots ≤ a.max_shots)
    (h3 : ∀ m, a.max_batch = some m → 1 ≤ m) (h4 : 1 ≤ a.min_seen_logical_errors) (fuel : Nat) (hf : a.max_shots ≤ fuel)
    (lay : HoneycombLayout) (hv : lay.Valid) (hs : lay.Supported) (h0 : lay.noise = 0) (decoder : String)
    (hd : decoder ∈ ["pymatching", "internal", "internal_correlated"]) :
    ∃ effs, collectOne F a (lab.problem (lay.asDecoderProblem decoder)) fuel = some (effs, none) ∧
      totalShots (batches effs) = a.max_shots ∧ totalErrors (batches effs) = 0 := by
  obtain ⟨flags, hflags⟩ : ∃ flags, decoderFlags decoder = .ok flags := by
    simp only [List.mem_cons, List.not_mem_nil, or_false] at hd
    rcases hd with rfl | rfl | rfl
    exacts [⟨_, c38_flags.1⟩, ⟨_, c38_flags.2.1⟩, ⟨_, c38_flags.2.2⟩]
  obtain ⟨c, hc, -⟩ := c89_corrects lay hv hs
  have hok : ∀ i n, 1 ≤ n → (lab.problem (lay.asDecoderProblem decoder)).sample i n = .ok (n, lab.seconds (lay.asDecoderProblemDesc decoder) i) := by
    intro i n hn
    obtain ⟨recs, hrec⟩ := hr (lay.asDecoderProblemDesc decoder) i n c hn
    obtain ⟨hlen, hsm⟩ := hl _ _ _ _ _ hrec
    have hbits := fun rec hrec => ((hsm rec hrec).elim fun m hm => noiseless_bits hv hs h0 hc hm :
      (∀ x ∈ detectionBits c rec, x = false) ∧ observableBits c rec = List.replicate c.num_observables false)
    have hcount := (count_iff c decoder recs (lab.decode (lay.asDecoderProblemDesc decoder) i c) recs.length).2
      ⟨flags, _, hflags, hq _ _ _ _ _ _ (fun r hr => by
        obtain ⟨rec, hrec, rfl⟩ := List.mem_map.1 hr
        exact (hbits rec hrec).1), by simp, fun r hr => by
        obtain ⟨_, _, rfl⟩ := List.mem_map.1 hr
        simp, by
        rw [Finset.filter_true_of_mem, Finset.card_range]
        intro j hj
        rw [Finset.mem_range] at hj
        simp only [List.map_map, List.getElem?_map, List.getElem?_eq_getElem hj, Option.map_some, Function.comp_apply]
        rw [(hbits _ (List.getElem_mem hj)).2]⟩
    show lab.sample (lay.asDecoderProblemDesc decoder, lay.makeCircuit) i n = _
    unfold Lab.sample
    rw [show (lay.asDecoderProblemDesc decoder).decoder = decoder from rfl]
    simp only [hc, hflags, hrec, hcount, hlen]
  obtain ⟨effs, err, hrun⟩ := c47_terminates F a (lab.problem (lay.asDecoderProblem decoder)) h1 (by omega) h3 fuel hf
  obtain rfl := c47_no_exception F a _ h1 (by omega) h3 (fun i n hn => ⟨n, _, hok i n hn, by omega, le_rfl⟩) fuel effs err hrun
  have hcorrect : ∀ b ∈ batches effs, b.2.num_correct = b.2.num_shots := by
    have hpos := c47_positive F a _ h1 (by omega) h3 fuel effs none hrun
    have hcol : collect F a fuel [lab.problem (lay.asDecoderProblem decoder)] none =
        some (startEffs a.has_out a.discard_previous_data none ++ (effs ++ []), none) := by
      simp [collect, collectProblems, hrun]
    intro b hb
    exact c95_no_noise F lab hl hq a fuel [(lay, decoder)] (by simpa using ⟨hv, hs, h0⟩) none _ none hcol b (by
      rw [batches_append, start_batches, List.nil_append, List.append_nil]; exact hb)
  have herr : ∀ done, done <+: batches effs → totalErrors done = 0 := by
    intro done hdone
    rw [totalErrors]
    refine List.sum_eq_zero fun x hx => ?_
    obtain ⟨b, hb, rfl⟩ := List.mem_map.1 hx
    have := hcorrect b (hdone.subset hb)
    omega
  obtain ⟨hne, hstop⟩ := c47_stops F a _ fuel effs hrun
  refine ⟨effs, hrun, le_antisymm (c46_budget F a _ fuel effs none hrun (.inl h2) _ (List.prefix_refl _) hne) ?_, herr _ (List.prefix_refl _)⟩
  have := (hstop _ (List.prefix_refl _) hne).2 rfl
  rw [herr _ (List.prefix_refl _)] at this
  rcases this with h | ⟨h, -⟩ | ⟨-, h⟩
  · exact h
  · omega
  · omega

/-! ## Examples -/

/-- A sampler for which no error happens, a decoder that never predicts a flip, one second per call. -/
noncomputable def quietLab : Lab where
  records _ _ n c := if 0 ≤ n then .ok (List.replicate n.toNat (canRecord_exists c.flatten).choose) else .error .valueError
  decode _ _ c _ _ dets := .ok (dets.map fun _ => List.replicate c.num_observables false)
  seconds _ _ := 1

theorem quietLab_sound : quietLab.Sound := by
  intro d k n c recs h
  simp only [quietLab] at h
  split_ifs at h with hn
  obtain rfl := Except.ok.inj h
  refine ⟨by simp [hn], fun rec hrec => ⟨0, ?_⟩⟩
  rw [List.eq_of_mem_replicate hrec]
  obtain ⟨F, F', hF, hr⟩ := (canRecord_exists c.flatten).choose_spec
  exact ⟨F, F', hF, noisy_of_runs hr⟩

/-- The hypotheses of `c95_no_noise_total`: 50 shots of an "EM3_v2" circuit. -/
example : ∃ effs, collectOne fractionText (demoArgs 10 50 (some 20) 1 false)
      (quietLab.problem (HoneycombLayout.asDecoderProblem ⟨4, 6, 40, "EM3_v2", "V", 0⟩ "pymatching")) 50 = some (effs, none) ∧
    totalShots (batches effs) = 50 ∧ totalErrors (batches effs) = 0 :=
  c95_no_noise_total fractionText quietLab quietLab_sound (fun _ _ _ _ _ _ _ => rfl)
    (fun d k n c hn => ⟨_, if_pos (by omega)⟩) (demoArgs 10 50 (some 20) 1 false) (by decide) (by decide)
    (fun m hm => by
      have : m = 20 := (Option.some.inj hm).symm
      omega) (by decide) 50 (by decide) _ (by constructor <;> decide)
    (by refine ⟨?_, ?_, ?_, ?_⟩ <;> simp) rfl "pymatching" (by simp)

/-- The hypotheses of `c95_script` and `c95_file`: the script without the surface code, its file, and what a row counts. -/
example : ∃ fuel effs text, collectCircuits fractionText (mainArgs (some "-") none none true none none none) quietLab (fun _ => .error .valueError) "." fuel none =
      some (effs, none) ∧ CollectedFile fractionText text [(true, batches effs)] ∧
    ∀ b ∈ batches effs, ∃ lay ∈ collectLayouts, ∃ c k, b.1 = lay.asDecoderProblemDesc b.1.decoder ∧ lay.makeCircuit = .ok c ∧ Counted quietLab c k b := by
  obtain ⟨fuel, h⟩ := c95_completes fractionText quietLab quietLab_sound (fun d k n c hn => ⟨_, if_pos (by omega)⟩)
    (fun d k c i j dets => ⟨_, rfl, by simp, fun r hr => by
      obtain ⟨_, _, rfl⟩ := List.mem_map.1 hr
      simp⟩) (fun _ => .error .valueError) "." (some "-") (.inl rfl) none true none none none (by simp) none
  obtain ⟨effs, h⟩ := h fuel le_rfl
  refine ⟨fuel, effs, _, h, c95_file fractionText quietLab quietLab_sound (fun _ _ => fractionText_faithful _) _ _ _ rfl (by simp [mainArgs]) _ _ []
    .start effs none h, fun b hb => ?_⟩
  obtain ⟨c, k, hc, hcount⟩ := c95_script _ _ _ _ _ _ _ _ _ h b hb
  rcases hc with ⟨lay, hlay, h1, h2⟩ | ⟨name, -, -, f, hf, -⟩
  · exact ⟨lay, hlay, c, k, h1, h2, hcount⟩
  · cases hf

/-- A minimum error decoder, and shots in which no error happens. -/
noncomputable def minimumLab : Lab :=
  { quietLab with decode := fun _ _ c _ _ dets => .ok (dets.map (c89_exists c).choose) }

/-- The hypotheses of `c95_few_errors`: two problems with noise. -/
example (effs : List Eff) (err : Option PyErr) (h : collect fractionText (demoArgs 10 50 (some 20) 1 false) 50
      ([(⟨4, 6, 40, "EM3_v2", "V", 1/1000⟩, "internal"), (⟨4, 6, 40, "SD6", "H", 1/100⟩, "pymatching")].map
        fun p : HoneycombLayout × String => minimumLab.problem (p.1.asDecoderProblem p.2)) none = some (effs, err)) :
    ∀ b ∈ batches effs, b.2.num_correct = b.2.num_shots := by
  refine c95_few_errors fractionText minimumLab quietLab_sound _ _ _ (fun p hp => ?_)
    (fun p _ c _ => ⟨_, (c89_exists c).choose_spec, fun k i j dets => rfl⟩) (fun p hp c _ k n recs hrec rec hmem => ?_) none effs err h
  · simp only [List.mem_cons, List.not_mem_nil, or_false] at hp
    rcases hp with rfl | rfl
    · exact ⟨by constructor <;> decide, by refine ⟨?_, ?_, ?_, ?_⟩ <;> simp⟩
    · exact ⟨by constructor <;> decide, by refine ⟨?_, ?_, ?_, ?_⟩ <;> simp⟩
  · refine ⟨0, ?_, ?_⟩
    · simp only [minimumLab, quietLab] at hrec
      split_ifs at hrec with hn
      obtain rfl := Except.ok.inj hrec
      rw [List.eq_of_mem_replicate hmem]
      obtain ⟨F, F', hF, hr⟩ := (canRecord_exists c.flatten).choose_spec
      exact ⟨F, F', hF, noisy_of_runs hr⟩
    · simp only [List.mem_cons, List.not_mem_nil, or_false] at hp
      rcases hp with rfl | rfl <;> simp

end Honeycomb
