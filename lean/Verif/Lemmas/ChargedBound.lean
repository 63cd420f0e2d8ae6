import Verif.Lemmas.Lives

/-! Runs of a generated circuit with ancillas and `n` errors: damage about at most `n` data qubits. -/

namespace Honeycomb
namespace HoneycombLayout
variable {lay : HoneycombLayout} {F F' : Frame} {rec : List (ZMod 2)} {n N : Nat}

theorem narrow_billed {st : Edge → St} {i : Instr} (hv : lay.Valid) (h : lay.Narrow i) (hg : i.gate = .DEPOLARIZE1) : lay.Billed st i := by
  refine ⟨h.1, fun c hc => ?_⟩
  obtain ⟨e, he, hr⟩ := h.2 c hc
  rw [Instr.channels, hg] at hc
  obtain ⟨q, hq, rfl⟩ := List.mem_map.1 hc
  rcases hr q (by simp) with rfl | rfl | ⟨_, rfl⟩
  · exact .inl ⟨_, (ends_data hv he).1, rfl⟩
  · exact .inl ⟨_, (ends_data hv he).2, rfl⟩
  · exact .inr ⟨e, he, .inl rfl⟩

/-- Runs of the generated circuit with `n` errors are runs of the unrolled noiseless circuit with faults and flips about `n` data qubits. -/
theorem charged_sampled (hv : lay.Valid) (hs : lay.Supported) (hE : lay.isEM3 = false) (hN : lay.sub_rounds = N) {d : Circuit} (hd : lay.makeCircuit = .ok d)
    (hr : LooseRuns F d.flatten rec F' n) : ∃ (qs : List Pt) (rec0 : List (ZMod 2)) (G : Frame) (m : Nat), qs.length ≤ n ∧
      FaultyRuns (lay.IsIn (· ∈ qs)) F (lay.closedCircuit N) rec0 G m ∧ RecDiff (lay.Charged qs) (measured (lay.closedCircuit N)) rec0 rec := by
  obtain ⟨c, nm, idle, hc, -, htk, hf, -, htame, hi, e⟩ := noisy_form hv hs hN hd
  obtain ⟨c', _, _, hc', _, hsh, _⟩ := makeCircuit_ok hv hs hN
  rw [hc] at hc'
  obtain rfl := Except.ok.inj hc'
  have hsh2 : c.Shape fun r _ => 2 ≤ r := Shape.mono (fun _ _ h => h.1) hsh
  obtain ⟨st', hch⟩ := chain_all (lay := lay) (ops := lay.closedCircuit N) (st := fun _ => .full)
    (fun e he => life_closed hv hs hE he (by have := hs.2.2.1; omega) _)
  have key := simA_steps hv hE (nm := nm) (idle := idle) (fun st ops i hm => narrow_billed hv (hi ops i hm).1 (hi ops i hm).2) c
    (fun i hm => ⟨(htame i hm).1, (htame i hm).2, closed_stdI hv hs hE hN (hf ▸ Circuit.ops_flatten hsh2 hm)⟩) htk c.num_qubits [] (fun _ => .full) st' (by simp)
    (by rw [List.nil_append, hf]; exact hch)
  rw [← e, List.nil_append, hf] at key
  obtain ⟨-, key⟩ := key [] ⟨by simp, fun _ _ => trivial⟩
  have h0 : lay.Acc (fun _ => .full) [] F [] F 0 := ⟨[], [], 0, 0, le_rfl, by rw [add_zero]; exact .nil F, fun i hi => absurd rfl hi, .nil⟩
  obtain ⟨qs, rec0, T, m, h1, h2, -, h4⟩ := key F F [] 0 rec F' n h0 hr
  rw [List.nil_append] at h2 h4
  exact ⟨qs, rec0, _, m, by omega, h2, h4⟩

/-- Errors charged to some data qubits. -/
theorem closed_charged (hv : lay.Valid) (hs : lay.Supported) (hE : lay.isEM3 = false) (hN : lay.sub_rounds = N) (h1 : 1 ≤ N) {qs : List Pt} {rec0 : List (ZMod 2)} {m : Nat}
    (h : FaultyRuns (lay.IsIn (· ∈ qs)) F (lay.closedCircuit N) rec0 F' m) (hdiff : RecDiff (lay.Charged qs) (measured (lay.closedCircuit N)) rec0 rec)
    (hz : ∀ x ∈ timeline 0 (lay.closedCircuit N), x.1.gate = .DETECTOR → flipParity rec x = some 0)
    (ho : observableValue lay.obsI (lay.closedCircuit N) rec ≠ some 0) :
    (lay.obs = "V" → lay.data_width ≤ qs.length) ∧ (lay.obs ≠ "V" → lay.data_height ≤ 2 * qs.length) := by
  have := closed_damage (B := (· ∈ qs)) hv hs hN h1 (h.mono fun q hq => by
    obtain ⟨p, hp, hq, rfl⟩ := hq
    exact .inl ⟨p, hp, hq, rfl⟩) (by rw [hdiff.lengths.1, hdiff.lengths.2]) (fun t ht => ?_) hz ho
  · exact ⟨fun hV => (cross_points hv).1 (this.1 hV), fun hV => (cross_points hv).2 (this.2 hV)⟩
  have hlt : t < (measured (lay.closedCircuit N)).length := by
    by_contra hc
    rw [List.getElem?_eq_none (by rw [hdiff.lengths.2]; omega), List.getElem?_eq_none (by rw [hdiff.lengths.1]; omega)] at ht
    exact ht rfl
  obtain ⟨P, hP, x, hx, hch⟩ := hdiff.get t ht
  rcases measured_cases hv hs hN hlt with ⟨k, hk, e', he', rfl⟩ | ⟨q, hq, rfl⟩
  · rw [measured_edge hv hs hN hk he', Option.some.injEq] at hP
    refine ⟨_, result_edge hN hv hk he', ?_⟩
    subst hP
    simp only [hE, Bool.false_eq_true, if_false, List.mem_singleton] at hx
    subst hx
    have hea := round_edges_subset_all he'
    rcases hch with ⟨p, hp, hq, hh⟩ | ⟨e, he, hq, hh⟩
    · exact absurd hh.symm (center_ne_data hv hea hp)
    · obtain rfl := edge_center_inj hv hea he (idx_inj hv (center_mem_order hea) (center_mem_order he) hh)
      rcases hq with hq | hq
      · exact ⟨_, by simp, hq⟩
      · exact ⟨_, by simp, hq⟩
  · rw [measured_data hv hs hN hq, Option.some.injEq] at hP
    refine ⟨_, result_data hN hv hq, q, by simp, ?_⟩
    subst hP
    rw [List.mem_singleton] at hx
    subst hx
    rcases hch with ⟨p, hp, hpq, hh⟩ | ⟨e, he, _, hh⟩
    · rwa [← idx_inj hv (data_mem_order hp) (data_mem_order hq) hh]
    · exact absurd hh.symm (center_ne_data hv he hq)

end HoneycombLayout
end Honeycomb
