import Verif.Spec.Place
import Verif.Lemmas.GlitchNoise
import Verif.Lemmas.Linear
import Verif.Lemmas.NoiseEvents
import Verif.Props.Damage
import Verif.Props.Glitch

/-!
# Where and when the detectors fire

Damage in a region changes only detectors at faces and edges with a data qubit of the region. A single error is either a change of the
state between two instructions or one wrong result.
-/

namespace Honeycomb
open HoneycombLayout

variable {F F' : Frame} {rec rec0 : List (ZMod 2)} {lay : HoneycombLayout} {N m : Nat} {B : Pt → Prop}

/-- A run with one error. -/
theorem one_error {l : List Instr} {n : Nat} (h : NoisyRuns F l rec F' n) (hn : n = 1) :
    (∃ a b F1 F2 r1 r3, l = a ++ b ∧ Runs F (actions a) r1 F1 ∧ Runs F2 (actions b) r3 F' ∧ rec = r1 ++ r3) ∨
    ∃ rec0 T, Runs F (actions l) rec0 F' ∧ T < rec0.length ∧ rec.length = rec0.length ∧ ∀ t : Nat, t ≠ T → rec[t]? = rec0[t]? := by
  induction h with
  | nil F => omega
  | @step F F1 F' i l r1 r2 n h1 h2 ih =>
    rcases ih hn with ⟨a, b, G1, G2, s1, s3, rfl, g1, g3, rfl⟩ | ⟨rec0, T, g, hT, hl, hd⟩
    · refine .inl ⟨i :: a, b, G1, G2, r1 ++ s1, s3, rfl, ?_, g3, by rw [List.append_assoc]⟩
      rw [actions, List.flatMap_cons]
      exact runs_append.2 ⟨_, _, _, h1, g1, rfl⟩
    · refine .inr ⟨r1 ++ rec0, r1.length + T, ?_, ?_, ?_, fun t ht => ?_⟩
      · rw [actions, List.flatMap_cons]
        exact runs_append.2 ⟨_, _, _, h1, g, rfl⟩
      · rw [List.length_append]; omega
      · rw [List.length_append, List.length_append, hl]
      · rcases Nat.lt_or_ge t r1.length with hlt | hge
        · rw [List.getElem?_append_left hlt, List.getElem?_append_left hlt]
        · rw [List.getElem?_append_right hge, List.getElem?_append_right hge]
          exact hd _ (by omega)
  | @error F F' i l rec n P hP h _ =>
    exact .inl ⟨[], i :: l, F, F + P, [], rec, rfl, .nil F, noisy_runs_zero h (by omega), rfl⟩
  | @flip F F' i l rec n t ha ht h _ =>
    have h0 := noisy_runs_zero h (by omega)
    refine .inr ⟨rec, t, h0, ?_, by rw [List.length_modify], fun s hs => ?_⟩
    · rw [runs_measured h0, measured, List.flatMap_cons, List.length_append]; omega
    · have : t ≠ s := fun e => hs e.symm
      simp [List.getElem?_modify, this]

namespace HoneycombLayout

/-- The detectors changed by damage are at faces and edges of the damaged qubits. -/
theorem damage_place (hv : lay.Valid) (hs : lay.Supported) (hN : lay.sub_rounds = N)
    (h : FaultyRuns (lay.Inside B) F (lay.closedCircuit N) rec0 F' m) (hlen : rec.length = rec0.length)
    (hfl : ∀ t : Nat, rec[t]? ≠ rec0[t]? → ∃ qs ∈ lay.resultQubits[t]?, ∃ q ∈ qs, B q) :
    rec.length = N * lay.perRound + lay.data_qubit_coords.length ∧
      ∀ x ∈ allDets lay N, val (recAt rec) x.2.2 ≠ 0 → lay.Touches B x.2.1 := by
  have h1 : 1 ≤ N := by have := hs.2.2.1; omega
  obtain ⟨E, Fs, ht, hrec, hl, hE⟩ := damage_traj hv hs hN h hlen hfl
  refine ⟨hl, fun x hx hne => ?_⟩
  obtain ⟨φ, hφ⟩ := allDets_reads hv hs.2.1 h1 hx
  rw [hφ.val _ _ hrec] at hne
  classical
  obtain ⟨l, hm, hq, hj, hk⟩ := faults_hits hv hφ (((List.range (N + 1)).product lay.data_qubit_coords).filter fun l => E l.1 l.2 ≠ 0)
    (fun k q => if k ≤ N then E k q else 0) Fs
    ⟨fun q hq => by simpa using ht.init q hq, fun k hk e he => by
      obtain ⟨r, a, b⟩ := ht.step k hk e he
      exact ⟨r, by simpa [show k + 1 ≤ N from hk] using a, by simpa [show k + 1 ≤ N from hk] using b⟩⟩
    (fun k q hq hkq => by
      simp only at hkq
      by_cases hkN : k ≤ N
      · rw [if_pos hkN] at hkq
        rw [List.mem_filter, decide_eq_true_iff]
        exact ⟨List.mem_product.2 ⟨List.mem_range.2 (by omega), hq⟩, hkq⟩
      · rw [if_neg hkN] at hkq
        exact absurd rfl hkq) hne
  rw [List.mem_filter, decide_eq_true_iff] at hm
  obtain ⟨-, -, c⟩ := faultHits_place hv hq hj hk
  exact ⟨l.2, hq, hE l.1 l.2 hq hm.2, c.imp_left fun h => ⟨(isHex_iff hv _).2 h.1, h.2⟩⟩

/-- The layers of the detectors that use a result. -/
theorem usedBy_layer (hv : lay.Valid) (hN : lay.sub_rounds = N) (h1 : 1 ≤ N) {t : Nat} {key : Nat × Pt} (h : lay.UsedBy N t key) (hk : key.1 ≤ N) :
    min (t / lay.perRound) N ≤ key.1 ∧ key.1 ≤ min (t / lay.perRound) N + lay.glitchReach := by
  have hP := perRound_pos hv
  have hgap : lay.gapOf + 1 ≤ lay.glitchReach ∧ 0 < lay.gapOf := by
    rw [gapOf, glitchReach]
    split_ifs <;> simp_all
  refine ⟨?_, ?_⟩
  · have := usedBy_lt hv hN h1 h
    rw [layerTime] at this
    split_ifs at this with hlt
    · have : t / lay.perRound < key.1 + 1 := Nat.div_lt_of_lt_mul (by rwa [Nat.mul_comm])
      omega
    · omega
  · have er : ∀ {j e}, lay.IsEdgeResult N (t : Int) j e → ((t / lay.perRound : Nat) : Int) = j := by
      rintro j e ⟨a1, a2, a3, a4⟩
      have e1 := mTime_int hv a1 e
      have h3 := mTime_lt hv (k := j.toNat) (e := e) (by rwa [Int.toNat_of_nonneg a1])
      have e2 : t = lay.mTime j.toNat e := by omega
      have h5 : j.toNat * lay.perRound ≤ t := by rw [e2, mTime]; omega
      rw [← e2] at h3
      have : t / lay.perRound = j.toNat := Nat.div_eq_of_lt_le h5 h3
      omega
    have dr : ∀ {q}, lay.IsDataResult (t : Int) q → N ≤ t / lay.perRound := by
      rintro q ⟨a1, a2⟩
      have e2 := dTime_int hv hN q
      have : t = lay.dTime N q := by omega
      rw [this, dTime, Nat.le_div_iff_mul_le hP]
      omega
    generalize t / lay.perRound = k at *
    cases h with
    | first _ h => have := er h; simp
    | face _ _ _ h hu => have := er h; simp only at *; omega
    | edge _ h hu =>
      have := er h
      have : 3 ≤ lay.gapOf := by rw [gapOf]; split_ifs <;> omega
      simp only at *; omega
    | edgeData _ _ h => have := dr h; simp only; omega
    | last _ _ h hu => have := er h; simp only at *; omega
    | lastData _ _ h => have := dr h; simp only; omega

end HoneycombLayout
end Honeycomb
