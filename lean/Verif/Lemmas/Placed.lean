import Verif.Lemmas.Sampling

/-!
# Errors with their places

Runs that keep track of which targets and results were hit; how likely it is that given places are all hit.
-/

namespace Honeycomb
open scoped ENNReal

/-- The number of places of an instruction: one for each error of a noise channel, one for each result. -/
noncomputable def Instr.slots (i : Instr) : Nat := i.errors.length + i.measures.length

/-- Runs with errors at the places `H`. -/
inductive PlacedRuns : Frame → List Instr → List (ZMod 2) → Frame → List Nat → Prop
  | nil (F : Frame) : PlacedRuns F [] [] F []
  | step {F F1 F' : Frame} {i : Instr} {l : List Instr} {r1 r2 : List (ZMod 2)} {H : List Nat} :
      Runs F i.actions r1 F1 → PlacedRuns F1 l r2 F' H → PlacedRuns F (i :: l) (r1 ++ r2) F' (H.map (· + i.slots))
  | error {F F' : Frame} {i : Instr} {l : List Instr} {rec : List (ZMod 2)} {H : List Nat} {E : PMF Frame} (s : Nat) (P : Frame) :
      (∃ a ∈ i.args, a.positive) → i.errors[s]? = some E → P ∈ E.support → PlacedRuns (F + P) (i :: l) rec F' H → PlacedRuns F (i :: l) rec F' (s :: H)
  | flip {F F' : Frame} {i : Instr} {l : List Instr} {rec : List (ZMod 2)} {H : List Nat} (t : Nat) :
      (∃ a ∈ i.args, a.positive) → t < i.measures.length → PlacedRuns F (i :: l) rec F' H →
      PlacedRuns F (i :: l) (rec.modify t (· + 1)) F' ((i.errors.length + t) :: H)

theorem errors_drawn {i : Instr} (h : ∃ a ∈ i.args, a.positive) {E : PMF Frame} (hE : E ∈ i.errors) {P : Frame} (hP : P ∈ E.support) : i.Draws P := by
  refine ⟨h, ?_⟩
  unfold Instr.errors at hE
  split at hE
  pick_goal 6
  · simp at hE
  all_goals rename_i hg; rw [hg]
  · obtain ⟨q, hq, rfl⟩ := List.mem_map.1 hE
    rw [PMF.support_pure, Set.mem_singleton_iff] at hP
    exact ⟨q, hq, hP⟩
  · obtain ⟨q, hq, rfl⟩ := List.mem_map.1 hE
    rw [PMF.support_pure, Set.mem_singleton_iff] at hP
    exact ⟨q, hq, hP⟩
  · obtain ⟨q, hq, rfl⟩ := List.mem_map.1 hE
    rw [PMF.mem_support_map_iff] at hP
    obtain ⟨b, -, rfl⟩ := hP
    exact ⟨q, hq, b, rfl⟩
  · obtain ⟨x, hx, rfl⟩ := List.mem_map.1 hE
    rw [PMF.mem_support_map_iff] at hP
    obtain ⟨e, he, rfl⟩ := hP
    have hne : e ≠ 0 := by
      have := (PMF.mem_support_uniformOfFinset_iff _ _).1 he
      simpa using this
    refine ⟨x, hx, e.1, e.2, ?_, rfl⟩
    by_contra hc
    push Not at hc
    exact hne (Prod.ext hc.1 hc.2)
  · rw [List.mem_singleton] at hE
    subst hE
    rw [PMF.support_pure, Set.mem_singleton_iff] at hP
    exact hP

variable {F F' G : Frame} {l : List Instr} {rec : List (ZMod 2)} {H : List Nat} {n : Nat}

theorem PlacedRuns.noisy (h : PlacedRuns F l rec F' H) : NoisyRuns F l rec F' H.length := by
  induction h with
  | nil F => exact .nil F
  | step h1 _ ih => rw [List.length_map]; exact .step h1 ih
  | error s P ha hE hP _ ih => exact .error P (errors_drawn ha (List.mem_of_getElem? hE) hP) ih
  | flip t ha ht _ ih => exact .flip t ha ht ih

theorem NoisyRuns.placed (h : NoisyRuns F l rec F' n) : ∃ H, H.length = n ∧ PlacedRuns F l rec F' H := by
  induction h with
  | nil F => exact ⟨[], rfl, .nil F⟩
  | step h1 _ ih =>
    obtain ⟨H, rfl, h⟩ := ih
    exact ⟨_, by rw [List.length_map], .step h1 h⟩
  | error P hP _ ih =>
    obtain ⟨H, rfl, h⟩ := ih
    obtain ⟨E, hE, hPE⟩ := draws_errors hP
    obtain ⟨s, hs⟩ := List.getElem?_of_mem hE
    exact ⟨s :: H, rfl, .error s P hP.1 hs hPE h⟩
  | flip t ha ht _ ih =>
    obtain ⟨H, rfl, h⟩ := ih
    exact ⟨_, rfl, .flip t ha ht h⟩

/-- Every place is a place of the circuit. -/
theorem PlacedRuns.lt (h : PlacedRuns F l rec F' H) : ∀ j ∈ H, j < (l.map Instr.slots).sum := by
  induction h with
  | nil F => simp
  | step h1 _ ih =>
    intro j hj
    obtain ⟨k, hk, rfl⟩ := List.mem_map.1 hj
    have := ih k hk
    simp only [List.map_cons, List.sum_cons]
    omega
  | error s P ha hE hP _ ih =>
    intro j hj
    rcases List.mem_cons.1 hj with rfl | hj
    · have := (List.getElem?_eq_some_iff.1 hE).1
      simp only [List.map_cons, List.sum_cons, Instr.slots]
      omega
    · exact ih j hj
  | flip t ha ht _ ih =>
    intro j hj
    rcases List.mem_cons.1 hj with rfl | hj
    · simp only [List.map_cons, List.sum_cons, Instr.slots]
      omega
    · exact ih j hj

/-- A run with errors at `Ha ++ Hb` is the sum of runs with errors at `Ha` and at `Hb`. -/
theorem PlacedRuns.split (h : PlacedRuns F l rec F' H) : ∀ {A B : Frame} {Ha Hb : List Nat}, F = A + B → H = Ha ++ Hb →
    ∃ ra rb A' B', PlacedRuns A l ra A' Ha ∧ PlacedRuns B l rb B' Hb ∧ rec = addRec ra rb ∧ F' = A' + B' := by
  induction h with
  | nil F =>
    rintro A B Ha Hb rfl h0
    obtain ⟨rfl, rfl⟩ := List.append_eq_nil_iff.1 h0.symm
    exact ⟨[], [], A, B, .nil _, .nil _, rfl, rfl⟩
  | step hr hn ih =>
    rintro A B Ha Hb hF h0
    obtain ⟨Ha, Hb, rfl, rfl, rfl⟩ := List.map_eq_append_iff.1 h0
    obtain ⟨ra, rb, A1, B1, h1, h2, rfl, h4⟩ := hr.split (instr_additive _) hF
    obtain ⟨ra', rb', A', B', h1', h2', rfl, h4'⟩ := ih h4 rfl
    refine ⟨_, _, A', B', .step h1 h1', .step h2 h2', ?_, h4'⟩
    rw [addRec_append ((runs_length h1).trans (runs_length h2).symm)]
  | error s P ha hE hP _ ih =>
    rintro A B Ha Hb rfl h0
    cases Ha with
    | cons a Ha =>
      rw [List.cons_append, List.cons.injEq] at h0
      obtain ⟨rfl, h0⟩ := h0
      obtain ⟨ra, rb, A', B', h1, h2, h3, h4⟩ := ih (A := A + P) (B := B) (add_right_comm _ _ _) h0
      exact ⟨ra, rb, A', B', .error s P ha hE hP h1, h2, h3, h4⟩
    | nil =>
      rw [List.nil_append] at h0
      subst h0
      obtain ⟨ra, rb, A', B', h1, h2, h3, h4⟩ := ih (A := A) (B := B + P) (Ha := []) (add_assoc _ _ _) rfl
      exact ⟨ra, rb, A', B', h1, .error s P ha hE hP h2, h3, h4⟩
  | flip t ha ht _ ih =>
    rintro A B Ha Hb rfl h0
    cases Ha with
    | cons a Ha =>
      rw [List.cons_append, List.cons.injEq] at h0
      obtain ⟨rfl, h0⟩ := h0
      obtain ⟨ra, rb, A', B', h1, h2, h3, h4⟩ := ih rfl h0
      exact ⟨_, rb, A', B', .flip t ha ht h1, h2, by rw [addRec_modify, h3], h4⟩
    | nil =>
      rw [List.nil_append] at h0
      subst h0
      obtain ⟨ra, rb, A', B', h1, h2, h3, h4⟩ := ih (Ha := []) rfl rfl
      exact ⟨ra, _, A', B', h1, .flip t ha ht h2, by rw [addRec_comm, addRec_modify, addRec_comm, h3], h4⟩

/-- A record with errors just at the places `H`. -/
def SampleAt (l : List Instr) (H : List Nat) (rec : List (ZMod 2)) : Prop := ∃ F F', StartFrame F ∧ PlacedRuns F l rec F' H

theorem SampleAt.sample (h : SampleAt l H rec) : CanSample H.length l rec := by
  obtain ⟨F, F', h0, h⟩ := h
  exact ⟨F, F', h0, h.noisy⟩

theorem CanSample.at (h : CanSample n l rec) : ∃ H, H.length = n ∧ SampleAt l H rec := by
  obtain ⟨F, F', h0, h⟩ := h
  obtain ⟨H, e, h⟩ := h.placed
  exact ⟨H, e, F, F', h0, h⟩

theorem SampleAt.split {a : Nat} (h : SampleAt l (a :: H) rec) : ∃ ra rb, SampleAt l [a] ra ∧ SampleAt l H rb ∧ rec = addRec ra rb := by
  obtain ⟨F, F', h0, h⟩ := h
  obtain ⟨ra, rb, A', B', h1, h2, h3, -⟩ := h.split (A := F) (B := 0) (Ha := [a]) (by simp) rfl
  exact ⟨ra, rb, ⟨F, A', h0, h1⟩, ⟨0, B', fun q => rfl, h2⟩, h3⟩

/-! ## What a sample can be, with places -/

/-- The places of the hits. -/
def trues : List Bool → List Nat
  | [] => []
  | true :: l => 0 :: (trues l).map (· + 1)
  | false :: l => (trues l).map (· + 1)

theorem trues_append : ∀ a b : List Bool, trues (a ++ b) = trues a ++ (trues b).map (· + a.length)
  | [], b => by simp [trues]
  | true :: a, b => by simp [trues, trues_append a b, Nat.add_assoc, Nat.add_comm 1]
  | false :: a, b => by simp [trues, trues_append a b, Nat.add_assoc, Nat.add_comm 1]

theorem trues_length : ∀ a : List Bool, (trues a).length = hits a
  | [] => rfl
  | true :: a => by simp [trues, trues_length a, Nat.add_comm]
  | false :: a => by simp [trues, trues_length a]

theorem mem_trues : ∀ {a : List Bool} {j : Nat}, j ∈ trues a ↔ a[j]? = some true
  | [], j => by simp [trues]
  | true :: a, j => by
    cases j with
    | zero => simp [trues]
    | succ j => simp [trues, mem_trues (a := a)]
  | false :: a, j => by
    cases j with
    | zero => simp [trues]
    | succ j => simp [trues, mem_trues (a := a)]

theorem trues_nodup : ∀ a : List Bool, (trues a).Nodup
  | [] => List.nodup_nil
  | true :: a => by
    rw [trues, List.nodup_cons]
    exact ⟨by simp, (trues_nodup a).map (fun _ _ h => by simpa using h)⟩
  | false :: a => (trues_nodup a).map (fun _ _ h => by simpa using h)

theorem withErrors_length : ∀ (Es : List (PMF Frame)) {p : ℝ≥0∞} {F : Frame} {x : Frame × List Bool}, x ∈ (withErrors p Es F).support → x.2.length = Es.length
  | [], p, F, x, hx => by
    rw [withErrors, PMF.support_pure, Set.mem_singleton_iff] at hx
    subst hx; rfl
  | E :: Es, p, F, x, hx => by
    rw [withErrors, PMF.mem_support_bind_iff] at hx
    obtain ⟨b, hb, hx⟩ := hx
    cases b with
    | false =>
      simp only [Bool.false_eq_true, if_false, PMF.mem_support_map_iff] at hx
      obtain ⟨y, hy, rfl⟩ := hx
      simpa using withErrors_length Es hy
    | true =>
      simp only [if_true, PMF.mem_support_bind_iff, PMF.mem_support_map_iff] at hx
      obtain ⟨P, hP, y, hy, rfl⟩ := hx
      simpa using withErrors_length Es hy

theorem withFlips_hits : ∀ (rs : List (ZMod 2)) {p : ℝ≥0∞} {x : List (ZMod 2) × List Bool}, x ∈ (withFlips p rs).support → x.2.length = rs.length
  | [], p, x, hx => by
    rw [withFlips, PMF.support_pure, Set.mem_singleton_iff] at hx
    subst hx; rfl
  | r :: rs, p, x, hx => by
    rw [withFlips, PMF.mem_support_bind_iff] at hx
    obtain ⟨b, hb, hx⟩ := hx
    rw [PMF.mem_support_map_iff] at hx
    obtain ⟨y, hy, rfl⟩ := hx
    simpa using withFlips_hits rs hy

theorem withErrors_placed {i : Instr} : ∀ (Es : List (PMF Frame)) (o : Nat), Es = i.errors.drop o →
    ∀ {F : Frame} {x : Frame × List Bool}, x ∈ (withErrors i.chance Es F).support → PlacedRuns x.1 (i :: l) rec G H →
      PlacedRuns F (i :: l) rec G ((trues x.2).map (· + o) ++ H)
  | [], o, _, F, x, hx, h => by
    rw [withErrors, PMF.support_pure, Set.mem_singleton_iff] at hx
    subst hx; exact h
  | E :: Es, o, hEs, F, x, hx, h => by
    rw [withErrors, PMF.mem_support_bind_iff] at hx
    obtain ⟨b, hb, hx⟩ := hx
    have hE : i.errors[o]? = some E := by
      have : (i.errors.drop o)[0]? = some E := by rw [← hEs]; rfl
      simpa using this
    have hEs' : Es = i.errors.drop (o + 1) := by
      rw [← List.tail_drop, ← hEs]; rfl
    cases b with
    | false =>
      simp only [Bool.false_eq_true, if_false, PMF.mem_support_map_iff] at hx
      obtain ⟨y, hy, rfl⟩ := hx
      have := withErrors_placed Es (o + 1) hEs' hy h
      simpa [trues, Function.comp_def, Nat.add_assoc, Nat.add_comm 1] using this
    | true =>
      simp only [if_true, PMF.mem_support_bind_iff, PMF.mem_support_map_iff] at hx
      obtain ⟨P, hP, y, hy, rfl⟩ := hx
      have := PlacedRuns.error o P (chance_positive (biased_true hb rfl)) hE hP (withErrors_placed Es (o + 1) hEs' hy h)
      simpa [trues, Function.comp_def, Nat.add_assoc, Nat.add_comm 1] using this

theorem withFlips_placed {i : Instr} {r2 : List (ZMod 2)} : ∀ (rs : List (ZMod 2)) {pre : List (ZMod 2)}
    {x : List (ZMod 2) × List Bool}, pre.length + rs.length ≤ i.measures.length → x ∈ (withFlips i.chance rs).support →
    PlacedRuns F (i :: l) (pre ++ (rs ++ r2)) G H →
      PlacedRuns F (i :: l) (pre ++ (x.1 ++ r2)) G ((trues x.2).map (· + (i.errors.length + pre.length)) ++ H)
  | [], pre, x, _, hx, h => by
    rw [withFlips, PMF.support_pure, Set.mem_singleton_iff] at hx
    subst hx; exact h
  | r :: rs, pre, x, hl, hx, h => by
    rw [withFlips, PMF.mem_support_bind_iff] at hx
    obtain ⟨b, hb, hx⟩ := hx
    rw [PMF.mem_support_map_iff] at hx
    obtain ⟨y, hy, rfl⟩ := hx
    rw [List.length_cons] at hl
    have h1 := withFlips_placed rs (pre := pre ++ [r]) (by simp; omega) hy (by simpa using h)
    cases b with
    | false => simpa [trues, Function.comp_def, Nat.add_assoc, Nat.add_comm 1] using h1
    | true =>
      have h2 := PlacedRuns.flip pre.length (chance_positive (biased_true hb rfl)) (by omega) h1
      rw [List.append_assoc, List.singleton_append, modify_mid] at h2
      simpa [trues, Function.comp_def, Nat.add_assoc, Nat.add_comm 1] using h2

theorem sampleCircuit_placed : ∀ (l : List Instr) {F : Frame} {x : List (ZMod 2) × List Bool}, x ∈ (sampleCircuit l F).support →
    ∃ G, PlacedRuns F l x.1 G (trues x.2)
  | [], F, x, h => by
    rw [sampleCircuit, PMF.support_pure, Set.mem_singleton_iff] at h
    subst h; exact ⟨F, .nil F⟩
  | i :: l, F, x, h => by
    obtain ⟨u, hu, v, hv, w, hw, z, hz, rfl⟩ := mem_sampleCircuit_cons.1 h
    obtain ⟨G, hG⟩ := sampleCircuit_placed l hz
    have h1 := PlacedRuns.step (sampleActions_runs _ hv) hG
    have hlen : v.1.length = i.measures.length := by
      rw [runs_length (sampleActions_runs _ hv), results_actions]
    have h2 := withFlips_placed v.1 (pre := []) (by simp [hlen]) hw h1
    have h3 := withErrors_placed i.errors 0 rfl hu h2
    refine ⟨G, ?_⟩
    have e : (u.2 ++ w.2).length = i.slots := by rw [List.length_append, withErrors_length _ hu, withFlips_hits _ hw, hlen, Instr.slots]
    rw [trues_append, trues_append, e, withErrors_length _ hu, List.append_assoc]
    simpa using h3

/-! ## How likely given places are all hit -/

/-- 1 if every place of the mask is hit, 0 otherwise. -/
def covered : List Bool → List Bool → ℝ≥0∞
  | [], _ => 1
  | true :: _, [] => 0
  | false :: s, [] => covered s []
  | true :: s, b :: l => if b then covered s l else 0
  | false :: s, _ :: l => covered s l

theorem covered_append : ∀ (a s b : List Bool), covered s (a ++ b) = covered (s.take a.length) a * covered (s.drop a.length) b
  | [], s, b => by simp [covered]
  | x :: a, [], b => by simp [covered]
  | x :: a, true :: s, b => by
    cases x
    · simp [covered]
    · simpa [covered] using covered_append a s b
  | x :: a, false :: s, b => by simpa [covered] using covered_append a s b

theorem covered_nil : ∀ (s : List Bool) (q : ℝ≥0∞), covered s [] ≤ q ^ hits s
  | [], q => by simp [covered]
  | true :: s, q => by simp [covered]
  | false :: s, q => by simpa [covered] using covered_nil s q

theorem covered_full : ∀ (s l : List Bool), (∀ j : Nat, s[j]? = some true → l[j]? = some true) → covered s l = 1
  | [], _, _ => by simp [covered]
  | true :: s, [], h => by simpa using h 0 rfl
  | false :: s, [], h => by
    rw [covered]
    exact covered_full s [] fun j hj => by simpa using h (j + 1) (by simpa using hj)
  | true :: s, b :: l, h => by
    have hb : b = true := by simpa using h 0 rfl
    rw [covered, if_pos hb]
    exact covered_full s l fun j hj => by simpa using h (j + 1) (by simpa using hj)
  | false :: s, b :: l, h => by
    rw [covered]
    exact covered_full s l fun j hj => by simpa using h (j + 1) (by simpa using hj)

variable {α β : Type} {q p : ℝ≥0∞} {D : PMF α} {f : α → List Bool}

/-- Given places are all hit with probability at most `q` to the power of their number. -/
def Cover (q : ℝ≥0∞) (D : PMF α) (f : α → List Bool) : Prop := ∀ s, mean D (fun x => covered s (f x)) ≤ q ^ hits s

/-- The same after the hits `a`. -/
def CoverMore (a : List Bool) (q : ℝ≥0∞) (D : PMF α) (f : α → List Bool) : Prop :=
  ∀ s, mean D (fun x => covered s (f x)) ≤ covered (s.take a.length) a * q ^ hits (s.drop a.length)

theorem CoverMore.of_bind {a : List Bool} {g : α → PMF β} {f : β → List Bool} (h : ∀ x ∈ D.support, CoverMore a q (g x) f) : CoverMore a q (D.bind g) f :=
  fun s => by
    rw [mean_bind]
    exact (mean_le fun x hx => h x hx s).trans (mean_const D _).le

theorem Cover.shift {a : List Bool} {h : α → β} {f' : β → List Bool} (hD : Cover q D f) (e : ∀ x, f' (h x) = a ++ f x) : CoverMore a q (D.map h) f' :=
  fun s => by
    rw [mean_map]
    simp only [e, covered_append]
    have : mean D (fun x => covered (s.take a.length) a * covered (s.drop a.length) (f x)) =
        mean D (fun x => covered (s.drop a.length) (f x)) * covered (s.take a.length) a := by
      rw [← mean_mul_const]; simp only [mul_comm]
    rw [this, mul_comm]
    exact mul_le_mul' le_rfl (hD _)

theorem Cover.bind {n : Nat} {g : α → PMF β} {f' : β → List Bool} (hD : Cover q D f) (hn : ∀ x ∈ D.support, (f x).length = n)
    (h : ∀ x ∈ D.support, CoverMore (f x) q (g x) f') : Cover q (D.bind g) f' := fun s => by
  rw [mean_bind]
  calc mean D (fun x => mean (g x) fun y => covered s (f' y)) ≤ mean D (fun x => covered (s.take n) (f x) * q ^ hits (s.drop n)) :=
        mean_le fun x hx => by
          have := h x hx s
          rwa [hn x hx] at this
    _ = mean D (fun x => covered (s.take n) (f x)) * q ^ hits (s.drop n) := mean_mul_const _ _ _
    _ ≤ q ^ hits (s.take n) * q ^ hits (s.drop n) := mul_le_mul' (hD _) le_rfl
    _ = q ^ hits s := by rw [← pow_add, ← hits_append, List.take_append_drop]

theorem cover_pure {a : α} (h : f a = []) : Cover q (PMF.pure a) f := fun s => by
  rw [mean_pure, h]
  exact covered_nil s q

theorem cover_biased (hp : p ≤ q) : Cover q (biased p) fun b => [b] := fun s => by
  have e : mean (biased p) (fun b => covered s [b]) = min p 1 * covered s [true] + (1 - min p 1) * covered s [false] := by
    rw [mean, tsum_bool]
    simp [biased, add_comm]
  rw [e]
  match s with
  | [] => simp [covered, add_tsub_cancel_of_le]
  | true :: s =>
    simp only [covered, Bool.false_eq_true, if_false, if_true, mul_zero, add_zero, hits_cons, Bool.toNat_true, pow_add, pow_one]
    exact mul_le_mul' ((min_le_left _ _).trans hp) (covered_nil s q)
  | false :: s =>
    simp only [covered, hits_cons, Bool.toNat_false, Nat.zero_add]
    rw [← add_mul, add_tsub_cancel_of_le (min_le_right _ _), one_mul]
    exact covered_nil s q

theorem cover_withErrors (hp : p ≤ q) : ∀ (Es : List (PMF Frame)) (F : Frame), Cover q (withErrors p Es F) Prod.snd
  | [], F => cover_pure rfl
  | E :: Es, F => by
    rw [withErrors]
    refine (cover_biased hp).bind (n := 1) (fun _ _ => rfl) fun b _ => ?_
    cases b
    · exact (cover_withErrors hp Es F).shift fun x => rfl
    · simp only [if_true]
      exact CoverMore.of_bind fun P _ => (cover_withErrors hp Es (F + P)).shift fun x => rfl

theorem cover_withFlips (hp : p ≤ q) : ∀ rs : List (ZMod 2), Cover q (withFlips p rs) Prod.snd
  | [] => cover_pure rfl
  | r :: rs => by
    rw [withFlips]
    exact (cover_biased hp).bind (n := 1) (fun _ _ => rfl) fun b _ => (cover_withFlips hp rs).shift fun x => rfl

theorem sample_length {i : Instr} {x : (List (ZMod 2) × Frame) × List Bool} (h : x ∈ (i.sample F).support) : x.2.length = i.slots := by
  simp only [Instr.sample, PMF.mem_support_bind_iff, PMF.mem_support_map_iff] at h
  obtain ⟨u, hu, v, hv, w, hw, rfl⟩ := h
  rw [List.length_append, withErrors_length _ hu, withFlips_hits _ hw, runs_length (sampleActions_runs _ hv), results_actions, Instr.slots]

theorem cover_withErrors_nil {p : ℝ≥0∞} (F : Frame) : Cover q (withErrors p [] F) Prod.snd := cover_pure rfl

theorem cover_instr {i : Instr} {F : Frame} (hp : 0 < i.places → i.chance ≤ q) : Cover q (i.sample F) Prod.snd := by
  rw [Instr.sample]
  by_cases hq : i.chance ≤ q
  · refine (cover_withErrors hq _ _).bind (fun x hx => withErrors_length _ hx) fun x _ => CoverMore.of_bind fun y hy => ?_
    exact (cover_withFlips hq y.1).shift fun z => rfl
  · have h0 : i.places = 0 := by
      by_contra h0
      exact hq (hp (Nat.pos_of_ne_zero h0))
    rw [Instr.places, if_neg (fun ha => hq (by simp [Instr.chance, ha])), ← errors_length, Nat.add_eq_zero_iff, List.length_eq_zero_iff,
      List.length_eq_zero_iff] at h0
    rw [h0.1]
    refine (cover_withErrors_nil F).bind (fun x hx => withErrors_length _ hx) fun x _ => CoverMore.of_bind fun y hy => ?_
    have hlen := runs_length (sampleActions_runs _ hy)
    rw [results_actions, h0.2, List.length_nil, List.length_eq_zero_iff] at hlen
    rw [hlen, withFlips]
    exact (cover_pure (f := fun z : List (ZMod 2) × List Bool => z.2) rfl).shift fun z => rfl

theorem cover_circuit : ∀ (l : List Instr) (F : Frame), (∀ i ∈ l, 0 < i.places → i.chance ≤ q) → Cover q (sampleCircuit l F) Prod.snd
  | [], F, _ => cover_pure rfl
  | i :: l, F, h => by
    rw [sampleCircuit]
    exact (cover_instr (h i (by simp))).bind (fun x hx => sample_length hx) fun x _ =>
      (cover_circuit l x.1.2 fun j hj => h j (List.mem_cons_of_mem _ hj)).shift fun y => rfl

theorem hits_mask (S : Finset Nat) (n : Nat) : hits ((List.range n).map fun j => decide (j ∈ S)) = (S.filter (· < n)).card := by
  induction n with
  | zero => simp
  | succ n ih =>
    rw [List.range_succ, List.map_append, hits_append, ih]
    by_cases h : n ∈ S
    · have : S.filter (· < n + 1) = insert n (S.filter (· < n)) := by
        ext x
        simp only [Finset.mem_filter, Finset.mem_insert]
        constructor
        · rintro ⟨h1, h2⟩; by_cases hx : x = n
          · exact .inl hx
          · exact .inr ⟨h1, by omega⟩
        · rintro (rfl | ⟨h1, h2⟩)
          · exact ⟨h, by omega⟩
          · exact ⟨h1, by omega⟩
      rw [this, Finset.card_insert_of_notMem (by simp)]
      simp [h]
    · have : S.filter (· < n + 1) = S.filter (· < n) := by
        ext x
        simp only [Finset.mem_filter]
        refine ⟨fun ⟨h1, h2⟩ => ⟨h1, ?_⟩, fun ⟨h1, h2⟩ => ⟨h1, by omega⟩⟩
        have : x ≠ n := fun e => h (e ▸ h1)
        omega
      rw [this]
      simp [h]

/-- All places of `S` are hit with probability at most `q ^ S.card`. -/
theorem Cover.prob (h : Cover q D f) (S : Finset Nat) : D.toOuterMeasure {x | ∀ j ∈ S, (f x)[j]? = some true} ≤ q ^ S.card := by
  obtain ⟨n, hn⟩ : ∃ n, ∀ j ∈ S, j < n := ⟨S.sup id + 1, fun j hj => Nat.lt_succ_of_le (Finset.le_sup (f := id) hj)⟩
  have hm := h ((List.range n).map fun j => decide (j ∈ S))
  rw [hits_mask, Finset.filter_true_of_mem hn] at hm
  refine le_trans ?_ hm
  rw [PMF.toOuterMeasure_apply]
  refine ENNReal.tsum_le_tsum fun x => ?_
  change _ ≤ D x * covered _ (f x)
  by_cases hx : ∀ j ∈ S, (f x)[j]? = some true
  · rw [Set.indicator_of_mem (show x ∈ {x | ∀ j ∈ S, (f x)[j]? = some true} from hx), covered_full _ _ fun j hj => ?_, mul_one]
    rw [List.getElem?_map, Option.map_eq_some_iff] at hj
    obtain ⟨k, hk, hd⟩ := hj
    rw [List.getElem?_range] at hk
    · cases hk
      exact hx _ (by simpa using hd)
    · by_contra hc
      rw [List.getElem?_eq_none (by simpa using hc)] at hk
      cases hk
  · rw [Set.indicator_of_notMem (show x ∉ {x | ∀ j ∈ S, (f x)[j]? = some true} from hx)]
    exact zero_le

end Honeycomb
