import Mathlib.Data.Nat.Choose.Vandermonde
import Verif.Spec.Sampling
import Verif.Lemmas.Linear
import Verif.Lemmas.NoiseEvents
import Verif.Lemmas.Absorb
import Verif.Lemmas.Faults

/-!
# The number of errors of a sample

The factorial moments of the number of errors are at most those of a binomial distribution; what a sample can be.
-/

namespace Honeycomb
open scoped ENNReal

variable {α β γ : Type}

/-! ## Expectations -/

/-- The mean of `g`. -/
noncomputable def mean (D : PMF α) (g : α → ℝ≥0∞) : ℝ≥0∞ := ∑' x, D x * g x

theorem mean_bind (D : PMF α) (f : α → PMF β) (g : β → ℝ≥0∞) : mean (D.bind f) g = mean D fun x => mean (f x) g := by
  unfold mean
  simp only [PMF.bind_apply, ← ENNReal.tsum_mul_right, ← ENNReal.tsum_mul_left]
  rw [ENNReal.tsum_comm]
  simp only [mul_assoc]

theorem mean_pure (a : α) (g : α → ℝ≥0∞) : mean (PMF.pure a) g = g a := by
  classical
  unfold mean
  rw [tsum_eq_single a (fun x hx => by simp [PMF.pure_apply, hx])]
  simp

theorem mean_map (D : PMF α) (h : α → β) (g : β → ℝ≥0∞) : mean (D.map h) g = mean D fun x => g (h x) := by
  rw [PMF.map, mean_bind]
  simp only [Function.comp, mean_pure]

theorem mean_le {D : PMF α} {g g' : α → ℝ≥0∞} (h : ∀ x ∈ D.support, g x ≤ g' x) : mean D g ≤ mean D g' := by
  refine ENNReal.tsum_le_tsum fun x => ?_
  by_cases hx : D x = 0
  · simp [hx]
  · exact mul_le_mul_right (h x ((PMF.mem_support_iff _ _).2 hx)) _

theorem mean_const (D : PMF α) (c : ℝ≥0∞) : mean D (fun _ => c) = c := by
  unfold mean
  rw [ENNReal.tsum_mul_right, PMF.tsum_coe, one_mul]

theorem mean_mul_const (D : PMF α) (g : α → ℝ≥0∞) (c : ℝ≥0∞) : mean D (fun x => g x * c) = mean D g * c := by
  unfold mean
  simp only [← mul_assoc]
  rw [ENNReal.tsum_mul_right]

theorem mean_sum {ι : Type} (D : PMF α) (s : Finset ι) (g : ι → α → ℝ≥0∞) : mean D (fun x => ∑ j ∈ s, g j x) = ∑ j ∈ s, mean D (g j) := by
  unfold mean
  simp only [Finset.mul_sum]
  rw [Summable.tsum_finsetSum fun _ _ => ENNReal.summable]

/-! ## Few errors -/

/-- The factorial moments of `c` are at most those of the number of hits among `M` independent trials of probability `q`. -/
def Few (q : ℝ≥0∞) (M : Nat) (D : PMF α) (c : α → Nat) : Prop := ∀ k, mean D (fun x => ((c x).choose k : ℝ≥0∞)) ≤ M.choose k * q ^ k

/-- The same with `n` further hits. -/
def FewMore (n : Nat) (q : ℝ≥0∞) (M : Nat) (D : PMF α) (c : α → Nat) : Prop :=
  ∀ k, mean D (fun x => ((c x).choose k : ℝ≥0∞)) ≤ ∑ ij ∈ Finset.antidiagonal k, (n.choose ij.1 : ℝ≥0∞) * (M.choose ij.2 * q ^ ij.2)

variable {q p : ℝ≥0∞} {M M1 M2 n : Nat} {D : PMF α} {c : α → Nat}

theorem Few.mono (h : Few p M1 D c) (hp : p ≤ q) (hM : M1 ≤ M2) : Few q M2 D c := fun k =>
  (h k).trans (mul_le_mul' (Nat.cast_le.2 (Nat.choose_le_choose k hM)) (pow_le_pow_left' hp k))

theorem Few.none (h : Few 0 M D c) : Few q 0 D c := fun k => by
  refine (h k).trans ?_
  rcases k with _ | k
  · simp
  · simp

theorem few_zero (h : ∀ x, c x = 0) : Few q 0 D c := fun k => by
  simp only [h, mean_const]
  rcases k with _ | k <;> simp

theorem FewMore.of_bind {f : α → PMF β} {c : β → Nat} (h : ∀ x ∈ D.support, FewMore n q M (f x) c) : FewMore n q M (D.bind f) c := fun k => by
  rw [mean_bind]
  exact (mean_le fun x hx => h x hx k).trans (mean_const D _).le

theorem Few.shift {h : α → β} {c' : β → Nat} (hD : Few q M D c) (e : ∀ x, c' (h x) = n + c x) : FewMore n q M (D.map h) c' := fun k => by
  rw [mean_map]
  simp only [e, Nat.add_choose_eq, Nat.cast_sum, Nat.cast_mul]
  rw [mean_sum]
  refine Finset.sum_le_sum fun ij _ => ?_
  have : mean D (fun x => (n.choose ij.1 : ℝ≥0∞) * ((c x).choose ij.2 : ℝ≥0∞)) = mean D (fun x => ((c x).choose ij.2 : ℝ≥0∞)) * n.choose ij.1 := by
    rw [← mean_mul_const]; simp only [mul_comm]
  rw [this, mul_comm]
  exact mul_le_mul' le_rfl (hD ij.2)

theorem Few.bind {f : α → PMF β} {c' : β → Nat} (hD : Few q M1 D c) (h : ∀ x ∈ D.support, FewMore (c x) q M2 (f x) c') : Few q (M1 + M2) (D.bind f) c' := fun k => by
  rw [mean_bind]
  refine (mean_le fun x hx => h x hx k).trans ?_
  rw [mean_sum]
  simp only [mean_mul_const]
  rw [Nat.add_choose_eq, Nat.cast_sum, Finset.sum_mul]
  refine Finset.sum_le_sum fun ij hij => ?_
  refine (mul_le_mul' (hD ij.1) le_rfl).trans (le_of_eq ?_)
  rw [← Finset.mem_antidiagonal.1 hij, pow_add, Nat.cast_mul]
  ring

theorem Few.tail (h : Few q M D c) (k : Nat) : D.toOuterMeasure {x | k ≤ c x} ≤ M.choose k * q ^ k := by
  refine le_trans ?_ (h k)
  rw [PMF.toOuterMeasure_apply]
  refine ENNReal.tsum_le_tsum fun x => ?_
  by_cases hx : k ≤ c x
  · rw [Set.indicator_of_mem (show x ∈ {x | k ≤ c x} from hx)]
    have : 1 ≤ (c x).choose k := Nat.choose_pos hx
    calc D x = D x * 1 := (mul_one _).symm
      _ ≤ _ := mul_le_mul' le_rfl (show (1 : ℝ≥0∞) ≤ ((c x).choose k : ℝ≥0∞) by exact_mod_cast this)
  · rw [Set.indicator_of_notMem (show x ∉ {x | k ≤ c x} from hx)]
    exact zero_le

theorem few_biased : Few p 1 (biased p) Bool.toNat := fun k => by
  have e : mean (biased p) (fun b => ((b.toNat).choose k : ℝ≥0∞)) = min p 1 * (Nat.choose 1 k) + (1 - min p 1) * (Nat.choose 0 k) := by
    rw [mean, tsum_bool]
    simp [biased, add_comm]
  rw [e]
  rcases k with _ | _ | k
  · simp [add_tsub_cancel_of_le]
  · simp
  · simp [Nat.choose_eq_zero_of_lt (show 1 < k + 1 + 1 by omega)]

/-- The number of hits. -/
def hits (l : List Bool) : Nat := l.count true

@[simp] theorem hits_nil : hits [] = 0 := rfl
@[simp] theorem hits_append (a b : List Bool) : hits (a ++ b) = hits a + hits b := List.count_append
@[simp] theorem hits_cons (b : Bool) (l : List Bool) : hits (b :: l) = b.toNat + hits l := by cases b <;> simp [hits, Nat.add_comm]

theorem few_withErrors (hp : p ≤ q) : ∀ (Es : List (PMF Frame)) (F : Frame), Few q Es.length (withErrors p Es F) fun x => hits x.2
  | [], F => by
    intro k
    rw [withErrors, mean_pure]
    rcases k with _ | k <;> simp
  | E :: Es, F => by
    rw [withErrors, List.length_cons, Nat.add_comm]
    refine (few_biased.mono hp le_rfl).bind fun b _ => ?_
    cases b
    · exact (few_withErrors hp Es F).shift fun x => by simp
    · simp only [if_true]
      exact FewMore.of_bind fun P _ => (few_withErrors hp Es (F + P)).shift fun x => by simp

theorem few_withFlips (hp : p ≤ q) : ∀ rs : List (ZMod 2), Few q rs.length (withFlips p rs) fun x => hits x.2
  | [] => by
    intro k
    rw [withFlips, mean_pure]
    rcases k with _ | k <;> simp
  | r :: rs => by
    rw [withFlips, List.length_cons, Nat.add_comm]
    exact (few_biased.mono hp le_rfl).bind fun b _ => (few_withFlips hp rs).shift fun x => by simp

/-! ## What a sample can be -/

theorem sampleActions_runs : ∀ (as : List Action) {F : Frame} {x : List (ZMod 2) × Frame}, x ∈ (sampleActions F as).support → Runs F as x.1 x.2
  | [], F, x, h => by
    rw [sampleActions, PMF.support_pure, Set.mem_singleton_iff] at h
    rw [h]; exact .nil F
  | a :: as, F, x, h => by
    rw [sampleActions, PMF.mem_support_bind_iff] at h
    obtain ⟨y, hy, h⟩ := h
    rw [PMF.mem_support_map_iff] at h
    obtain ⟨z, hz, rfl⟩ := h
    have ih := sampleActions_runs as hz
    cases a with
    | clifford1 f q =>
      rw [Action.sample, PMF.support_pure, Set.mem_singleton_iff] at hy
      subst hy; exact .clifford1 f q ih
    | control P Q a b =>
      rw [Action.sample, PMF.support_pure, Set.mem_singleton_iff] at hy
      subst hy; exact .control P Q a b ih
    | reset b q =>
      rw [Action.sample, PMF.mem_support_map_iff] at hy
      obtain ⟨r, -, rfl⟩ := hy
      exact .reset b q r ih
    | measure P =>
      rw [Action.sample, PMF.mem_support_map_iff] at hy
      obtain ⟨r, -, rfl⟩ := hy
      exact .measure P r ih

theorem biased_true {b : Bool} (h : b ∈ (biased p).support) (hb : b = true) : p ≠ 0 := by
  rintro rfl
  subst hb
  rw [PMF.mem_support_iff] at h
  simp [biased] at h

theorem chance_positive {i : Instr} (h : i.chance ≠ 0) : ∃ a ∈ i.args, a.positive := by
  rw [Instr.chance] at h
  match hargs : i.args with
  | [] => rw [hargs] at h; simp at h
  | a :: as =>
    rw [hargs] at h
    refine ⟨a, by simp, ?_⟩
    cases a with
    | lit p =>
      simp only [List.head?_cons, Option.map_some, Option.getD_some, Arg.chance, ne_eq, ENNReal.ofReal_eq_zero, not_le] at h
      rw [Arg.positive]; exact_mod_cast h
    | indep p n =>
      simp only [List.head?_cons, Option.map_some, Option.getD_some, Arg.chance, ne_eq, ENNReal.ofReal_eq_zero, not_le] at h
      rw [Arg.positive]
      by_contra hc
      have hp : (p : ℝ) ≤ 0 := by exact_mod_cast not_lt.1 hc
      have : (1 : ℝ) ≤ (1 - p) ^ (1 / (2 : ℝ) ^ ((n : ℝ) - 1)) := Real.one_le_rpow (by linarith) (by positivity)
      rw [mixToIndependent] at h
      linarith

theorem errors_draws {i : Instr} (h : i.chance ≠ 0) {E : PMF Frame} (hE : E ∈ i.errors) {P : Frame} (hP : P ∈ E.support) : i.Draws P := by
  refine ⟨chance_positive h, ?_⟩
  unfold Instr.errors at hE
  split at hE
  pick_goal 6
  · simp at hE
  all_goals rename_i hg; rw [hg]
  · obtain ⟨q, hq, rfl⟩ := List.mem_map.1 hE
    rw [PMF.support_pure, Set.mem_singleton_iff] at hP
    exact ⟨q, hq, hP⟩
  · obtain ⟨q, hq, rfl⟩ := List.mem_map.1 hE
    rw [PMF.support_pure, Set.mem_singleton_iff] at hP
    exact ⟨q, hq, hP⟩
  · obtain ⟨q, hq, rfl⟩ := List.mem_map.1 hE
    rw [PMF.mem_support_map_iff] at hP
    obtain ⟨b, -, rfl⟩ := hP
    exact ⟨q, hq, b, rfl⟩
  · obtain ⟨x, hx, rfl⟩ := List.mem_map.1 hE
    rw [PMF.mem_support_map_iff] at hP
    obtain ⟨e, he, rfl⟩ := hP
    have hne : e ≠ 0 := by
      have := (PMF.mem_support_uniformOfFinset_iff _ _).1 he
      simpa using this
    refine ⟨x, hx, e.1, e.2, ?_, rfl⟩
    by_contra hc
    push Not at hc
    exact hne (Prod.ext hc.1 hc.2)
  · rw [List.mem_singleton] at hE
    subst hE
    rw [PMF.support_pure, Set.mem_singleton_iff] at hP
    exact hP

theorem withErrors_runs {i : Instr} {l : List Instr} {rec : List (ZMod 2)} {G : Frame} {m : Nat} : ∀ (Es : List (PMF Frame)), (∀ E ∈ Es, E ∈ i.errors) →
    ∀ {F : Frame} {x : Frame × List Bool}, x ∈ (withErrors i.chance Es F).support → NoisyRuns x.1 (i :: l) rec G m → NoisyRuns F (i :: l) rec G (m + hits x.2)
  | [], _, F, x, hx, h => by
    rw [withErrors, PMF.support_pure, Set.mem_singleton_iff] at hx
    subst hx; exact h
  | E :: Es, hEs, F, x, hx, h => by
    rw [withErrors, PMF.mem_support_bind_iff] at hx
    obtain ⟨b, hb, hx⟩ := hx
    cases b with
    | false =>
      simp only [Bool.false_eq_true, if_false, PMF.mem_support_map_iff] at hx
      obtain ⟨y, hy, rfl⟩ := hx
      simpa using withErrors_runs Es (fun E hE => hEs E (List.mem_cons_of_mem _ hE)) hy h
    | true =>
      simp only [if_true, PMF.mem_support_bind_iff, PMF.mem_support_map_iff] at hx
      obtain ⟨P, hP, y, hy, rfl⟩ := hx
      rw [hits_cons, Nat.add_left_comm, Nat.add_comm]
      exact .error P (errors_draws (biased_true hb rfl) (hEs E (by simp)) hP)
        (withErrors_runs Es (fun E hE => hEs E (List.mem_cons_of_mem _ hE)) hy h)

theorem modify_mid (pre rs : List (ZMod 2)) (r : ZMod 2) : (pre ++ r :: rs).modify pre.length (· + 1) = pre ++ (r + 1) :: rs := by
  induction pre with
  | nil => simp
  | cons a pre ih => simpa using ih

theorem withFlips_runs {i : Instr} {l : List Instr} {G F : Frame} {r2 : List (ZMod 2)} : ∀ (rs : List (ZMod 2)) {pre : List (ZMod 2)} {m : Nat}
    {x : List (ZMod 2) × List Bool}, pre.length + rs.length ≤ i.measures.length → x ∈ (withFlips i.chance rs).support →
    NoisyRuns F (i :: l) (pre ++ (rs ++ r2)) G m → NoisyRuns F (i :: l) (pre ++ (x.1 ++ r2)) G (m + hits x.2)
  | [], pre, m, x, _, hx, h => by
    rw [withFlips, PMF.support_pure, Set.mem_singleton_iff] at hx
    subst hx; exact h
  | r :: rs, pre, m, x, hl, hx, h => by
    rw [withFlips, PMF.mem_support_bind_iff] at hx
    obtain ⟨b, hb, hx⟩ := hx
    rw [PMF.mem_support_map_iff] at hx
    obtain ⟨y, hy, rfl⟩ := hx
    rw [List.length_cons] at hl
    cases b with
    | false =>
      have := withFlips_runs rs (pre := pre ++ [r]) (m := m) (by simp; omega) hy (by simpa using h)
      simpa using this
    | true =>
      have h1 : NoisyRuns F (i :: l) (pre ++ ((r + 1) :: rs ++ r2)) G (m + 1) := by
        have := NoisyRuns.flip pre.length (chance_positive (biased_true hb rfl)) (by omega) h
        rw [List.cons_append, modify_mid] at this
        exact this
      have := withFlips_runs rs (pre := pre ++ [r + 1]) (m := m + 1) (by simp; omega) hy (by simpa using h1)
      rw [hits_cons, ← Nat.add_assoc]
      simpa using this

theorem sampleCircuit_runs : ∀ (l : List Instr) {F : Frame} {x : List (ZMod 2) × List Bool}, x ∈ (sampleCircuit l F).support → ∃ G, NoisyRuns F l x.1 G (hits x.2)
  | [], F, x, h => by
    rw [sampleCircuit, PMF.support_pure, Set.mem_singleton_iff] at h
    subst h; exact ⟨F, .nil F⟩
  | i :: l, F, x, h => by
    rw [sampleCircuit, PMF.mem_support_bind_iff] at h
    obtain ⟨y, hy, h⟩ := h
    rw [PMF.mem_support_map_iff] at h
    obtain ⟨z, hz, rfl⟩ := h
    obtain ⟨G, hG⟩ := sampleCircuit_runs l hz
    simp only [Instr.sample, PMF.mem_support_bind_iff, PMF.mem_support_map_iff] at hy
    obtain ⟨u, hu, v, hv, w, hw, rfl⟩ := hy
    have h1 := NoisyRuns.step (sampleActions_runs _ hv) hG
    have hlen : v.1.length ≤ i.measures.length := by
      rw [runs_length (sampleActions_runs _ hv), results_actions]
    have h2 := withFlips_runs v.1 (pre := []) (by simpa using hlen) hw h1
    have h3 := withErrors_runs i.errors (fun E hE => hE) hu h2
    refine ⟨G, ?_⟩
    rw [hits_append, hits_append, show hits u.2 + hits w.2 + hits z.2 = hits z.2 + hits w.2 + hits u.2 by omega]
    exact h3

/-! ## The number of errors of a circuit -/

theorem errors_length (i : Instr) : i.errors.length = i.channels.length := by
  unfold Instr.errors Instr.channels
  cases i.gate <;> simp

theorem few_instr {i : Instr} {F : Frame} (hp : 0 < i.places → i.chance ≤ q) : Few q i.places (i.sample F) fun x => hits x.2 := by
  have key : ∀ p, i.chance ≤ p → Few p (i.channels.length + i.measures.length) (i.sample F) fun x => hits x.2 := fun p hp => by
    rw [Instr.sample, ← errors_length]
    refine (few_withErrors hp _ _).bind fun x _ => FewMore.of_bind fun y hy => ?_
    have hlen : y.1.length = i.measures.length := by
      rw [runs_length (sampleActions_runs _ hy), results_actions]
    rw [← hlen]
    exact (few_withFlips hp y.1).shift fun z => hits_append _ _
  by_cases hargs : i.args = []
  · rw [Instr.places, if_pos hargs]
    exact (key 0 (by simp [Instr.chance, hargs])).none
  · rcases Nat.eq_zero_or_pos i.places with h0 | h0
    · have := key i.chance le_rfl
      rw [Instr.places, if_neg hargs] at h0
      rw [h0] at this
      rw [Instr.places, if_neg hargs, h0]
      intro k
      refine (this k).trans ?_
      rcases k with _ | k <;> simp
    · have := key q (hp h0)
      rwa [Instr.places, if_neg hargs]

theorem few_circuit : ∀ (l : List Instr) (F : Frame), (∀ i ∈ l, 0 < i.places → i.chance ≤ q) → Few q (l.map Instr.places).sum (sampleCircuit l F) fun x => hits x.2
  | [], F, _ => by
    intro k
    rw [sampleCircuit, mean_pure]
    rcases k with _ | k <;> simp
  | i :: l, F, h => by
    rw [sampleCircuit, List.map_cons, List.sum_cons]
    exact (few_instr (h i (by simp))).bind fun x _ => (few_circuit l x.1.2 fun j hj => h j (List.mem_cons_of_mem _ hj)).shift fun y => hits_append _ _

/-- If every sample with the property `S` has at least `k` errors, then its probability is at most that of `k` errors. -/
theorem recordProb_le {l : List Instr} {F : Frame} (h : ∀ i ∈ l, 0 < i.places → i.chance ≤ q) {S : Set (List (ZMod 2))} {k : Nat}
    (hS : ∀ rec ∈ S, ∀ G n, NoisyRuns F l rec G n → k ≤ n) : recordProb l F S ≤ (l.map Instr.places).sum.choose k * q ^ k := by
  refine le_trans ?_ ((few_circuit l F h).tail k)
  rw [recordProb, PMF.toOuterMeasure_map_apply]
  refine PMF.toOuterMeasure_mono _ ?_
  rintro x ⟨hx, hs⟩
  obtain ⟨G, hG⟩ := sampleCircuit_runs l hs
  exact hS x.1 hx G _ hG

/-! ## Everything that can happen has a positive probability -/

theorem mem_sampleActions {as : List Action} {F F' : Frame} {rec : List (ZMod 2)} (h : Runs F as rec F') : (rec, F') ∈ (sampleActions F as).support := by
  have hfair : ∀ r : ZMod 2, r ∈ fair.support := fun r => by simp [fair]
  induction h with
  | nil F => simp [sampleActions]
  | clifford1 f q _ ih =>
    rw [sampleActions, PMF.mem_support_bind_iff]
    exact ⟨_, by rw [Action.sample, PMF.support_pure]; rfl, (PMF.mem_support_map_iff _ _ _).2 ⟨_, ih, rfl⟩⟩
  | control P Q a b _ ih =>
    rw [sampleActions, PMF.mem_support_bind_iff]
    exact ⟨_, by rw [Action.sample, PMF.support_pure]; rfl, (PMF.mem_support_map_iff _ _ _).2 ⟨_, ih, rfl⟩⟩
  | reset b q r _ ih =>
    rw [sampleActions, PMF.mem_support_bind_iff]
    exact ⟨_, by rw [Action.sample, PMF.mem_support_map_iff]; exact ⟨r, hfair r, rfl⟩, (PMF.mem_support_map_iff _ _ _).2 ⟨_, ih, rfl⟩⟩
  | measure P r _ ih =>
    rw [sampleActions, PMF.mem_support_bind_iff]
    exact ⟨_, by rw [Action.sample, PMF.mem_support_map_iff]; exact ⟨r, hfair r, rfl⟩, (PMF.mem_support_map_iff _ _ _).2 ⟨_, ih, rfl⟩⟩

theorem mem_biased (h0 : 0 < p) (h1 : p < 1) (b : Bool) : b ∈ (biased p).support := by
  rw [PMF.mem_support_iff]
  cases b
  · simp [biased, h1, tsub_eq_zero_iff_le]
  · simp [biased, h0.ne']

theorem mem_biased_false (h1 : p < 1) : false ∈ (biased p).support := by
  rw [PMF.mem_support_iff]
  simp [biased, h1, tsub_eq_zero_iff_le]

/-- Where the frame starts does not matter. -/
theorem withErrors_shift : ∀ (Es : List (PMF Frame)) {F Q : Frame} {x : Frame × List Bool}, x ∈ (withErrors p Es F).support →
    (x.1 + Q, x.2) ∈ (withErrors p Es (F + Q)).support
  | [], F, Q, x, hx => by
    rw [withErrors, PMF.support_pure, Set.mem_singleton_iff] at hx
    subst hx; rw [withErrors, PMF.support_pure]; rfl
  | E :: Es, F, Q, x, hx => by
    rw [withErrors, PMF.mem_support_bind_iff] at hx ⊢
    obtain ⟨b, hb, hx⟩ := hx
    refine ⟨b, hb, ?_⟩
    cases b with
    | false =>
      simp only [Bool.false_eq_true, if_false, PMF.mem_support_map_iff] at hx ⊢
      obtain ⟨y, hy, rfl⟩ := hx
      exact ⟨_, withErrors_shift Es (Q := Q) hy, rfl⟩
    | true =>
      simp only [if_true, PMF.mem_support_bind_iff, PMF.mem_support_map_iff] at hx ⊢
      obtain ⟨P, hP, y, hy, rfl⟩ := hx
      have h := withErrors_shift Es (Q := Q) hy
      rw [add_right_comm] at h
      exact ⟨P, hP, _, h, rfl⟩

theorem withErrors_none (h1 : p < 1) : ∀ (Es : List (PMF Frame)) (F : Frame), (F, List.replicate Es.length false) ∈ (withErrors p Es F).support
  | [], F => by simp [withErrors]
  | E :: Es, F => by
    rw [withErrors, PMF.mem_support_bind_iff]
    refine ⟨false, mem_biased_false h1, ?_⟩
    simp only [Bool.false_eq_true, if_false, PMF.mem_support_map_iff]
    exact ⟨_, withErrors_none h1 Es F, rfl⟩

/-- One more error. -/
theorem withErrors_error (h0 : 0 < p) (h1 : p < 1) : ∀ (Es : List (PMF Frame)),
    (∀ E ∈ Es, ∀ P ∈ E.support, ∀ Q ∈ E.support, Q + P = 0 ∨ Q + P ∈ E.support) → ∀ {F : Frame} {x : Frame × List Bool} {E : PMF Frame} {P : Frame},
    E ∈ Es → P ∈ E.support → x ∈ (withErrors p Es F).support → ∃ m, hits m ≤ hits x.2 + 1 ∧ (x.1 + P, m) ∈ (withErrors p Es F).support
  | [], _, _, _, _, _, hE, _, _ => by simp at hE
  | E' :: Es, hc, F, x, E, P, hE, hP, hx => by
    rw [withErrors, PMF.mem_support_bind_iff] at hx
    obtain ⟨b, hb, hx⟩ := hx
    have hit : ∀ (Q : Frame) (y : Frame × List Bool), Q ∈ E'.support → y ∈ (withErrors p Es (F + Q)).support → (y.1, true :: y.2) ∈ (withErrors p (E' :: Es) F).support := by
      intro Q y hQ hy
      rw [withErrors, PMF.mem_support_bind_iff]
      refine ⟨true, mem_biased h0 h1 _, ?_⟩
      simp only [if_true, PMF.mem_support_bind_iff, PMF.mem_support_map_iff]
      exact ⟨Q, hQ, y, hy, rfl⟩
    have miss : ∀ y : Frame × List Bool, y ∈ (withErrors p Es F).support → (y.1, false :: y.2) ∈ (withErrors p (E' :: Es) F).support := by
      intro y hy
      rw [withErrors, PMF.mem_support_bind_iff]
      refine ⟨false, mem_biased h0 h1 _, ?_⟩
      simp only [Bool.false_eq_true, if_false, PMF.mem_support_map_iff]
      exact ⟨y, hy, rfl⟩
    rcases List.mem_cons.1 hE with rfl | hE
    · cases b with
      | false =>
        simp only [Bool.false_eq_true, if_false, PMF.mem_support_map_iff] at hx
        obtain ⟨y, hy, rfl⟩ := hx
        exact ⟨true :: y.2, by simp; omega, hit P (y.1 + P, y.2) hP (withErrors_shift Es hy)⟩
      | true =>
        simp only [if_true, PMF.mem_support_bind_iff, PMF.mem_support_map_iff] at hx
        obtain ⟨Q, hQ, y, hy, rfl⟩ := hx
        have hy' := withErrors_shift Es (Q := P) hy
        rw [add_assoc] at hy'
        rcases hc E (by simp) P hP Q hQ with h | h
        · rw [h, add_zero] at hy'
          exact ⟨false :: y.2, by simp; omega, miss _ hy'⟩
        · exact ⟨true :: y.2, by simp, hit _ _ h hy'⟩
    · have hc' := fun E hE => hc E (List.mem_cons_of_mem _ hE)
      cases b with
      | false =>
        simp only [Bool.false_eq_true, if_false, PMF.mem_support_map_iff] at hx
        obtain ⟨y, hy, rfl⟩ := hx
        obtain ⟨m, hm, h⟩ := withErrors_error h0 h1 Es hc' hE hP hy
        exact ⟨false :: m, by simpa using hm, miss _ h⟩
      | true =>
        simp only [if_true, PMF.mem_support_bind_iff, PMF.mem_support_map_iff] at hx
        obtain ⟨Q, hQ, y, hy, rfl⟩ := hx
        obtain ⟨m, hm, h⟩ := withErrors_error h0 h1 Es hc' hE hP hy
        exact ⟨true :: m, by simp; omega, hit _ _ hQ h⟩

theorem withFlips_none (h1 : p < 1) : ∀ rs : List (ZMod 2), (rs, List.replicate rs.length false) ∈ (withFlips p rs).support
  | [] => by simp [withFlips]
  | r :: rs => by
    rw [withFlips, PMF.mem_support_bind_iff]
    refine ⟨false, mem_biased_false h1, ?_⟩
    rw [PMF.mem_support_map_iff]
    exact ⟨_, withFlips_none h1 rs, by simp [List.replicate_succ]⟩

/-- One more flip. -/
theorem withFlips_flip (h0 : 0 < p) (h1 : p < 1) : ∀ (rs : List (ZMod 2)) (t : Nat) {x : List (ZMod 2) × List Bool}, t < rs.length →
    x ∈ (withFlips p rs).support → ∃ m, hits m ≤ hits x.2 + 1 ∧ (x.1.modify t (· + 1), m) ∈ (withFlips p rs).support
  | [], t, x, ht, hx => by simp at ht
  | r :: rs, t, x, ht, hx => by
    rw [withFlips, PMF.mem_support_bind_iff] at hx
    obtain ⟨b, hb, hx⟩ := hx
    rw [PMF.mem_support_map_iff] at hx
    obtain ⟨y, hy, rfl⟩ := hx
    have mk : ∀ (b : Bool) (y : List (ZMod 2) × List Bool), y ∈ (withFlips p rs).support →
        ((if b then r + 1 else r) :: y.1, b :: y.2) ∈ (withFlips p (r :: rs)).support := by
      intro b y hy
      rw [withFlips, PMF.mem_support_bind_iff]
      exact ⟨b, mem_biased h0 h1 b, (PMF.mem_support_map_iff _ _ _).2 ⟨y, hy, rfl⟩⟩
    have h2 : ∀ z : ZMod 2, z + 1 + 1 = z := by decide
    rcases t with _ | t
    · cases b
      · exact ⟨true :: y.2, by simp; omega, by simpa using mk true y hy⟩
      · exact ⟨false :: y.2, by simp; omega, by simpa [h2] using mk false y hy⟩
    · obtain ⟨m, hm, h⟩ := withFlips_flip h0 h1 rs t (by simpa using ht) hy
      cases b
      · exact ⟨false :: m, by simpa using hm, by simpa using mk false _ h⟩
      · exact ⟨true :: m, by simp; omega, by simpa using mk true _ h⟩

theorem draws_errors {i : Instr} {P : Frame} (h : i.Draws P) : ∃ E ∈ i.errors, P ∈ E.support := by
  obtain ⟨-, h⟩ := h
  unfold Instr.errors
  cases hg : i.gate <;> rw [hg] at h <;> simp only at h
  case X_ERROR => obtain ⟨q, hq, rfl⟩ := h; exact ⟨_, List.mem_map.2 ⟨q, hq, rfl⟩, by simp⟩
  case Z_ERROR => obtain ⟨q, hq, rfl⟩ := h; exact ⟨_, List.mem_map.2 ⟨q, hq, rfl⟩, by simp⟩
  case DEPOLARIZE1 =>
    obtain ⟨q, hq, b, rfl⟩ := h
    exact ⟨_, List.mem_map.2 ⟨q, hq, rfl⟩, (PMF.mem_support_map_iff _ _ _).2 ⟨b, by simp, rfl⟩⟩
  case DEPOLARIZE2 =>
    obtain ⟨x, hx, a, b, hab, rfl⟩ := h
    refine ⟨_, List.mem_map.2 ⟨x, hx, rfl⟩, (PMF.mem_support_map_iff _ _ _).2 ⟨(a, b), (PMF.mem_support_uniformOfFinset_iff _ _).2 ?_, rfl⟩⟩
    simp only [Finset.mem_compl, Finset.mem_singleton, Prod.mk_eq_zero]
    tauto
  case E => subst h; exact ⟨_, List.mem_singleton.2 rfl, by simp⟩
  all_goals exact h.elim

theorem mul_zero_add (q : Nat) (a b : Pauli) : Frame.mul (fun _ => 0) q a + Frame.mul (fun _ => 0) q b = Frame.mul (fun _ => 0) q (a + b) := by
  funext x
  simp only [Frame.mul, Pi.add_apply]
  split_ifs <;> simp

theorem mul_mul_add (q r : Nat) (a b a' b' : Pauli) : (Frame.mul (fun _ => 0) q a).mul r b + (Frame.mul (fun _ => 0) q a').mul r b' =
    (Frame.mul (fun _ => 0) q (a + a')).mul r (b + b') := by
  funext x
  simp only [Frame.mul, Pi.add_apply]
  split_ifs <;> (try simp) <;> abel

/-- Two errors at the same place cancel or are another error there. -/
theorem errors_closed {i : Instr} {E : PMF Frame} (hE : E ∈ i.errors) {P Q : Frame} (hP : P ∈ E.support) (hQ : Q ∈ E.support) :
    Q + P = 0 ∨ Q + P ∈ E.support := by
  unfold Instr.errors at hE
  split at hE
  · obtain ⟨q, hq, rfl⟩ := List.mem_map.1 hE
    rw [PMF.support_pure, Set.mem_singleton_iff] at hP hQ
    rw [hP, hQ]; exact .inl (frame_add_self _)
  · obtain ⟨q, hq, rfl⟩ := List.mem_map.1 hE
    rw [PMF.support_pure, Set.mem_singleton_iff] at hP hQ
    rw [hP, hQ]; exact .inl (frame_add_self _)
  · obtain ⟨q, hq, rfl⟩ := List.mem_map.1 hE
    rw [PMF.mem_support_map_iff] at hP hQ ⊢
    obtain ⟨a, -, rfl⟩ := hP
    obtain ⟨b, -, rfl⟩ := hQ
    rw [mul_zero_add]
    by_cases hab : b = a
    · left; subst hab; rw [← mul_zero_add]; exact frame_add_self _
    · right
      obtain ⟨c, hc⟩ : ∃ c : Basis, c.pauli = b.pauli + a.pauli := by revert hab; cases a <;> cases b <;> decide
      exact ⟨c, by simp, by rw [hc]⟩
  · obtain ⟨x, hx, rfl⟩ := List.mem_map.1 hE
    rw [PMF.mem_support_map_iff] at hP hQ
    obtain ⟨a, ha, rfl⟩ := hP
    obtain ⟨b, hb, rfl⟩ := hQ
    rw [mul_mul_add]
    by_cases hab : b = a
    · left; subst hab; rw [← mul_mul_add]; exact frame_add_self _
    · right
      refine (PMF.mem_support_map_iff _ _ _).2 ⟨b + a, (PMF.mem_support_uniformOfFinset_iff _ _).2 ?_, rfl⟩
      rw [Finset.mem_compl, Finset.mem_singleton]
      intro h0
      refine hab ?_
      have h2 : ∀ z : Pauli × Pauli, z + z = 0 := by decide
      rw [← add_zero b, ← h2 a, ← add_assoc, h0, zero_add]
  · rw [List.mem_singleton] at hE
    subst hE
    rw [PMF.support_pure, Set.mem_singleton_iff] at hP hQ
    rw [hP, hQ]; exact .inl (frame_add_self _)
  · simp at hE

theorem mem_sampleCircuit_cons {i : Instr} {l : List Instr} {F : Frame} {x : List (ZMod 2) × List Bool} : x ∈ (sampleCircuit (i :: l) F).support ↔
    ∃ u ∈ (withErrors i.chance i.errors F).support, ∃ v ∈ (sampleActions u.1 i.actions).support, ∃ w ∈ (withFlips i.chance v.1).support,
      ∃ z ∈ (sampleCircuit l v.2).support, x = (w.1 ++ z.1, u.2 ++ w.2 ++ z.2) := by
  rw [sampleCircuit]
  simp only [Instr.sample, PMF.mem_support_bind_iff, PMF.mem_support_map_iff]
  constructor
  · rintro ⟨_, ⟨u, hu, v, hv, w, hw, rfl⟩, z, hz, rfl⟩
    exact ⟨u, hu, v, hv, w, hw, z, hz, rfl⟩
  · rintro ⟨u, hu, v, hv, w, hw, z, hz, rfl⟩
    exact ⟨_, ⟨u, hu, v, hv, w, hw, rfl⟩, z, hz, rfl⟩

theorem withFlips_length : ∀ (rs : List (ZMod 2)) {x : List (ZMod 2) × List Bool}, x ∈ (withFlips p rs).support → x.1.length = rs.length
  | [], x, hx => by
    rw [withFlips, PMF.support_pure, Set.mem_singleton_iff] at hx
    subst hx; rfl
  | r :: rs, x, hx => by
    rw [withFlips, PMF.mem_support_bind_iff] at hx
    obtain ⟨b, hb, hx⟩ := hx
    rw [PMF.mem_support_map_iff] at hx
    obtain ⟨y, hy, rfl⟩ := hx
    have := withFlips_length rs hy
    cases b <;> simpa using this

/-- A run with errors is a possible sample, with not more errors. -/
theorem mem_sampleCircuit {l : List Instr} {F G : Frame} {rec : List (ZMod 2)} {n : Nat} (h : NoisyRuns F l rec G n)
    (hl : ∀ i ∈ l, 0 < i.places → 0 < i.chance ∧ i.chance < 1) :
    ∃ m, hits m ≤ n ∧ (rec, m) ∈ (sampleCircuit l F).support := by
  induction h with
  | nil F => exact ⟨[], le_rfl, by simp [sampleCircuit]⟩
  | @step F F1 F' i l r1 r2 n hr h ih =>
    obtain ⟨m, hm, h⟩ := ih (fun i hi => hl i (List.mem_cons_of_mem _ hi))
    have hn : (F, List.replicate i.errors.length false) ∈ (withErrors i.chance i.errors F).support ∧ (r1, List.replicate r1.length false) ∈ (withFlips i.chance r1).support := by
      by_cases h1 : i.chance < 1
      · exact ⟨withErrors_none h1 _ _, withFlips_none h1 _⟩
      · have h0 : i.places = 0 := by
          by_contra h0
          exact h1 (hl i (by simp) (Nat.pos_of_ne_zero h0)).2
        rw [Instr.places, if_neg (fun ha => h1 (by simp [Instr.chance, ha])), ← errors_length, Nat.add_eq_zero_iff, List.length_eq_zero_iff,
          List.length_eq_zero_iff] at h0
        have hlen := runs_length hr
        rw [results_actions, h0.2, List.length_nil, List.length_eq_zero_iff] at hlen
        rw [h0.1, hlen]
        simp [withErrors, withFlips]
    refine ⟨_, ?_, mem_sampleCircuit_cons.2 ⟨_, hn.1, _, mem_sampleActions hr, _, hn.2, _, h, rfl⟩⟩
    simpa [hits, List.count_replicate] using hm
  | @error F F' i l rec n P hP h ih =>
    obtain ⟨m, hm, h⟩ := ih hl
    obtain ⟨u, hu, v, hv, w, hw, z, hz, e⟩ := mem_sampleCircuit_cons.1 h
    obtain ⟨E, hE, hPE⟩ := draws_errors hP
    have hpl : 0 < i.places := by
      obtain ⟨⟨a, ha, -⟩, -⟩ := hP
      rw [Instr.places, if_neg (List.ne_nil_of_mem ha), ← errors_length]
      have := List.length_pos_of_mem hE
      omega
    have hc := hl i (by simp) hpl
    have hu' := withErrors_shift _ (Q := P) hu
    rw [frame_add_add] at hu'
    obtain ⟨k, hk, hu''⟩ := withErrors_error hc.1 hc.2 i.errors (fun E hE P hP Q hQ => errors_closed hE hP hQ) hE hPE hu'
    simp only [frame_add_add] at hu'' hk
    rw [Prod.mk.injEq] at e
    exact ⟨k ++ w.2 ++ z.2, by rw [e.2] at hm; simp only [hits_append] at hm ⊢; omega, mem_sampleCircuit_cons.2 ⟨_, hu'', v, hv, w, hw, z, hz, by rw [e.1]⟩⟩
  | @flip F F' i l rec n t ha ht h ih =>
    obtain ⟨m, hm, h⟩ := ih hl
    obtain ⟨u, hu, v, hv, w, hw, z, hz, e⟩ := mem_sampleCircuit_cons.1 h
    have hpl : 0 < i.places := by
      obtain ⟨a, ha, -⟩ := ha
      rw [Instr.places, if_neg (List.ne_nil_of_mem ha)]
      omega
    have hlen : v.1.length = i.measures.length := by rw [runs_length (sampleActions_runs _ hv), results_actions]
    have hc := hl i (by simp) hpl
    obtain ⟨k, hk, hw'⟩ := withFlips_flip hc.1 hc.2 v.1 t (by omega) hw
    rw [Prod.mk.injEq] at e
    refine ⟨u.2 ++ k ++ z.2, by rw [e.2] at hm; simp only [hits_append] at hm ⊢; omega, mem_sampleCircuit_cons.2 ⟨u, hu, v, hv, _, hw', z, hz, ?_⟩⟩
    rw [e.1, modify_append_left _ _ _ _ (by rw [withFlips_length _ hw]; omega)]

end Honeycomb
