import Verif.Lemmas.Periodic
import Verif.Lemmas.Noise
import Verif.Spec.Unrolled

/-! The generated circuit, unrolled, in closed form. -/

namespace Honeycomb
namespace HoneycombLayout
variable {lay : HoneycombLayout}

/-- The sub-round numbers `a, a + 1, ..., a + c - 1`. -/
def roundsFrom (a : Int) (c : Nat) : List Int := (List.range c).map fun i : Nat => a + i

theorem roundsFrom_succ (a : Int) (c : Nat) : roundsFrom a (c + 1) = a :: roundsFrom (a + 1) c := by
  simp only [roundsFrom, List.range_succ_eq_map, List.map_cons, List.map_map, Nat.cast_zero, add_zero, List.cons.injEq,
    true_and]
  apply List.map_congr_left
  intro i _
  simp only [Function.comp_apply]; push_cast; ring

theorem pyRange_eq (n : Int) : pyRange n = roundsFrom 0 n.toNat := by
  simp only [pyRange, roundsFrom]
  apply List.map_congr_left
  intro i _
  simp

theorem pyRange2_eq (a b : Int) : pyRange2 a b = roundsFrom a (b - a).toNat := by
  simp only [pyRange2, pyRange, roundsFrom, List.map_map]
  rfl

/-- A step that from state `k` at sub-round number `sr ≡ k` emits `emit k` and moves to state `k + 1`. -/
def GoodStep (St : Nat → MT → Prop) (step : MT → Int → Except PyErr (List Instr × MT)) (emit : Nat → List Instr)
    (lo : Nat) (stop : Int) : Prop :=
  ∀ (k i : Nat) (m : MT), St k m → (i ≠ 0 → lo ≤ k) → ((k + 3 * i : Nat) : Int) < stop →
    ∃ m', step m ((k + 3 * i : Nat) : Int) = .ok (emit (k + 3 * i), m') ∧ St (k + 1) m'

theorem forRounds_ok {St : Nat → MT → Prop} {step : MT → Int → Except PyErr (List Instr × MT)} {emit : Nat → List Instr}
    {lo : Nat} {stop : Int} (hg : GoodStep St step emit lo stop) (c : Nat) {k i : Nat} {m : MT} (hs : St k m)
    (hi : i ≠ 0 → lo ≤ k) (hst : ((k + 3 * i + c : Nat) : Int) ≤ stop) :
    ∃ m', forRounds step m (roundsFrom ((k + 3 * i : Nat) : Int) c) =
        .ok ((List.range c).flatMap fun j => emit (k + 3 * i + j), m') ∧ St (k + c) m' := by
  induction c generalizing k m with
  | zero => exact ⟨m, rfl, hs⟩
  | succ c ih =>
    obtain ⟨m1, h1, s1⟩ := hg k i m hs hi (by omega)
    obtain ⟨m2, h2, s2⟩ := ih s1 (fun h => by have := hi h; omega) (by omega)
    refine ⟨m2, ?_, by rwa [show k + (c + 1) = k + 1 + c by omega]⟩
    rw [roundsFrom_succ, show ((k + 3 * i : Nat) : Int) + 1 = ((k + 1 + 3 * i : Nat) : Int) by push_cast; ring]
    simp only [forRounds, h1, h2, Except.ok.injEq, Prod.mk.injEq, and_true]
    rw [List.range_succ_eq_map, List.flatMap_cons, List.flatMap_map, Nat.add_zero]
    congr 2
    funext j
    congr 1; omega

/-- Splitting a range. -/
theorem range_flatMap_add {α : Type} (f : Nat → List α) (a b : Nat) :
    (List.range (a + b)).flatMap f = (List.range a).flatMap f ++ (List.range b).flatMap fun j => f (a + j) := by
  rw [List.range_add, List.flatMap_append, List.flatMap_map]

/-- A block of three repeated `i` times is the flattened range when `f` has period three there. -/
theorem range_flatMap_repeat {α : Type} (f : Nat → List α) (i : Nat) (h : ∀ j, j + 3 < 3 * i → f (j + 3) = f j) :
    (List.range (3 * i)).flatMap f = (List.replicate i ((List.range 3).flatMap f)).flatten := by
  induction i with
  | zero => rfl
  | succ i ih =>
    rw [Nat.mul_add, range_flatMap_add, ih (fun j hj => h j (by omega)), List.replicate_succ', List.flatten_append,
      List.flatten_singleton]
    congr 1
    apply List.flatMap_congr
    intro j hj
    have hj := List.mem_range.1 hj
    have key : ∀ i', i' ≤ i → f (3 * i' + j) = f j := by
      intro i'
      induction i' with
      | zero => intro _; rw [Nat.mul_zero, Nat.zero_add]
      | succ i' ih' =>
        intro hi'
        rw [← ih' (by omega), ← h (3 * i' + j) (by omega)]
        congr 1; omega
    exact key i (Nat.le_refl i)

theorem joinMoments_flatten (ms : List Circuit) : (joinMoments ms).flatten = ms.flatMap Circuit.flatten := by
  have : ∀ (c : Circuit), (ms.foldl (· ++ ·) c).flatten = c.flatten ++ ms.flatMap Circuit.flatten := by
    induction ms with
    | nil => intro c; simp
    | cons a ms ih => intro c; rw [List.foldl_cons, ih, Circuit.flatten_append, List.flatMap_cons, List.append_assoc]
  rw [joinMoments, this]; rfl

/-- Every block of the circuit is repeat-free and, with its repeat count, satisfies `P`. -/
def _root_.Honeycomb.Circuit.Shape (P : Nat → List Instr → Prop) : Circuit → Prop
  | .nil => True
  | .op _ c => c.Shape P
  | .rep n b c => (∃ l, b = .ofList l ∧ P n l) ∧ c.Shape P

theorem shape_ofList (P) (l : List Instr) : (Circuit.ofList l).Shape P := by
  induction l with
  | nil => trivial
  | cons i l ih => exact ih

theorem shape_nil (P) : Circuit.nil.Shape P := trivial

theorem shape_append {P} {c d : Circuit} (hc : c.Shape P) (hd : d.Shape P) : (c ++ d).Shape P := by
  induction c with
  | nil => exact hd
  | op i c ih => exact ih hc
  | rep n b c _ ih => exact ⟨hc.1, ih hc.2⟩

theorem mul_ofList (l : List Instr) {n : Nat} (hn : 2 ≤ n) : (Circuit.ofList l).mul n = .rep n (.ofList l) .nil := by
  rw [Circuit.mul, if_neg (by omega), if_neg (by omega)]
  intro m b h; cases l <;> simp [Circuit.ofList] at h

theorem shape_mul {P : Nat → List Instr → Prop} {l : List Instr} {n : Nat} (hn : 2 ≤ n) (h : P n l) :
    ((Circuit.ofList l).mul n).Shape P := by
  rw [mul_ofList l hn]
  exact ⟨⟨l, rfl, h⟩, trivial⟩

theorem shape_join {P} {ms : List Circuit} (h : ∀ c ∈ ms, c.Shape P) : (joinMoments ms).Shape P := by
  have : ∀ c : Circuit, c.Shape P → (ms.foldl (· ++ ·) c).Shape P := by
    induction ms with
    | nil => intro c hc; exact hc
    | cons a ms ih => intro c hc; exact ih (fun c hc => h c (by simp [hc])) _ (shape_append hc (h a (by simp)))
  exact this _ trivial

theorem join_ofList (ls : List (List Instr)) : joinMoments (ls.map .ofList) = .ofList ls.flatten := by
  have : ∀ c : List Instr, ((ls.map Circuit.ofList).foldl (· ++ ·) (Circuit.ofList c)) = .ofList (c ++ ls.flatten) := by
    induction ls with
    | nil => intro c; simp
    | cons a ms ih => intro c; rw [List.map_cons, List.foldl_cons, ← Circuit.ofList_append, ih]; simp
  exact this []

theorem Shape.mono {P Q : Nat → List Instr → Prop} (h : ∀ n l, P n l → Q n l) {c : Circuit} (hc : c.Shape P) : c.Shape Q := by
  induction c with
  | nil => trivial
  | op i c ih => exact ih hc
  | rep n b c _ ih => obtain ⟨⟨l, hl, hp⟩, h2⟩ := hc; exact ⟨⟨l, hl, h _ _ hp⟩, ih h2⟩

/-- A circuit with a single block if `B` holds (repeat-free and satisfying `P` with its repeat count), and none otherwise. -/
def _root_.Honeycomb.Circuit.OneBlock (B : Prop) (P : Nat → List Instr → Prop) (c : Circuit) : Prop :=
  (B ∧ ∃ pre n l post, P n l ∧ c = .ofList pre ++ .rep n (.ofList l) (.ofList post)) ∨ (¬ B ∧ ∃ pre, c = .ofList pre)

theorem oneBlock_shape {B P} {c : Circuit} (h : c.OneBlock B P) : c.Shape P := by
  rcases h with ⟨_, pre, n, l, post, hp, rfl⟩ | ⟨_, pre, rfl⟩
  · exact shape_append (shape_ofList _ _) ⟨⟨l, rfl, hp⟩, shape_ofList _ _⟩
  · exact shape_ofList _ _

theorem oneBlock_mono {B B'} {P Q : Nat → List Instr → Prop} (hB : B ↔ B') (h : ∀ n l, P n l → Q n l) {c : Circuit} (hc : c.OneBlock B P) :
    c.OneBlock B' Q := by
  rcases hc with ⟨hb, pre, n, l, post, hp, rfl⟩ | ⟨hb, pre, rfl⟩
  · exact Or.inl ⟨hB.1 hb, pre, n, l, post, h _ _ hp, rfl⟩
  · exact Or.inr ⟨fun hb' => hb (hB.2 hb'), pre, rfl⟩

theorem oneBlock_between {B P} {c : Circuit} (h : c.OneBlock B P) (a b : List Instr) : (Circuit.ofList a ++ c ++ .ofList b).OneBlock B P := by
  rcases h with ⟨hb, pre, n, l, post, hp, rfl⟩ | ⟨hb, pre, rfl⟩
  · refine Or.inl ⟨hb, a ++ pre, n, l, post ++ b, hp, ?_⟩
    rw [Circuit.ofList_append, Circuit.ofList_append, Circuit.append_assoc, Circuit.append_assoc, Circuit.append_assoc, Circuit.rep_append]
  · refine Or.inr ⟨hb, a ++ pre ++ b, ?_⟩
    rw [Circuit.ofList_append, Circuit.ofList_append]

theorem oneBlock_after {B P} {c : Circuit} (h : c.OneBlock B P) (b : List Instr) : (c ++ .ofList b).OneBlock B P := oneBlock_between h [] b

theorem oneBlock_none {B P} (hb : ¬ B) (l : List Instr) : (Circuit.ofList l).OneBlock B P := Or.inr ⟨hb, l, rfl⟩

theorem oneBlock_mul {B} {P : Nat → List Instr → Prop} (hb : B) {l : List Instr} {n : Nat} (hn : 2 ≤ n) (h : P n l) :
    ((Circuit.ofList l).mul n).OneBlock B P := Or.inl ⟨hb, [], n, l, [], h, by rw [mul_ofList l hn]; rfl⟩

theorem join_append (a b : List Circuit) : joinMoments (a ++ b) = joinMoments a ++ joinMoments b := by
  have : ∀ (ms : List Circuit) (c : Circuit), ms.foldl (· ++ ·) c = c ++ joinMoments ms := by
    intro ms
    induction ms with
    | nil => intro c; simp [joinMoments]
    | cons d ms ih => intro c; rw [joinMoments, List.foldl_cons, List.foldl_cons, ih, ih, Circuit.nil_append, Circuit.append_assoc]
  rw [joinMoments, List.foldl_append, this b]
  rfl

theorem join_map_ofList {α : Type} (f : α → List Instr) (l : List α) : joinMoments (l.map fun j => .ofList (f j)) = .ofList (l.flatMap f) := by
  have := join_ofList (l.map f)
  rw [List.map_map] at this
  exact this.trans (by rw [List.flatMap_def])

/-- Plain steps of the moment loop. -/
theorem momentLoop_steps {St : Nat → MT → Prop} {step : MT → Int → Except PyErr (List Instr × MT)}
    {emit : Nat → List Instr} {lo : Nat} {n stop at_ : Int} (hg : GoodStep St step emit lo stop) (c : Nat) {k i : Nat}
    {m : MT} (hs : St k m) (hi : i ≠ 0 → lo ≤ k) (hst : ((k + 3 * i + c : Nat) : Int) ≤ stop)
    (hno : ∀ j : Nat, j < c → ¬ (((k + 3 * i + j : Nat) : Int) + 1 = at_ ∧ (n - (((k + 3 * i + j : Nat) : Int) + 1) + 3) / 3 > 1))
    (moments : List Circuit) :
    ∃ m', momentLoop step n stop at_ ((k + 3 * i : Nat) : Int) moments m =
        momentLoop step n stop at_ ((k + c + 3 * i : Nat) : Int)
          (moments ++ (List.range c).map fun j => .ofList (emit (k + 3 * i + j))) m' ∧ St (k + c) m' := by
  induction c generalizing k m moments with
  | zero => exact ⟨m, by simp, hs⟩
  | succ c ih =>
    obtain ⟨m1, h1, s1⟩ := hg k i m hs hi (by omega)
    obtain ⟨m2, h2, s2⟩ := ih s1 (fun h => by have := hi h; omega) (by omega)
      (by
        intro j hj
        have := hno (j + 1) (by omega)
        rwa [show k + 3 * i + (j + 1) = k + 1 + 3 * i + j by omega] at this)
      (moments ++ [.ofList (emit (k + 3 * i))])
    refine ⟨m2, ?_, by rwa [show k + (c + 1) = k + 1 + c by omega]⟩
    have h0 := hno 0 (by omega)
    rw [Nat.add_zero] at h0
    rw [momentLoop, dif_pos (by omega)]
    simp only [h1]
    rw [dif_neg h0, show ((k + 3 * i : Nat) : Int) + 1 = ((k + 1 + 3 * i : Nat) : Int) by push_cast; ring, h2,
      show k + 1 + c = k + (c + 1) by omega, List.range_succ_eq_map, List.map_cons, List.map_map, Nat.add_zero,
      List.append_assoc, List.singleton_append]
    congr 4
    funext j
    simp only [Function.comp_apply]
    congr 2; omega

theorem momentLoop_done {step : MT → Int → Except PyErr (List Instr × MT)} {n stop at_ k : Int} (h : stop ≤ k)
    (moments : List Circuit) (m : MT) : momentLoop step n stop at_ k moments m = .ok (moments, m) := by
  rw [momentLoop, dif_neg (by omega)]

/-- The whole moment loop: its moments, joined and unrolled, are all moments in order. -/
theorem momentLoop_ok {St : Nat → MT → Prop} {step : MT → Int → Except PyErr (List Instr × MT)}
    {emit : Nat → List Instr} {lo : Nat} {n stop : Int} {a : Nat} (hlo : lo ≤ a) (hstop : n ≤ stop) (h0 : 0 ≤ stop) (ha3 : 3 ≤ a)
    (hg : GoodStep St step emit lo stop)
    (hper : ∀ k : Nat, a - 3 ≤ k → ((k + 3 : Nat) : Int) < n → emit (k + 3) = emit k)
    {m : MT} (hs : St 0 m) :
    ∃ ms m' k i, momentLoop step n stop a 0 [] m = .ok (ms, m') ∧
      (joinMoments ms).flatten = (List.range stop.toNat).flatMap emit ∧ St k m' ∧ k + 3 * i = stop.toNat ∧
      (i ≠ 0 → a ≤ k) ∧
      (joinMoments ms).OneBlock (n - a + 3 ≥ 6) fun r l => 2 ≤ r ∧ l = (List.range 3).flatMap fun j => emit (a - 3 + j) := by
  by_cases hc : n - a + 3 ≥ 6
  · -- the loop is compressed
    obtain ⟨m1, h1, s1⟩ := momentLoop_steps (n := n) (at_ := a) hg (a - 1) (k := 0) (i := 0) hs (by omega) (by omega)
      (by intro j hj; rintro ⟨h, _⟩; omega) []
    obtain ⟨m2, h2, s2⟩ := hg _ 0 m1 s1 (by omega) (by omega)
    set iters := ((n - a + 3) / 3).toNat with hit
    have hit' : ((n - a + 3) / 3 : Int) = iters := by omega
    have hiters : 1 < iters := by omega
    have hend : a - 3 + 3 * iters ≤ stop.toNat := by omega
    have hendn : ((a - 3 + 3 * iters : Nat) : Int) ≤ n := by omega
    set folded := foldLast3 ([] ++ List.map (fun j => Circuit.ofList (emit (0 + 3 * 0 + j))) (List.range (a - 1)) ++
      [Circuit.ofList (emit (0 + (a - 1) + 3 * 0))]) iters with hf
    have e2 : momentLoop step n stop a ((0 + (a - 1) + 3 * 0 : Nat) : Int)
        ([] ++ List.map (fun j => Circuit.ofList (emit (0 + 3 * 0 + j))) (List.range (a - 1))) m1 =
        momentLoop step n stop a ((a + 3 * (iters - 1) : Nat) : Int) folded m2 := by
      rw [momentLoop, dif_pos (by omega)]
      simp only [h2]
      have hk : (((0 + (a - 1) + 3 * 0 : Nat) : Int) + 1) = a := by omega
      rw [dif_pos (by rw [hk]; omega), hk, hit', Int.toNat_natCast]
      congr 1
      omega
    have s2' : St a m2 := by rwa [show 0 + (a - 1) + 1 = a by omega] at s2
    obtain ⟨m3, h3, s3⟩ := momentLoop_steps (n := n) (at_ := a) hg (stop.toNat - (a + 3 * (iters - 1))) (k := a) (i := iters - 1) s2'
      (fun _ => hlo) (by omega) (by intro j hj; rintro ⟨h, _⟩; omega) folded
    replace h3 := h3.trans (momentLoop_done (by omega) _ _)
    have hms : [] ++ List.map (fun j => Circuit.ofList (emit (0 + 3 * 0 + j))) (List.range (a - 1)) ++
        [Circuit.ofList (emit (0 + (a - 1) + 3 * 0))] =
        (List.range (a - 3)).map (fun j => Circuit.ofList (emit j)) ++
          (List.range 3).map (fun j => Circuit.ofList (emit (a - 3 + j))) := by
      have : (List.range a).map (fun j => Circuit.ofList (emit j)) = (List.range (a - 3)).map (fun j => Circuit.ofList (emit j)) ++
          (List.range 3).map (fun j => Circuit.ofList (emit (a - 3 + j))) := by
        rw [show a = a - 3 + 3 by omega, List.range_add, List.map_append, List.map_map]
        simp only [Nat.add_sub_cancel]
        rfl
      rw [← this, List.nil_append]
      conv_rhs => rw [show a = (a - 1) + 1 by omega, List.range_succ, List.map_append]
      simp
    have hfold0 : folded = (List.range (a - 3)).map (fun j => Circuit.ofList (emit j)) ++
        [(Circuit.ofList ((List.range 3).flatMap fun j => emit (a - 3 + j))).mul iters] := by
      rw [hf, hms, foldLast3]
      have hl : ((List.range (a - 3)).map (fun j => Circuit.ofList (emit j)) ++
            (List.range 3).map (fun j => Circuit.ofList (emit (a - 3 + j)))).length - 3 =
          ((List.range (a - 3)).map (fun j => Circuit.ofList (emit j))).length := by simp
      simp only [hl, List.take_left', List.drop_left']
      have := join_ofList ((List.range 3).map fun j => emit (a - 3 + j))
      rw [List.map_map, joinMoments] at this
      rw [List.flatMap_def, ← this]
      rfl
    refine ⟨_, m3, _, iters - 1, (show momentLoop step n stop a 0 [] m = _ from h1).trans (e2.trans h3), ?_, s3,
      by omega, fun _ => by omega, ?_⟩
    · rw [joinMoments_flatten, List.flatMap_append, List.flatMap_map]
      have hfold : folded.flatMap Circuit.flatten = (List.range (a - 3 + 3 * iters)).flatMap emit := by
        rw [hfold0, List.flatMap_append, List.flatMap_map, List.flatMap_singleton]
        rw [range_flatMap_add]
        congr 1
        · apply List.flatMap_congr; intro j _; exact Circuit.flatten_ofList _
        · rw [range_flatMap_repeat (fun j => emit (a - 3 + j)) iters
            (fun j hj => hper (a - 3 + j) (by omega) (by omega)), Circuit.flatten_mul, Circuit.flatten_ofList]
      obtain ⟨r, hr⟩ : ∃ r, r = stop.toNat - (a + 3 * (iters - 1)) := ⟨_, rfl⟩
      rw [hfold, ← hr, show stop.toNat = a - 3 + 3 * iters + r by omega, range_flatMap_add emit (a - 3 + 3 * iters) r]
      congr 1
      apply List.flatMap_congr
      intro j _
      rw [Circuit.flatten_ofList]
      congr 1; omega
    · rw [hfold0, join_append, join_append, join_map_ofList, join_map_ofList]
      have e1 : ∀ c, joinMoments [c] = c := fun c => Circuit.nil_append c
      rw [e1]
      exact oneBlock_between (oneBlock_mul hc (by omega) ⟨by omega, rfl⟩) _ _
  · obtain ⟨m1, h1, s1⟩ := momentLoop_steps (n := n) (at_ := a) hg stop.toNat (k := 0) (i := 0) hs (by omega) (by omega)
      (by intro j hj; rintro ⟨h, h'⟩; rw [h] at h'; omega) []
    replace h1 := h1.trans (momentLoop_done (by omega) _ _)
    refine ⟨_, m1, _, 0, h1, ?_, s1, by omega, by simp, ?_⟩
    · rw [joinMoments_flatten, List.nil_append, List.flatMap_map]
      apply List.flatMap_congr
      intro j _
      rw [Circuit.flatten_ofList]
      congr 1; omega
    · rw [List.nil_append, join_map_ofList]
      exact oneBlock_none hc _

end HoneycombLayout
end Honeycomb
