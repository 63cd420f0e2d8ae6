import Verif.Lemmas.Placed
import Verif.Props.Sampling

/-!
# One more error

How much less likely a sample becomes by one more error: the distribution of the records, shifted by what `n` errors do, is at least `ρ ^ n` times the distribution,
where `ρ` is a lower bound for the probability of every single error.
-/

namespace Honeycomb
open scoped ENNReal

theorem mean_mul_left {α : Type} (D : PMF α) (g : α → ℝ≥0∞) (c : ℝ≥0∞) : c * mean D g = mean D fun x => c * g x := by
  rw [mul_comm, ← mean_mul_const]
  simp only [mul_comm]

theorem mean_congr {α : Type} {D : PMF α} {g g' : α → ℝ≥0∞} (h : ∀ x ∈ D.support, g x = g' x) : mean D g = mean D g' :=
  le_antisymm (mean_le fun x hx => (h x hx).le) (mean_le fun x hx => (h x hx).ge)

theorem mean_fintype {α : Type} [Fintype α] (D : PMF α) (g : α → ℝ≥0∞) : mean D g = ∑ x, D x * g x := tsum_fintype _

theorem mean_fair (g : ZMod 2 → ℝ≥0∞) (r : ZMod 2) : mean fair (fun x => g (x + r)) = mean fair g := by
  rw [mean_fintype, mean_fintype]
  simp only [fair, PMF.uniformOfFintype_apply]
  exact Fintype.sum_equiv (Equiv.addRight r) _ _ fun x => rfl

theorem mean_biased (p : ℝ≥0∞) (g : Bool → ℝ≥0∞) : mean (biased p) g = min p 1 * g true + (1 - min p 1) * g false := by
  rw [mean_fintype, Fintype.sum_bool]
  rfl

/-! ## Actions -/

/-- Another frame at the start shifts the distribution. -/
theorem mean_sampleActions : ∀ {as : List Action} {G G' : Frame} {r : List (ZMod 2)}, Additive as → Runs G as r G' → ∀ (F : Frame) (g : List (ZMod 2) × Frame → ℝ≥0∞),
    mean (sampleActions (F + G) as) g = mean (sampleActions F as) fun x => g (addRec x.1 r, x.2 + G')
  | [], G, G', r, _, h, F, g => by
    obtain ⟨rfl, rfl⟩ := runs_nil h
    rw [sampleActions, sampleActions, mean_pure, mean_pure]
    rfl
  | a :: as, G, G', r, ha, h, F, g => by
    have ha' : Additive as := fun f q hm => ha f q (List.mem_cons_of_mem _ hm)
    rw [sampleActions, sampleActions, mean_bind, mean_bind]
    cases h with
    | clifford1 f q h =>
      rw [Action.sample, Action.sample, mean_pure, mean_pure, mean_map, mean_map]
      simp only [List.nil_append]
      rw [Pi.add_apply, ha f q List.mem_cons_self, set_add_set]
      exact mean_sampleActions ha' h _ _
    | control P Q a b h =>
      rw [Action.sample, Action.sample, mean_pure, mean_pure, mean_map, mean_map]
      simp only [List.nil_append]
      rw [Pi.add_apply, Pi.add_apply, anti_add_left, anti_add_left, kick_add_kick, kick_add_kick]
      exact mean_sampleActions ha' h _ _
    | reset b q s h =>
      rw [Action.sample, Action.sample, mean_map, mean_map, ← mean_fair _ s]
      congr 1
      funext x
      rw [mean_map, mean_map]
      simp only [List.nil_append]
      have := set_add_set F G q 0 0
      rw [add_zero] at this
      rw [this, kick_add_kick]
      exact mean_sampleActions ha' h _ _
    | @measure _ _ rec _ P s h =>
      rw [Action.sample, Action.sample, mean_map, mean_map, ← mean_fair _ s]
      congr 1
      funext x
      rw [mean_map, mean_map]
      simp only [List.cons_append, List.nil_append]
      rw [flips_add_flips, kick_add_kick]
      exact mean_sampleActions ha' h _ _

/-! ## Flipped results -/

theorem mean_withFlips (p : ℝ≥0∞) : ∀ (rs s : List (ZMod 2)) (g : List (ZMod 2) × List Bool → ℝ≥0∞), rs.length = s.length →
    mean (withFlips p (addRec rs s)) g = mean (withFlips p rs) fun x => g (addRec x.1 s, x.2)
  | [], [], g, _ => by
    show mean (withFlips p []) g = _
    rw [withFlips, mean_pure, mean_pure]
    rfl
  | r :: rs, t :: s, g, h => by
    show mean (withFlips p ((r + t) :: addRec rs s)) g = _
    rw [withFlips, withFlips, mean_bind, mean_bind]
    congr 1
    funext b
    rw [mean_map, mean_map, mean_withFlips p rs s _ (by simpa using h)]
    congr 1
    funext x
    cases b
    · rfl
    · simp only [if_true, addRec, List.zipWith_cons_cons]
      rw [add_right_comm]

/-- One more flipped result. -/
theorem flip_withFlips {p ρ : ℝ≥0∞} (h1 : ρ ≤ min p 1) (h2 : ρ ≤ 1 - min p 1) : ∀ (rs : List (ZMod 2)) (t : Nat) (g : List (ZMod 2) → ℝ≥0∞), t < rs.length →
    ρ * mean (withFlips p rs) (fun x => g (x.1.modify t (· + 1))) ≤ mean (withFlips p rs) fun x => g x.1
  | r :: rs, 0, g, _ => by
    rw [withFlips, mean_bind, mean_bind, mean_biased, mean_biased]
    simp only [mean_map, List.modify_zero_cons, if_true, Bool.false_eq_true, if_false]
    have e : ∀ x : ZMod 2, x + 1 + 1 = x := by decide
    simp only [e]
    set X := mean (withFlips p rs) fun x => g (r :: x.1)
    set Y := mean (withFlips p rs) fun x => g ((r + 1) :: x.1)
    have m1 : min p 1 ≤ 1 := min_le_right _ _
    have m2 : 1 - min p 1 ≤ 1 := tsub_le_self
    calc ρ * (min p 1 * X + (1 - min p 1) * Y) ≤ ρ * (1 * X + 1 * Y) := by gcongr
      _ = ρ * Y + ρ * X := by rw [one_mul, one_mul, _root_.mul_add, add_comm]
      _ ≤ min p 1 * Y + (1 - min p 1) * X := by gcongr
  | r :: rs, t + 1, g, h => by
    rw [withFlips, mean_bind, mean_bind, mean_mul_left]
    refine mean_le fun b _ => ?_
    rw [mean_map, mean_map]
    simp only [List.modify_succ_cons]
    exact flip_withFlips h1 h2 rs t (fun l => g (_ :: l)) (by simpa using h)

/-! ## Errors -/

theorem mean_withErrors_shift (p : ℝ≥0∞) : ∀ (Es : List (PMF Frame)) (F Q : Frame) (g : Frame × List Bool → ℝ≥0∞),
    mean (withErrors p Es (F + Q)) g = mean (withErrors p Es F) fun x => g (x.1 + Q, x.2)
  | [], F, Q, g => by rw [withErrors, withErrors, mean_pure, mean_pure]
  | E :: Es, F, Q, g => by
    rw [withErrors, withErrors, mean_bind, mean_bind]
    congr 1
    funext b
    cases b
    · simp only [Bool.false_eq_true, if_false]
      rw [mean_map, mean_map, mean_withErrors_shift p Es]
    · simp only [if_true]
      rw [mean_bind, mean_bind]
      congr 1
      funext P
      rw [mean_map, mean_map, add_right_comm, mean_withErrors_shift p Es]

/-- Multiplying by an error of the channel costs a factor `ρ`. -/
def Cheap (p ρ : ℝ≥0∞) (E : PMF Frame) : Prop := ∀ P ∈ E.support, ∀ W : Frame → ℝ≥0∞,
  ρ * (min p 1 * mean E (fun Q => W (P + Q)) + (1 - min p 1) * W P) ≤ min p 1 * mean E W + (1 - min p 1) * W 0

/-- The errors of a channel: uniform over the nonzero elements of a finite group. -/
theorem cheap_group {V : Type} [AddCommGroup V] [Fintype V] [DecidableEq V] (φ : V → Frame) (h0 : φ 0 = 0) (hφ : ∀ a b, φ a + φ b = φ (a + b))
    (hne : ({0}ᶜ : Finset V).Nonempty) {p ρ : ℝ≥0∞} (h1 : ρ * ({0}ᶜ : Finset V).card ≤ min p 1) (h2 : ρ ≤ 1 - min p 1) :
    Cheap p ρ ((PMF.uniformOfFinset ({0}ᶜ : Finset V) hne).map φ) := by
  intro P hP W
  rw [PMF.mem_support_map_iff] at hP
  obtain ⟨u, -, rfl⟩ := hP
  set n : ℝ≥0∞ := ((({0}ᶜ : Finset V).card : Nat) : ℝ≥0∞) with hn
  have hn0 : n ≠ 0 := by rw [hn]; exact_mod_cast hne.card_pos.ne'
  have hnt : n ≠ ⊤ := by rw [hn]; exact ENNReal.natCast_ne_top _
  -- the distribution on the group
  set μ : V → ℝ≥0∞ := fun v => if v = 0 then 1 - min p 1 else min p 1 * n⁻¹ with hμ
  have key : ∀ W : Frame → ℝ≥0∞, min p 1 * mean ((PMF.uniformOfFinset ({0}ᶜ : Finset V) hne).map φ) W + (1 - min p 1) * W 0 = ∑ v, μ v * W (φ v) := fun W => by
    rw [mean_map, mean_fintype, ← Finset.add_sum_erase _ _ (Finset.mem_univ (0 : V)), PMF.uniformOfFinset_apply_of_notMem _ (by simp), zero_mul, zero_add,
      Finset.mul_sum, ← Finset.add_sum_erase Finset.univ (fun v => μ v * W (φ v)) (Finset.mem_univ (0 : V)), h0, add_comm]
    congr 1
    · rw [hμ]; simp
    · refine Finset.sum_congr rfl fun v hv => ?_
      have hv := (Finset.mem_erase.1 hv).1
      rw [PMF.uniformOfFinset_apply_of_mem _ (by simpa using hv), hμ]
      simp only [if_neg hv]
      rw [mul_assoc]
  have hle : ∀ v, μ v ≤ 1 := fun v => by
    rw [hμ]
    dsimp only
    split_ifs
    · exact tsub_le_self
    · calc min p 1 * n⁻¹ ≤ 1 * 1 := by
            refine mul_le_mul' (min_le_right _ _) ?_
            rw [ENNReal.inv_le_one, hn]
            exact_mod_cast hne.card_pos
        _ = 1 := one_mul 1
  have hge : ∀ v, ρ ≤ μ v := fun v => by
    rw [hμ]
    dsimp only
    split_ifs
    · exact h2
    · rw [← div_eq_mul_inv]
      exact (ENNReal.le_div_iff_mul_le (.inl hn0) (.inl hnt)).2 h1
  have e := key fun Q => W (φ u + Q)
  rw [add_zero] at e
  rw [e, key W, Finset.mul_sum]
  rw [← Fintype.sum_equiv (Equiv.addLeft u) (fun v => μ (u + v) * W (φ (u + v))) (fun v => μ v * W (φ v)) fun v => rfl]
  refine Finset.sum_le_sum fun v _ => ?_
  rw [hφ, ← mul_assoc]
  refine mul_le_mul' ?_ le_rfl
  calc ρ * μ v ≤ ρ * 1 := mul_le_mul' le_rfl (hle v)
    _ ≤ μ (u + v) := by rw [mul_one]; exact hge _

theorem cheap_pure {P : Frame} {p ρ : ℝ≥0∞} (h1 : ρ ≤ min p 1) (h2 : ρ ≤ 1 - min p 1) : Cheap p ρ (PMF.pure P) := by
  intro Q hQ W
  rw [PMF.support_pure, Set.mem_singleton_iff] at hQ
  subst hQ
  rw [mean_pure, mean_pure, frame_add_same]
  calc ρ * (min p 1 * W 0 + (1 - min p 1) * W Q) ≤ ρ * (1 * W 0 + 1 * W Q) := by gcongr <;> [exact min_le_right _ _; exact tsub_le_self]
    _ = ρ * W Q + ρ * W 0 := by rw [one_mul, one_mul, _root_.mul_add, add_comm]
    _ ≤ min p 1 * W Q + (1 - min p 1) * W 0 := by gcongr

theorem errors_cheap {i : Instr} {p ρ : ℝ≥0∞} (h1 : ρ * 15 ≤ min p 1) (h2 : ρ ≤ 1 - min p 1) {E : PMF Frame} (hE : E ∈ i.errors) : Cheap p ρ E := by
  have h1' : ρ ≤ min p 1 := le_trans (by
    calc ρ = ρ * 1 := (mul_one _).symm
      _ ≤ ρ * 15 := mul_le_mul' le_rfl (by norm_num)) h1
  unfold Instr.errors at hE
  split at hE
  · obtain ⟨q, -, rfl⟩ := List.mem_map.1 hE
    exact cheap_pure h1' h2
  · obtain ⟨q, -, rfl⟩ := List.mem_map.1 hE
    exact cheap_pure h1' h2
  · obtain ⟨q, -, rfl⟩ := List.mem_map.1 hE
    have hne : ({0}ᶜ : Finset Pauli).Nonempty := ⟨(1, 0), by decide⟩
    have e : (PMF.uniformOfFintype Basis).map (fun b => Frame.mul (fun _ => 0) q b.pauli) =
        (PMF.uniformOfFinset ({0}ᶜ : Finset Pauli) hne).map fun v => Frame.mul (fun _ => 0) q v := by
      have : PMF.uniformOfFinset ({0}ᶜ : Finset Pauli) hne = (PMF.uniformOfFintype Basis).map Basis.pauli := by
        ext v
        rw [PMF.map_apply, tsum_fintype, PMF.uniformOfFinset_apply]
        have hc : ({0}ᶜ : Finset Pauli).card = 3 := by decide
        have hb : Fintype.card Basis = 3 := by decide
        rw [hc]
        simp only [PMF.uniformOfFintype_apply, hb]
        rw [show (Finset.univ : Finset Basis) = {.X, .Y, .Z} from rfl, Finset.sum_insert (by decide), Finset.sum_insert (by decide), Finset.sum_singleton]
        rcases (by decide : ∀ v : Pauli, v = 0 ∨ v = Basis.X.pauli ∨ v = Basis.Y.pauli ∨ v = Basis.Z.pauli) v with rfl | rfl | rfl | rfl
        · rw [if_neg (by decide), if_neg (by decide), if_neg (by decide), if_neg (by decide)]; simp
        · rw [if_pos (by decide), if_pos rfl, if_neg (by decide), if_neg (by decide)]; simp
        · rw [if_pos (by decide), if_neg (by decide), if_pos rfl, if_neg (by decide)]; simp
        · rw [if_pos (by decide), if_neg (by decide), if_neg (by decide), if_pos rfl]; simp
      rw [this, PMF.map_comp]
      rfl
    rw [e]
    refine cheap_group _ ?_ (fun a b => mul_zero_add q a b) _ ?_ h2
    · funext x; simp [Frame.mul]
    · refine le_trans (mul_le_mul' le_rfl ?_) h1
      have hc : ({0}ᶜ : Finset Pauli).card = 3 := by decide
      rw [hc]; norm_num
  · obtain ⟨x, -, rfl⟩ := List.mem_map.1 hE
    refine cheap_group (fun e : Pauli × Pauli => Frame.mul (Frame.mul (fun _ => 0) x.1 e.1) x.2 e.2) ?_ (fun a b => mul_mul_add _ _ _ _ _ _) _ ?_ h2
    · funext y; simp [Frame.mul]
    · refine le_trans (mul_le_mul' le_rfl ?_) h1
      have hc : ({0}ᶜ : Finset (Pauli × Pauli)).card = 15 := by decide
      rw [hc]; norm_num
  · rw [List.mem_singleton] at hE
    rw [hE]
    exact cheap_pure h1' h2
  · cases hE

/-- One more error. -/
theorem error_withErrors {p ρ : ℝ≥0∞} : ∀ (Es : List (PMF Frame)) (s : Nat) {E : PMF Frame} {P : Frame} (F : Frame) (g : Frame → ℝ≥0∞), (∀ E ∈ Es, Cheap p ρ E) →
    Es[s]? = some E → P ∈ E.support → ρ * mean (withErrors p Es (F + P)) (fun x => g x.1) ≤ mean (withErrors p Es F) fun x => g x.1
  | E :: Es, 0, _, P, F, g, hc, hE, hP => by
    obtain rfl := Option.some.inj hE
    rw [withErrors, withErrors, mean_bind, mean_bind, mean_biased, mean_biased]
    simp only [if_true, Bool.false_eq_true, if_false, mean_bind, mean_map]
    have := hc E List.mem_cons_self P hP fun Q => mean (withErrors p Es (F + Q)) fun x => g x.1
    simp only [← add_assoc, add_zero] at this
    exact this
  | E' :: Es, s + 1, E, P, F, g, hc, hE, hP => by
    rw [withErrors, withErrors, mean_bind, mean_bind, mean_mul_left]
    refine mean_le fun b _ => ?_
    have ih := fun F => error_withErrors Es s F g (fun E h => hc E (List.mem_cons_of_mem _ h)) hE hP
    cases b
    · simp only [Bool.false_eq_true, if_false, mean_map]
      exact ih F
    · simp only [if_true, mean_bind, mean_map]
      rw [mean_mul_left]
      refine mean_le fun Q _ => ?_
      rw [add_right_comm]
      exact ih _

/-! ## The circuit -/

theorem mean_instr (i : Instr) (l : List Instr) (F : Frame) (g : List (ZMod 2) → ℝ≥0∞) :
    mean (sampleCircuit (i :: l) F) (fun x => g x.1) = mean (withErrors i.chance i.errors F) fun x => mean (sampleActions x.1 i.actions) fun y =>
      mean (withFlips i.chance y.1) fun z => mean (sampleCircuit l y.2) fun w => g (z.1 ++ w.1) := by
  rw [sampleCircuit, mean_bind, Instr.sample, mean_bind]
  congr 1
  funext x
  rw [mean_bind]
  congr 1
  funext y
  rw [mean_map]
  congr 1
  funext z
  rw [mean_map]

/-- The distribution of the records, shifted by what errors do, is not much smaller. -/
theorem PlacedRuns.mean {ρ : ℝ≥0∞} {G G' : Frame} {l : List Instr} {rec : List (ZMod 2)} {H : List Nat} (h : PlacedRuns G l rec G' H)
    (hρ : ∀ i ∈ l, 0 < i.places → ρ * 15 ≤ min i.chance 1 ∧ ρ ≤ 1 - min i.chance 1) : ∀ (F : Frame) (g : List (ZMod 2) → ℝ≥0∞),
    ρ ^ H.length * mean (sampleCircuit l F) (fun x => g (addRec x.1 rec)) ≤ Honeycomb.mean (sampleCircuit l (F + G)) fun x => g x.1 := by
  induction h with
  | nil G =>
    intro F g
    rw [sampleCircuit, sampleCircuit, mean_pure, mean_pure]
    simp [addRec]
  | @step G G1 G' i l r1 r2 H hr _ ih =>
    intro F g
    have ih := ih fun j hj => hρ j (List.mem_cons_of_mem _ hj)
    rw [List.length_map, mean_instr i l F fun r => g (addRec r (r1 ++ r2)), mean_instr, mean_withErrors_shift, mean_mul_left]
    refine mean_le fun x _ => ?_
    dsimp only
    rw [mean_sampleActions (instr_additive i) hr, mean_mul_left]
    refine mean_le fun y hy => ?_
    have hlen : y.1.length = r1.length := by
      rw [runs_length (sampleActions_runs _ hy), runs_length hr]
    dsimp only
    rw [mean_withFlips _ _ _ _ hlen, mean_mul_left]
    refine mean_le fun z hz => ?_
    have hz := withFlips_length _ hz
    refine le_trans (le_of_eq ?_) (ih y.2 fun w => g (addRec z.1 r1 ++ w))
    congr 2
    funext w
    rw [addRec_append (hz.trans hlen)]
  | @error G G' i l rec H E s P ha hE hP _ ih =>
    intro F g
    have hpl : 0 < i.places := by
      obtain ⟨a, ha, -⟩ := ha
      rw [Instr.places, if_neg (List.ne_nil_of_mem ha), ← errors_length]
      have := (List.getElem?_eq_some_iff.1 hE).1
      omega
    obtain ⟨h1, h2⟩ := hρ i List.mem_cons_self hpl
    have ih := ih hρ F g
    rw [List.length_cons, pow_succ', mul_assoc]
    refine (mul_le_mul' le_rfl ih).trans ?_
    rw [mean_instr, mean_instr, ← add_assoc]
    exact error_withErrors _ s _ (fun F => Honeycomb.mean (sampleActions F i.actions) fun y =>
      Honeycomb.mean (withFlips i.chance y.1) fun z => Honeycomb.mean (sampleCircuit l y.2) fun w => g (z.1 ++ w.1)) (fun E h => errors_cheap h1 h2 h) hE hP
  | @flip G G' i l rec H t ha ht _ ih =>
    intro F g
    have hpl : 0 < i.places := by
      obtain ⟨a, ha, -⟩ := ha
      rw [Instr.places, if_neg (List.ne_nil_of_mem ha)]
      omega
    obtain ⟨h1, h2⟩ := hρ i List.mem_cons_self hpl
    have h1' : ρ ≤ min i.chance 1 := le_trans (by
      calc ρ = ρ * 1 := (mul_one _).symm
        _ ≤ ρ * 15 := mul_le_mul' le_rfl (by norm_num)) h1
    have ih := ih hρ F fun r => g (r.modify t (· + 1))
    rw [List.length_cons, pow_succ', mul_assoc]
    have e : ∀ r, addRec r (rec.modify t (· + 1)) = (addRec r rec).modify t (· + 1) := fun r => by
      rw [addRec_comm, addRec_modify, addRec_comm]
    simp only [e]
    refine (mul_le_mul' le_rfl ih).trans ?_
    rw [mean_instr i l _ fun r => g (r.modify t (· + 1)), mean_instr, mean_mul_left]
    refine mean_le fun x _ => ?_
    rw [mean_mul_left]
    refine mean_le fun y hy => ?_
    have hlen : y.1.length = i.measures.length := by rw [runs_length (sampleActions_runs _ hy), results_actions]
    rw [← hlen] at ht
    refine le_trans (le_of_eq ?_) (flip_withFlips h1' h2 y.1 t (fun z => Honeycomb.mean (sampleCircuit l y.2) fun w => g (z ++ w.1)) ht)
    congr 1
    refine mean_congr fun z hz => ?_
    have hz := withFlips_length _ hz
    congr 1
    funext w
    rw [modify_append_left _ _ _ _ (by omega)]

end Honeycomb
