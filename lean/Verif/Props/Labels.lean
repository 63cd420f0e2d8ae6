import Verif.Lemmas.Labels

/-!
C103: the texts that stand for layouts, edges and lookups identify them.
-/

namespace Honeycomb

/-- C103: `legend_label` raises a ValueError for every layout with noise. -/
theorem c103_label_noise (lay : HoneycombLayout) (h : lay.noise ≠ 0) : lay.legend_label = .error .valueError := by
  unfold HoneycombLayout.legend_label
  rw [if_pos h]

/-- C103: `legend_label` gives a label for every layout without noise, and two such layouts have the same label exactly when
they have the same number of rounds (three sub rounds each, rounded down), the same width and the same height. -/
theorem c103_label (lay lay' : HoneycombLayout) (h : lay.noise = 0) (h' : lay'.noise = 0) :
    ∃ t t', lay.legend_label = .ok t ∧ lay'.legend_label = .ok t' ∧
      (t = t' ↔ lay.sub_rounds / 3 = lay'.sub_rounds / 3 ∧ lay.data_width = lay'.data_width ∧
        lay.data_height = lay'.data_height) := by
  unfold HoneycombLayout.legend_label
  rw [if_neg (not_not.mpr h), if_neg (not_not.mpr h')]
  refine ⟨_, _, rfl, rfl, ?_, ?_⟩
  · intro he
    simp only [List.append_assoc] at he
    have hsp : ∀ n, ∀ a ∈ intStr n, ¬a = ' ' := fun n a ha he => not_mem_intStr (by decide) (by decide) n (he ▸ ha)
    have hx : ∀ n, ∀ a ∈ intStr n, ¬a = 'x' := fun n a ha he => not_mem_intStr (by decide) (by decide) n (he ▸ ha)
    obtain ⟨h1, _, h2⟩ := split_first (· = ' ') (hsp _) (hsp _) (rfl : ' ' = ' ') (rfl : ' ' = ' ') he
    have h2 := List.append_cancel_left (as := "rounds, ".toList) h2
    obtain ⟨h3, _, h4⟩ := split_first (· = 'x') (hx _) (hx _) rfl rfl h2
    exact ⟨intStr_injective h1, intStr_injective h3, intStr_injective (List.append_cancel_right h4)⟩
  · rintro ⟨h1, h2, h3⟩
    rw [h1, h2, h3]

/-- C103: the `repr`s of two edges are equal exactly when they have the same center and the same two ends, whatever the order
in which the ends were given to the constructor. -/
theorem c103_edge (l r c l' r' c' : Pt) :
    (mkEdge l r c).repr = (mkEdge l' r' c').repr ↔ c = c' ∧ ((l = l' ∧ r = r') ∨ (l = r' ∧ r = l')) := by
  have inj : ∀ e e' : Edge, e.repr = e'.repr → e = e' := by
    intro e e' he
    unfold Edge.repr at he
    simp only [List.append_assoc] at he
    have he := List.append_cancel_left he
    have hc : ∀ z : Pt, ∀ a ∈ z.repr, ¬a = ',' := fun z a ha hh => z.repr_no_comma (hh ▸ ha)
    obtain ⟨h1, _, h2⟩ := split_first (· = ',') (hc _) (hc _) (rfl : ',' = ',') (rfl : ',' = ',') he
    have h2 := List.append_cancel_left (as := " right=".toList) h2
    obtain ⟨h3, _, h4⟩ := split_first (· = ',') (hc _) (hc _) (rfl : ',' = ',') (rfl : ',' = ',') h2
    have h4 := List.append_cancel_left (as := " center=".toList) h4
    exact Edge.ext (Pt.repr_injective h1) (Pt.repr_injective h3) (Pt.repr_injective (List.append_cancel_right h4))
  have hswap : mkEdge l r c = mkEdge r l c := by
    have heq : r.x = l.x → r.y = l.y → r = l := fun h1 h2 => Pt.ext h1 h2
    unfold mkEdge edgeKeyGt
    cases dataQubitParity l <;> cases dataQubitParity r <;> simp only [Bool.or_eq_true, Bool.and_eq_true, decide_eq_true_eq,
      if_true, Bool.false_eq_true, if_false]
    all_goals
      split_ifs with h1 h2 h2
      · omega
      · rfl
      · rfl
      · rw [heq (by omega) (by omega)]
  have hends : ∀ a b d : Pt, (mkEdge a b d).center = d ∧
      (((mkEdge a b d).left = a ∧ (mkEdge a b d).right = b) ∨ ((mkEdge a b d).left = b ∧ (mkEdge a b d).right = a)) := by
    intro a b d
    unfold mkEdge
    split <;> simp
  constructor
  · intro he
    have he := inj _ _ he
    obtain ⟨h1, h2⟩ := hends l r c
    obtain ⟨h3, h4⟩ := hends l' r' c'
    rw [he] at h1 h2
    refine ⟨by rw [← h1, h3], ?_⟩
    rcases h2 with ⟨h2, h2'⟩ | ⟨h2, h2'⟩ <;> rcases h4 with ⟨h4, h4'⟩ | ⟨h4, h4'⟩ <;> rw [h2] at h4 <;> rw [h2'] at h4' <;>
      subst h4 <;> subst h4' <;> simp
  · rintro ⟨rfl, ⟨rfl, rfl⟩ | ⟨rfl, rfl⟩⟩
    · rfl
    · rw [hswap]

/-- C103: when different keys have different `repr`s, two `Prev`s have the same `repr` exactly when they look up the same key
with the same offset, and a `Prev` of a `Prev` is shown as one `Prev` with the sum of the offsets. -/
theorem c103_prev {κ : Type} (text : κ → Text) (ht : Function.Injective text) (k k' : κ) (o o' : Nat) :
    ((TKey.mkPrev (.plain k) o).repr text = (TKey.mkPrev (.plain k') o').repr text ↔ k = k' ∧ o = o') ∧
      (TKey.mkPrev (TKey.mkPrev (.plain k) o) o').repr text =
        "Prev(".toList ++ text k ++ ", offset=".toList ++ intStr (o + o' : Nat) ++ ")".toList := by
  refine ⟨⟨?_, ?_⟩, ?_⟩
  · intro he
    unfold TKey.mkPrev TKey.repr at he
    simp only [List.append_assoc] at he
    have he := List.append_cancel_left he
    have hn : ∀ n : Nat, ' ' ∉ "offset=".toList ++ (intStr n ++ ")".toList) := by
      intro n hn
      rcases List.mem_append.mp hn with h | h
      · revert h
        decide
      rcases List.mem_append.mp h with h | h
      · exact not_mem_intStr (by decide) (by decide) _ h
      · revert h
        decide
    have hs : ∀ (a : κ) (n : Nat), text a ++ (", offset=".toList ++ (intStr n ++ ")".toList)) =
        (text a ++ [',']) ++ ' ' :: ("offset=".toList ++ (intStr n ++ ")".toList)) := by
      intro a n
      simp
    rw [hs, hs] at he
    obtain ⟨h1, h2⟩ := split_last (hn o) (hn o') he
    have h3 := intStr_injective (List.append_cancel_right (List.append_cancel_left h2))
    exact ⟨ht (List.append_cancel_right h1), by exact_mod_cast h3⟩
  · rintro ⟨rfl, rfl⟩
    rfl
  · unfold TKey.mkPrev TKey.repr
    rw [Nat.add_comm]

/-! The hypotheses hold for concrete cases. -/

example : (⟨4, 6, 36, "SD6", "H", 0⟩ : HoneycombLayout).legend_label = .ok "12 rounds, 4x6 data".toList := by decide

example : (⟨4, 6, 36, "SD6", "H", 1 / 1000⟩ : HoneycombLayout).legend_label = .error .valueError :=
  c103_label_noise _ (by decide +kernel)

example : (mkEdge ⟨-3, 1⟩ ⟨2, 4⟩ ⟨0, 2⟩).repr = "Edge(left=(1+2j), right=(-1.5+0.5j), center=1j)".toList := by
  decide

example : Function.Injective intStr ∧
    (TKey.mkPrev (.plain (7 : Int)) 2).repr intStr = "Prev(7, offset=2)".toList := ⟨fun _ _ h => intStr_injective h, by decide⟩

end Honeycomb
