import Verif.Lemmas.Threshold
import Verif.Lemmas.Sites
import Verif.Lemmas.ChargedNoise
import Verif.Props.Place

/-!
# The place of an error in the circuit decides where and when it is noticed
-/

namespace Honeycomb
open HoneycombLayout

/-- The qubits of each place of an instruction: those of its noise channels, those of its results. -/
def Instr.slotQubits (i : Instr) : List (List Nat) := i.channels ++ i.measures.map fun P => P.map Prod.snd

theorem slotQubits_length (i : Instr) : i.slotQubits.length = i.slots := by
  rw [Instr.slotQubits, List.length_append, List.length_map, Instr.slots, errors_length]

/-- The qubits of all places. -/
def slotList (l : List Instr) : List (List Nat) := l.flatMap Instr.slotQubits

theorem slotList_append (a b : List Instr) : slotList (a ++ b) = slotList a ++ slotList b := List.flatMap_append

theorem slotList_length (l : List Instr) : (slotList l).length = (l.map Instr.slots).sum := by
  rw [slotList, List.length_flatMap]
  simp only [slotQubits_length]

theorem errors_local {i : Instr} {s : Nat} {E : PMF Frame} (h : i.errors[s]? = some E) {P : Frame} (hP : P ∈ E.support) :
    ∃ c, i.channels[s]? = some c ∧ ∀ q, q ∉ c → P q = 0 := by
  unfold Instr.errors at h
  split at h
  pick_goal 6
  · simp at h
  all_goals rename_i hg; rw [Instr.channels, hg]
  · rw [List.getElem?_map, Option.map_eq_some_iff] at h
    obtain ⟨q, hq, rfl⟩ := h
    rw [PMF.support_pure, Set.mem_singleton_iff] at hP
    subst hP
    exact ⟨[q], by simp [hq], fun x hx => by simp [Frame.mul, List.mem_singleton.not.1 hx]⟩
  · rw [List.getElem?_map, Option.map_eq_some_iff] at h
    obtain ⟨q, hq, rfl⟩ := h
    rw [PMF.support_pure, Set.mem_singleton_iff] at hP
    subst hP
    exact ⟨[q], by simp [hq], fun x hx => by simp [Frame.mul, List.mem_singleton.not.1 hx]⟩
  · rw [List.getElem?_map, Option.map_eq_some_iff] at h
    obtain ⟨q, hq, rfl⟩ := h
    rw [PMF.mem_support_map_iff] at hP
    obtain ⟨b, -, rfl⟩ := hP
    exact ⟨[q], by simp [hq], fun x hx => by simp [Frame.mul, List.mem_singleton.not.1 hx]⟩
  · rw [List.getElem?_map, Option.map_eq_some_iff] at h
    obtain ⟨q, hq, rfl⟩ := h
    rw [PMF.mem_support_map_iff] at hP
    obtain ⟨b, -, rfl⟩ := hP
    refine ⟨[q.1, q.2], by simp [hq], fun x hx => ?_⟩
    simp only [List.mem_cons, List.not_mem_nil, or_false, not_or] at hx
    simp [Frame.mul, hx.1, hx.2]
  · cases s with
    | succ s => simp at h
    | zero =>
      simp only [List.getElem?_cons_zero, Option.some.injEq] at h
      subst h
      rw [PMF.support_pure, Set.mem_singleton_iff] at hP
      subst hP
      exact ⟨i.qubits, rfl, fun x hx => targetsPauli_off _ _ hx⟩

variable {F F' : Frame} {l : List Instr} {rec : List (ZMod 2)} {a : Nat}

theorem placed_one {H : List Nat} (h : PlacedRuns F l rec F' H) (hH : H = [a]) : ∃ u i v s, l = u ++ i :: v ∧ a = (u.map Instr.slots).sum + s ∧
    ((∃ E P F1 r1 r3, i.errors[s]? = some E ∧ P ∈ E.support ∧ Runs F (actions u) r1 F1 ∧ Runs (F1 + P) (actions (i :: v)) r3 F' ∧ rec = r1 ++ r3) ∨
     ∃ t rec0, s = i.errors.length + t ∧ t < i.measures.length ∧ Runs F (actions l) rec0 F' ∧ rec = rec0.modify ((measured u).length + t) (· + 1)) := by
  induction h generalizing a with
  | nil F => simp at hH
  | @step F F1 F' i l r1 r2 H h1 h2 ih =>
    obtain ⟨b, rfl, rfl⟩ : ∃ b, H = [b] ∧ a = b + i.slots := by
      match H, hH with
      | [b], hH => simp at hH; exact ⟨b, rfl, hH.symm⟩
    obtain ⟨u, j, v, s, rfl, rfl, h⟩ := ih rfl
    refine ⟨i :: u, j, v, s, rfl, by simp only [List.map_cons, List.sum_cons]; omega, ?_⟩
    rcases h with ⟨E, P, G, s1, s3, hE, hP, k1, k3, rfl⟩ | ⟨t, rec0, hs, ht, k, rfl⟩
    · refine .inl ⟨E, P, G, r1 ++ s1, s3, hE, hP, ?_, k3, by rw [List.append_assoc]⟩
      rw [actions, List.flatMap_cons]
      exact runs_append.2 ⟨_, _, _, h1, k1, rfl⟩
    · refine .inr ⟨t, r1 ++ rec0, hs, ht, ?_, ?_⟩
      · rw [actions, List.flatMap_cons]
        exact runs_append.2 ⟨_, _, _, h1, k, rfl⟩
      · have hl : (measured (i :: u)).length = r1.length + (measured u).length := by
          rw [measured, List.flatMap_cons, List.length_append, ← results_actions, runs_length h1]
          rfl
        rw [hl, Nat.add_assoc, modify_append_right]
  | @error F F' i l rec H E s P ha hE hP h2 ih =>
    rw [List.cons.injEq] at hH
    obtain ⟨rfl, rfl⟩ := hH
    exact ⟨[], i, l, s, rfl, by simp, .inl ⟨E, P, F, [], rec, hE, hP, .nil F, h2.clean rfl, rfl⟩⟩
  | @flip F F' i l rec H t ha ht h2 ih =>
    rw [List.cons.injEq] at hH
    obtain ⟨rfl, rfl⟩ := hH
    exact ⟨[], i, l, _, rfl, by simp, .inr ⟨t, rec, rfl, ht, h2.clean rfl, by simp [measured]⟩⟩

end Honeycomb
