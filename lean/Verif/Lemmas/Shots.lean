import Verif.Lemmas.Dict
import Verif.Spec.Collect

/-!
# Sums of shots
-/

namespace Honeycomb

variable {κ : Type} [DecidableEq κ]

theorem sumShots_concat (vs : List ShotData) (v : ShotData) : sumShots (vs ++ [v]) = (sumShots vs).add v := by
  simp [sumShots, ShotData.add]

theorem sumShots_perm {a b : List ShotData} (h : a.Perm b) : sumShots a = sumShots b := by
  simp only [sumShots, (h.map _).sum_eq]

theorem totalFor_concat (rows : List (κ × ShotData)) (r : κ × ShotData) (k : κ) :
    totalFor (rows ++ [r]) k = if r.1 = k then some (((totalFor rows k).getD {}).add r.2) else totalFor rows k := by
  unfold totalFor
  by_cases h : r.1 = k
  · rw [if_pos h, List.filter_append, List.filter_cons_of_pos (by simpa using h), List.filter_nil, if_neg (by simp),
      List.map_append, List.map_singleton, sumShots_concat]
    by_cases h0 : (rows.filter fun r => decide (r.1 = k)) = []
    · rw [if_pos h0, h0]
      rfl
    · rw [if_neg h0]
      rfl
  · rw [if_neg h, List.filter_append, List.filter_cons_of_neg (by simpa using h), List.filter_nil, List.append_nil]

theorem totalFor_perm {a b : List (κ × ShotData)} (h : a.Perm b) (k : κ) : totalFor a k = totalFor b k := by
  have hp := h.filter fun r => decide (r.1 = k)
  unfold totalFor
  rw [sumShots_perm (hp.map Prod.snd)]
  by_cases h0 : (a.filter fun r => decide (r.1 = k)) = []
  · rw [if_pos h0, if_pos (by rw [h0] at hp; exact hp.nil_eq.symm)]
  · rw [if_neg h0, if_neg (fun hb => h0 (by rw [hb] at hp; exact hp.eq_nil))]

theorem holdsTotals_add {d : PyDict κ ShotData} {rows : List (κ × ShotData)} (h : HoldsTotals d rows) (r : κ × ShotData) :
    HoldsTotals (addShots d r.1 r.2) (rows ++ [r]) := by
  refine ⟨PyDict.nodup_set h.1 _ _, fun k => ?_⟩
  rw [addShots, PyDict.get?_set, totalFor_concat, h.2, h.2]
  by_cases hk : r.1 = k
  · rw [if_pos hk, if_pos hk, hk]
  · rw [if_neg hk, if_neg hk]

theorem holdsTotals_nil : HoldsTotals ([] : PyDict κ ShotData) [] := ⟨by simp, fun _ => rfl⟩

theorem holdsTotals_fold (rows : List (κ × ShotData)) {d : PyDict κ ShotData} {pre : List (κ × ShotData)}
    (h : HoldsTotals d pre) : HoldsTotals (rows.foldl (fun d r => addShots d r.1 r.2) d) (pre ++ rows) := by
  induction rows generalizing d pre with
  | nil => simpa using h
  | cons r rows ih =>
    have := ih (holdsTotals_add h r)
    simpa using this

end Honeycomb
