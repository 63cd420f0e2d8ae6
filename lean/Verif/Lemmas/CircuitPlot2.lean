import Mathlib.Tactic.Linarith
import Mathlib.Tactic.Ring
import Verif.Lemmas.CircuitPlot

/-!
# What `diagram_3d` draws
-/

namespace Honeycomb
open PyDict

/-- A coordinate pair of naturals as a complex number. -/
def cx (p : Nat × Nat) : Cx := ((p.1 : Rat), (p.2 : Rat))

theorem cx_inj {p q : Nat × Nat} : cx p = cx q ↔ p = q := by
  constructor
  · intro h
    simp only [cx, Prod.mk.injEq, Nat.cast_inj] at h
    exact Prod.ext h.1 h.2
  · rintro rfl; rfl

theorem mul_add_inj {m a b z z' : Nat} (hz : z < m) (hz' : z' < m) (h : a * m + z = b * m + z') : a = b ∧ z = z' := by
  have h1 : (a * m + z) / m = a := by rw [Nat.mul_comm, Nat.mul_add_div (by omega), Nat.div_eq_of_lt hz]; omega
  have h2 : (b * m + z') / m = b := by rw [Nat.mul_comm, Nat.mul_add_div (by omega), Nat.div_eq_of_lt hz']; omega
  have : a = b := by rw [← h1, h, h2]
  subst this
  exact ⟨rfl, by omega⟩

theorem ceil_half (m : Nat) : ⌈(m : Rat) / 2⌉ = ((m + 1) / 2 : Nat) := by
  rw [Int.ceil_eq_iff]
  rcases Nat.even_or_odd' m with ⟨k, h | h⟩
  · subst h
    have : (2 * k + 1) / 2 = k := by omega
    rw [this]
    push_cast
    constructor <;> linarith
  · subst h
    have : (2 * k + 1 + 1) / 2 = k + 1 := by omega
    rw [this]
    push_cast
    constructor <;> linarith

/-- Lines above and below and columns left and right of a border. -/
def upRow (n x z : Nat) : Nat := x * (n + 2) + (n + 3) / 2 + z
def downRow (n x z : Nat) : Nat := (x + 1) * (n + 2) + (n + 3) / 2 + z
def leftCol (n y z : Nat) : Nat := (y + 1) * (n + 3) + (n + 4) / 2 + z
def rightCol (n y z : Nat) : Nat := (y + 2) * (n + 3) + (n + 4) / 2 + z

theorem ceil_add_half (a m : Nat) (r : Rat) (z : Nat) (h : r = a + (m : Rat) / 2) :
    ⌈r + (z : Rat)⌉ = ((a + (m + 1) / 2 + z : Nat) : Int) := by
  have e : r + (z : Rat) = (m : Rat) / 2 + ((a + z : Nat) : Rat) := by rw [h]; push_cast; ring
  rw [e, Int.ceil_add_natCast, ceil_half]
  push_cast
  ring

theorem ceil_nat (a : Nat) (r : Rat) (h : r = a) : ⌈r⌉ = (a : Int) := by rw [h]; exact Int.ceil_natCast a

theorem cell_col (n y z : Nat) : ⌈((y : Rat) + 2) * (n + 3) + z⌉ = (diagramCol n y z : Int) :=
  ceil_nat _ _ (by rw [diagramCol]; push_cast; ring)

theorem cell_row (n x z : Nat) : ⌈((x : Rat) + 1) * (n + 2) + z⌉ = (diagramRow n x z : Int) :=
  ceil_nat _ _ (by rw [diagramRow]; push_cast; ring)

theorem plotCell_nat (n z : Nat) (p : Nat × Nat) : plotCell n (cx p) z = ((diagramCol n p.2 z : Int), (diagramRow n p.1 z : Int)) := by
  rw [plotCell, cx]
  simp only
  rw [cell_col, cell_row]

theorem plotCell_up (n z x y : Nat) : plotCell n ((x : Rat) - 1 / 2, (y : Rat)) z = ((diagramCol n y z : Int), (upRow n x z : Int)) := by
  rw [plotCell]
  simp only
  rw [cell_col, ceil_add_half (x * (n + 2)) (n + 2) _ z (by push_cast; ring)]
  rfl

theorem plotCell_down (n z x y : Nat) : plotCell n ((x : Rat) + 1 / 2, (y : Rat)) z = ((diagramCol n y z : Int), (downRow n x z : Int)) := by
  rw [plotCell]
  simp only
  rw [cell_col, ceil_add_half ((x + 1) * (n + 2)) (n + 2) _ z (by push_cast; ring)]
  rfl

theorem plotCell_left (n z x y : Nat) : plotCell n ((x : Rat), (y : Rat) - 1 / 2) z = ((leftCol n y z : Int), (diagramRow n x z : Int)) := by
  rw [plotCell]
  simp only
  rw [cell_row, ceil_add_half ((y + 1) * (n + 3)) (n + 3) _ z (by push_cast; ring)]
  rfl

theorem plotCell_right (n z x y : Nat) : plotCell n ((x : Rat), (y : Rat) + 1 / 2) z = ((rightCol n y z : Int), (diagramRow n x z : Int)) := by
  rw [plotCell]
  simp only
  rw [cell_row, ceil_add_half ((y + 2) * (n + 3)) (n + 3) _ z (by push_cast; ring)]
  rfl

theorem up_lt (n x z : Nat) : upRow n x z < diagramRow n x z := by
  rw [upRow, diagramRow, Nat.add_mul]; omega

theorem lt_down (n x z : Nat) : diagramRow n x z < downRow n x z := by rw [downRow, diagramRow]; omega

theorem left_lt (n y z : Nat) : leftCol n y z < diagramCol n y z := by
  have : (y + 2) * (n + 3) = (y + 1) * (n + 3) + (n + 3) := by ring
  rw [leftCol, diagramCol, this]; omega

theorem lt_right (n y z : Nat) : diagramCol n y z < rightCol n y z := by rw [rightCol, diagramCol]; omega

theorem cells_inj {n z z' : Nat} {p q : Nat × Nat} (hz : z < n) (hz' : z' < n)
    (h1 : diagramCol n p.2 z = diagramCol n q.2 z') (h2 : diagramRow n p.1 z = diagramRow n q.1 z') : p = q ∧ z = z' := by
  obtain ⟨e1, e2⟩ := mul_add_inj (by omega) (by omega) h1
  obtain ⟨e3, _⟩ := mul_add_inj (by omega) (by omega) h2
  exact ⟨Prod.ext (by omega) (by omega), e2⟩

/-- The borders of the coordinates. -/
structure Borders (C : List (Nat × Nat)) (x0 x1 y0 y1 : Nat) : Prop where
  inside : ∀ p ∈ C, x0 ≤ p.1 ∧ p.1 ≤ x1 ∧ y0 ≤ p.2 ∧ p.2 ≤ y1
  x0_mem : ∃ p ∈ C, p.1 = x0
  x1_mem : ∃ p ∈ C, p.1 = x1
  y0_mem : ∃ p ∈ C, p.2 = y0
  y1_mem : ∃ p ∈ C, p.2 = y1

variable {C : List (Nat × Nat)} {x0 x1 y0 y1 : Nat}

/-- No end of a line is at the place of a qubit. -/
theorem mark_free (hb : Borders C x0 x1 y0 y1) {n z z' : Nat} (hz : z < n) (hz' : z' < n) {p : Nat × Nat} (hp : p ∈ C) (x y : Nat) :
    ¬ (diagramCol n p.2 z' = diagramCol n y z ∧ diagramRow n p.1 z' = upRow n x0 z) ∧
    ¬ (diagramCol n p.2 z' = diagramCol n y z ∧ diagramRow n p.1 z' = downRow n x1 z) ∧
    ¬ (diagramCol n p.2 z' = leftCol n y0 z ∧ diagramRow n p.1 z' = diagramRow n x z) ∧
    ¬ (diagramCol n p.2 z' = rightCol n y1 z ∧ diagramRow n p.1 z' = diagramRow n x z) := by
  obtain ⟨h1, h2, h3, h4⟩ := hb.inside p hp
  refine ⟨?_, ?_, ?_, ?_⟩
  · rintro ⟨e1, e2⟩
    obtain ⟨_, rfl⟩ := mul_add_inj (by omega) (by omega) e1
    have : diagramRow n x0 z' ≤ diagramRow n p.1 z' := by
      rw [diagramRow, diagramRow]
      have := Nat.mul_le_mul_right (n + 2) (show x0 + 1 ≤ p.1 + 1 by omega)
      omega
    have := up_lt n x0 z'
    omega
  · rintro ⟨e1, e2⟩
    obtain ⟨_, rfl⟩ := mul_add_inj (by omega) (by omega) e1
    have : diagramRow n p.1 z' ≤ diagramRow n x1 z' := by
      rw [diagramRow, diagramRow]
      have := Nat.mul_le_mul_right (n + 2) (show p.1 + 1 ≤ x1 + 1 by omega)
      omega
    have := lt_down n x1 z'
    omega
  · rintro ⟨e1, e2⟩
    obtain ⟨_, rfl⟩ := mul_add_inj (by omega) (by omega) e2
    have : diagramCol n y0 z' ≤ diagramCol n p.2 z' := by
      rw [diagramCol, diagramCol]
      have := Nat.mul_le_mul_right (n + 3) (show y0 + 2 ≤ p.2 + 2 by omega)
      omega
    have := left_lt n y0 z'
    omega
  · rintro ⟨e1, e2⟩
    obtain ⟨_, rfl⟩ := mul_add_inj (by omega) (by omega) e2
    have : diagramCol n p.2 z' ≤ diagramCol n y1 z' := by
      rw [diagramCol, diagramCol]
      have := Nat.mul_le_mul_right (n + 3) (show p.2 + 2 ≤ y1 + 2 by omega)
      omega
    have := lt_right n y1 z'
    omega

theorem cast_min (a b : Nat) : min (a : Rat) (b : Rat) = ((min a b : Nat) : Rat) := by push_cast; rfl
theorem cast_max (a b : Nat) : max (a : Rat) (b : Rat) = ((max a b : Nat) : Rat) := by push_cast; rfl

/-- What is drawn for a connector, in cells. -/
theorem plotConnector_nat (n z : Nat) (p q : Nat × Nat) :
    plotConnector n (x0 : Rat) (x1 : Rat) (y0 : Rat) (y1 : Rat) z (cx p) (cx q) =
    if min p.1 q.1 = x0 ∧ max p.1 q.1 = x1 then
      ([(((diagramCol n p.2 z : Int), (diagramRow n x0 z : Int)), ((diagramCol n p.2 z : Int), (upRow n x0 z : Int))),
        (((diagramCol n q.2 z : Int), (diagramRow n x1 z : Int)), ((diagramCol n q.2 z : Int), (downRow n x1 z : Int)))],
       [(((diagramCol n p.2 z : Int), (upRow n x0 z : Int)), '~'), (((diagramCol n q.2 z : Int), (downRow n x1 z : Int)), '~')])
    else if min p.2 q.2 = y0 ∧ max p.2 q.2 = y1 then
      ([(((diagramCol n y0 z : Int), (diagramRow n p.1 z : Int)), ((leftCol n y0 z : Int), (diagramRow n p.1 z : Int))),
        (((diagramCol n y1 z : Int), (diagramRow n q.1 z : Int)), ((rightCol n y1 z : Int), (diagramRow n q.1 z : Int)))],
       [(((leftCol n y0 z : Int), (diagramRow n p.1 z : Int)), '~'), (((rightCol n y1 z : Int), (diagramRow n q.1 z : Int)), '~')])
    else ([(((diagramCol n p.2 z : Int), (diagramRow n p.1 z : Int)), ((diagramCol n q.2 z : Int), (diagramRow n q.1 z : Int)))], []) := by
  have e1 : (min p.1 q.1 = x0 ∧ max p.1 q.1 = x1) ↔ (min (p.1 : Rat) q.1 = x0 ∧ max (q.1 : Rat) p.1 = x1) := by
    rw [cast_min, cast_max, Nat.cast_inj, Nat.cast_inj, max_comm]
  have e2 : (min p.2 q.2 = y0 ∧ max p.2 q.2 = y1) ↔ (min (p.2 : Rat) q.2 = y0 ∧ max (q.2 : Rat) p.2 = y1) := by
    rw [cast_min, cast_max, Nat.cast_inj, Nat.cast_inj, max_comm]
  unfold plotConnector cx
  by_cases h1 : min p.1 q.1 = x0 ∧ max p.1 q.1 = x1
  · rw [if_pos h1, if_pos (e1.1 h1), (e1.1 h1).1, (e1.1 h1).2, plotCell_up, plotCell_down]
    have c1 := plotCell_nat n z (x0, p.2)
    have c2 := plotCell_nat n z (x1, q.2)
    simp only [cx] at c1 c2
    rw [c1, c2]
  · rw [if_neg h1, if_neg fun h => h1 (e1.2 h)]
    by_cases h2 : min p.2 q.2 = y0 ∧ max p.2 q.2 = y1
    · rw [if_pos h2, if_pos (e2.1 h2), (e2.1 h2).1, (e2.1 h2).2, plotCell_left, plotCell_right]
      have c1 := plotCell_nat n z (p.1, y0)
      have c2 := plotCell_nat n z (q.1, y1)
      simp only [cx] at c1 c2
      rw [c1, c2]
    · rw [if_neg h2, if_neg fun h => h2 (e2.2 h)]
      have c1 := plotCell_nat n z p
      have c2 := plotCell_nat n z q
      simp only [cx] at c1 c2
      rw [c1, c2]


/-! ## The dictionary that is passed to `diagram_2d` -/

theorem mem_of_get?_foldl_set {κ ν : Type} [DecidableEq κ] (l : List (κ × ν)) (d : PyDict κ ν) (k : κ) (c : ν)
    (h : (l.foldl (fun d e => d.set e.1 e.2) d).get? k = some c) : d.get? k = some c ∨ (k, c) ∈ l := by
  induction l generalizing d with
  | nil => exact Or.inl h
  | cons e l ih =>
    rw [List.foldl_cons] at h
    rcases ih _ h with h | h
    · rw [get?_set] at h
      split_ifs at h with h'
      · simp only [Option.some.injEq] at h
        subst h h'
        exact Or.inr List.mem_cons_self
      · exact Or.inl h
    · exact Or.inr (List.mem_cons_of_mem _ h)

theorem get?_foldl_dict {κ ν : Type} [DecidableEq κ] (l d : PyDict κ ν) (hl : (l.map Prod.fst).Nodup) (k : κ) :
    (l.foldl (fun d e => d.set e.1 e.2) d).get? k = (l.get? k).or (d.get? k) := by
  by_cases h : k ∈ l.map Prod.fst
  · obtain ⟨⟨k', c⟩, hm, rfl⟩ := List.mem_map.1 h
    rw [get?_of_mem hl hm, (get?_foldl_set l d k').1 c hm]
    · rfl
    · intro c' hc'
      have h1 := get?_of_mem hl hm
      have h2 := get?_of_mem hl hc'
      rw [h1] at h2
      exact (Option.some.inj h2).symm
  · rw [(get?_foldl_set l d k).2 h, (get?_eq_none_iff l k).2 h]
    rfl

/-- The place of the qubit at `p` on level `z`. -/
def place (n z : Nat) (p : Nat × Nat) : Int × Int := ((diagramCol n p.2 z : Int), (diagramRow n p.1 z : Int))

/-- Levels over the coordinates `C`. -/
structure LevelsOver (C : List (Nat × Nat)) (vals : List (PyDict Cx Char)) (conns : List (List (Cx × Cx))) : Prop where
  length : conns.length = vals.length
  nodup : ∀ vs ∈ vals, (vs.map Prod.fst).Nodup
  keys : ∀ vs ∈ vals, ∀ k, k ∈ vs.map Prod.fst ↔ ∃ p ∈ C, k = cx p
  ends : ∀ lvl ∈ conns, ∀ e ∈ lvl, ∃ p ∈ C, ∃ q ∈ C, e = (cx p, cx q)

/-- What `diagram_3d` passes to `diagram_2d`. -/
structure Projected (C : List (Nat × Nat)) (x0 x1 y0 y1 : Nat) (vals : List (PyDict Cx Char)) (conns : List (List (Cx × Cx)))
    (P : PyDict (Int × Int) Char) : Prop where
  nodup : (P.map Prod.fst).Nodup
  symbol : ∀ (z : Nat) vs, vals[z]? = some vs → ∀ p ∈ C, P.get? (place vals.length z p) = vs.get? (cx p)
  other : ∀ k c, P.get? k = some c → (∃ (z : Nat), ∃ vs, ∃ p ∈ C, vals[z]? = some vs ∧ vs.get? (cx p) = some c ∧ k = place vals.length z p) ∨
    ((IsLine c ∨ c = '~') ∧ 0 ≤ k.1 ∧ 0 ≤ k.2)
  line : ∀ (z : Nat) lvl, conns[z]? = some lvl → ∀ p ∈ C, ∀ q ∈ C, (cx p, cx q) ∈ lvl →
    ∀ e ∈ (plotConnector vals.length (x0 : Rat) (x1 : Rat) (y0 : Rat) (y1 : Rat) z (cx p) (cx q)).1, ∀ k, onConnector e.1 e.2 k →
      P.get? k ≠ none
  mark : ∀ (z : Nat) lvl, conns[z]? = some lvl → ∀ p ∈ C, ∀ q ∈ C, (cx p, cx q) ∈ lvl →
    ∀ e ∈ (plotConnector vals.length (x0 : Rat) (x1 : Rat) (y0 : Rat) (y1 : Rat) z (cx p) (cx q)).2, P.get? e.1 = some '~'

theorem pyMin_eq {l : List Rat} {m : Rat} (hm : m ∈ l) (h : ∀ a ∈ l, m ≤ a) : pyMin l = .ok m := by
  have : l.min? = some m := List.min?_eq_some_iff.2 ⟨hm, h⟩
  rw [pyMin, this]

theorem pyMax_eq {l : List Rat} {m : Rat} (hm : m ∈ l) (h : ∀ a ∈ l, a ≤ m) : pyMax l = .ok m := by
  have : l.max? = some m := List.max?_eq_some_iff.2 ⟨hm, h⟩
  rw [pyMax, this]

theorem connector_nonneg {n z : Nat} {p q : Nat × Nat} {e : (Int × Int) × (Int × Int)}
    (he : e ∈ (plotConnector n (x0 : Rat) (x1 : Rat) (y0 : Rat) (y1 : Rat) z (cx p) (cx q)).1) :
    0 ≤ e.1.1 ∧ 0 ≤ e.1.2 ∧ 0 ≤ e.2.1 ∧ 0 ≤ e.2.2 := by
  rw [plotConnector_nat] at he
  split_ifs at he <;> simp only [List.mem_cons, List.not_mem_nil, or_false] at he <;>
    (try rcases he with rfl | rfl) <;> (try subst he) <;> simp

/-- The ends of lines: their character, and that they are not at the place of a qubit. -/
theorem mark_cell (hb : Borders C x0 x1 y0 y1) {n z : Nat} (hz : z < n) {p q : Nat × Nat} {e : (Int × Int) × Char}
    (he : e ∈ (plotConnector n (x0 : Rat) (x1 : Rat) (y0 : Rat) (y1 : Rat) z (cx p) (cx q)).2) :
    e.2 = '~' ∧ 0 ≤ e.1.1 ∧ 0 ≤ e.1.2 ∧ ∀ z' < n, ∀ r ∈ C, e.1 ≠ place n z' r := by
  have key := fun z' (hz' : z' < n) r (hr : r ∈ C) x y => mark_free hb hz hz' hr x y
  rw [plotConnector_nat] at he
  split_ifs at he <;> simp only [List.mem_cons, List.not_mem_nil, or_false] at he
  · rcases he with rfl | rfl
    · refine ⟨rfl, by simp, by simp, fun z' hz' r hr h => (key z' hz' r hr 0 p.2).1 ?_⟩
      simp only [place, Prod.mk.injEq, Nat.cast_inj] at h
      exact ⟨h.1.symm, h.2.symm⟩
    · refine ⟨rfl, by simp, by simp, fun z' hz' r hr h => (key z' hz' r hr 0 q.2).2.1 ?_⟩
      simp only [place, Prod.mk.injEq, Nat.cast_inj] at h
      exact ⟨h.1.symm, h.2.symm⟩
  · rcases he with rfl | rfl
    · refine ⟨rfl, by simp, by simp, fun z' hz' r hr h => (key z' hz' r hr p.1 0).2.2.1 ?_⟩
      simp only [place, Prod.mk.injEq, Nat.cast_inj] at h
      exact ⟨h.1.symm, h.2.symm⟩
    · refine ⟨rfl, by simp, by simp, fun z' hz' r hr h => (key z' hz' r hr q.1 0).2.2.2 ?_⟩
      simp only [place, Prod.mk.injEq, Nat.cast_inj] at h
      exact ⟨h.1.symm, h.2.symm⟩

theorem projectLevels_eq (hb : Borders C x0 x1 y0 y1) {vals : List (PyDict Cx Char)} {conns : List (List (Cx × Cx))}
    (hl : LevelsOver C vals conns) (hv : vals ≠ []) : ∃ P, projectLevels vals conns = .ok P ∧ Projected C x0 x1 y0 y1 vals conns P := by
  have hkeys : ∀ k, k ∈ vals.flatMap PyDict.keys ↔ ∃ p ∈ C, k = cx p := by
    intro k
    rw [List.mem_flatMap]
    constructor
    · rintro ⟨vs, hvs, hk⟩
      exact (hl.keys vs hvs k).1 hk
    · intro h
      obtain ⟨vs, hvs⟩ := List.exists_mem_of_ne_nil _ hv
      exact ⟨vs, hvs, (hl.keys vs hvs k).2 h⟩
  have hin : ∀ {f : Cx → Rat} {g : Nat × Nat → Nat}, (∀ p, f (cx p) = (g p : Rat)) →
      ∀ a ∈ (vals.flatMap PyDict.keys).map f, ∃ p ∈ C, a = (g p : Rat) := by
    intro f g hfg a ha
    obtain ⟨k, hk, rfl⟩ := List.mem_map.1 ha
    obtain ⟨p, hp, rfl⟩ := (hkeys k).1 hk
    exact ⟨p, hp, hfg p⟩
  have hmem : ∀ {f : Cx → Rat} {g : Nat × Nat → Nat} {m : Nat}, (∀ p, f (cx p) = (g p : Rat)) → (∃ p ∈ C, g p = m) →
      (m : Rat) ∈ (vals.flatMap PyDict.keys).map f := by
    rintro f g m hfg ⟨p, hp, rfl⟩
    exact List.mem_map.2 ⟨cx p, (hkeys _).2 ⟨p, hp, rfl⟩, hfg p⟩
  have m1 : pyMin ((vals.flatMap PyDict.keys).map Prod.fst) = .ok (x0 : Rat) :=
    pyMin_eq (hmem (g := Prod.fst) (fun _ => rfl) hb.x0_mem) fun a ha => by
      obtain ⟨p, hp, rfl⟩ := hin (g := Prod.fst) (fun _ => rfl) a ha
      exact_mod_cast (hb.inside p hp).1
  have m2 : pyMax ((vals.flatMap PyDict.keys).map Prod.fst) = .ok (x1 : Rat) :=
    pyMax_eq (hmem (g := Prod.fst) (fun _ => rfl) hb.x1_mem) fun a ha => by
      obtain ⟨p, hp, rfl⟩ := hin (g := Prod.fst) (fun _ => rfl) a ha
      exact_mod_cast (hb.inside p hp).2.1
  have m3 : pyMin ((vals.flatMap PyDict.keys).map Prod.snd) = .ok (y0 : Rat) :=
    pyMin_eq (hmem (g := Prod.snd) (fun _ => rfl) hb.y0_mem) fun a ha => by
      obtain ⟨p, hp, rfl⟩ := hin (g := Prod.snd) (fun _ => rfl) a ha
      exact_mod_cast (hb.inside p hp).2.2.1
  have m4 : pyMax ((vals.flatMap PyDict.keys).map Prod.snd) = .ok (y1 : Rat) :=
    pyMax_eq (hmem (g := Prod.snd) (fun _ => rfl) hb.y1_mem) fun a ha => by
      obtain ⟨p, hp, rfl⟩ := hin (g := Prod.snd) (fun _ => rfl) a ha
      exact_mod_cast (hb.inside p hp).2.2.2
  set n := vals.length with hn
  set S := vals.zipIdx.flatMap fun e => e.1.map fun x => (plotCell n x.1 e.2, x.2) with hS
  set D := ((conns.zip vals).zipIdx.map fun e => e.1.1.map fun x =>
    plotConnector n (x0 : Rat) (x1 : Rat) (y0 : Rat) (y1 : Rat) e.2 x.1 x.2).flatten with hD
  set PV := PyDict.ofItems (S ++ D.flatMap Prod.snd) with hPV
  set base := (D.flatMap Prod.fst).foldl (fun d p => drawLine p.1 p.2 (drawColumn p.1 p.2 d)) ([] : PyDict (Int × Int) Char) with hbase
  have hrun : projectLevels vals conns = .ok (PV.foldl (fun d e => d.set e.1 e.2) base) := by
    rw [projectLevels, m1, m2, m3, m4]
    rfl
  -- membership
  have memS : ∀ k c, (k, c) ∈ S ↔ ∃ z : Nat, ∃ vs, vals[z]? = some vs ∧ ∃ p ∈ C, vs.get? (cx p) = some c ∧ k = place n z p := by
    intro k c
    rw [hS, List.mem_flatMap]
    constructor
    · rintro ⟨⟨vs, z⟩, h1, h2⟩
      rw [List.mem_zipIdx_iff_getElem?] at h1
      obtain ⟨⟨xy, c'⟩, h3, h4⟩ := List.mem_map.1 h2
      simp only [Prod.mk.injEq] at h4
      obtain ⟨rfl, rfl⟩ := h4
      have hvs := List.mem_of_getElem? h1
      obtain ⟨p, hp, rfl⟩ := (hl.keys vs hvs xy).1 (List.mem_map_of_mem (f := Prod.fst) h3)
      exact ⟨z, vs, h1, p, hp, get?_of_mem (hl.nodup vs hvs) h3, plotCell_nat n z p⟩
    · rintro ⟨z, vs, h1, p, hp, h2, rfl⟩
      refine ⟨(vs, z), List.mem_zipIdx_iff_getElem?.2 h1, List.mem_map.2 ⟨(cx p, c), mem_of_get? h2, ?_⟩⟩
      simp only
      rw [plotCell_nat]
      rfl
  have memD : ∀ e, e ∈ D ↔ ∃ z : Nat, ∃ lvl, conns[z]? = some lvl ∧ ∃ p ∈ C, ∃ q ∈ C, (cx p, cx q) ∈ lvl ∧
      e = plotConnector n (x0 : Rat) (x1 : Rat) (y0 : Rat) (y1 : Rat) z (cx p) (cx q) := by
    intro e
    rw [hD, List.mem_flatten]
    constructor
    · rintro ⟨l, h1, h2⟩
      obtain ⟨⟨⟨lvl, vs⟩, z⟩, h3, rfl⟩ := List.mem_map.1 h1
      rw [List.mem_zipIdx_iff_getElem?, List.getElem?_zip_eq_some] at h3
      obtain ⟨⟨a, b⟩, h4, rfl⟩ := List.mem_map.1 h2
      obtain ⟨p, hp, q, hq, h5⟩ := hl.ends lvl (List.mem_of_getElem? h3.1) _ h4
      simp only [Prod.mk.injEq] at h5
      obtain ⟨rfl, rfl⟩ := h5
      exact ⟨z, lvl, h3.1, p, hp, q, hq, h4, rfl⟩
    · rintro ⟨z, lvl, h1, p, hp, q, hq, h2, rfl⟩
      have hz : z < vals.length := by
        rw [← hl.length]
        exact (List.getElem?_eq_some_iff.1 h1).1
      refine ⟨_, List.mem_map.2 ⟨((lvl, vals[z]), z), ?_, rfl⟩, List.mem_map.2 ⟨(cx p, cx q), h2, rfl⟩⟩
      rw [List.mem_zipIdx_iff_getElem?, List.getElem?_zip_eq_some]
      exact ⟨h1, List.getElem?_eq_getElem hz⟩
  have hlt : ∀ {z : Nat} {lvl}, conns[z]? = some lvl → z < n := fun {z lvl} h => by
    rw [hn, ← hl.length]
    exact (List.getElem?_eq_some_iff.1 h).1
  have memM : ∀ k c, (k, c) ∈ D.flatMap Prod.snd → c = '~' ∧ 0 ≤ k.1 ∧ 0 ≤ k.2 ∧ ∀ z' < n, ∀ r ∈ C, k ≠ place n z' r := by
    intro k c h
    obtain ⟨e, he, h1⟩ := List.mem_flatMap.1 h
    obtain ⟨z, lvl, h2, p, hp, q, hq, _, rfl⟩ := (memD e).1 he
    exact mark_cell hb (hlt h2) h1
  have hPVn : (PV.map Prod.fst).Nodup := (foldl_set_sets _ _).nodup (by simp)
  have hget : ∀ k, (PV.foldl (fun d e => d.set e.1 e.2) base).get? k = (PV.get? k).or (base.get? k) := get?_foldl_dict PV base hPVn
  have hB := connectors_drawn (D.flatMap Prod.fst) ([] : PyDict (Int × Int) Char)
  rw [← hbase] at hB
  refine ⟨_, hrun, ?_, ?_, ?_, ?_, ?_⟩
  · exact (foldl_set_sets PV base).nodup (hB.nodup (by simp))
  · intro z vs hz p hp
    have hzn : z < n := (List.getElem?_eq_some_iff.1 hz).1
    have hvs := List.mem_of_getElem? hz
    obtain ⟨c, hc⟩ := Option.isSome_iff_exists.1 ((get?_isSome_iff vs (cx p)).2 ((hl.keys vs hvs _).2 ⟨p, hp, rfl⟩))
    have : PV.get? (place n z p) = some c := by
      refine (get?_foldl_set _ _ _).1 c (List.mem_append_left _ ((memS _ _).2 ⟨z, vs, hz, p, hp, hc, rfl⟩)) fun c' hc' => ?_
      rcases List.mem_append.1 hc' with h | h
      · obtain ⟨z', vs', hz', p', hp', hc', h2⟩ := (memS _ _).1 h
        have hzn' : z' < n := (List.getElem?_eq_some_iff.1 hz').1
        simp only [place, Prod.mk.injEq, Nat.cast_inj] at h2
        obtain ⟨rfl, rfl⟩ := cells_inj hzn hzn' h2.1 h2.2
        rw [hz] at hz'
        obtain rfl := Option.some.inj hz'
        rw [hc] at hc'
        exact (Option.some.inj hc').symm
      · exact absurd rfl ((memM _ _ h).2.2.2 z hzn p hp)
    rw [hget, this, hc]
    rfl
  · intro k c h
    rw [hget] at h
    cases hk : PV.get? k with
    | some c' =>
      rw [hk] at h
      obtain rfl : c' = c := Option.some.inj h
      rcases mem_of_get?_foldl_set _ _ _ _ hk with h' | h'
      · exact absurd h' (by simp [PyDict.get?])
      rcases List.mem_append.1 h' with h' | h'
      · obtain ⟨z, vs, hz, p, hp, hc, e⟩ := (memS _ _).1 h'
        exact Or.inl ⟨z, vs, p, hp, hz, hc, e⟩
      · have := memM _ _ h'
        exact Or.inr ⟨Or.inr this.1, this.2.1, this.2.2.1⟩
    | none =>
      rw [hk] at h
      rcases hB.only k c h with h' | ⟨h1, e, he, h2⟩
      · exact absurd h' (by simp [PyDict.get?])
      · refine Or.inr ⟨Or.inl h1, ?_⟩
        obtain ⟨x, hx, h3⟩ := List.mem_flatMap.1 he
        obtain ⟨z, lvl, _, p, hp, q, hq, _, rfl⟩ := (memD x).1 hx
        obtain ⟨a1, a2, a3, a4⟩ := connector_nonneg h3
        rcases h2 with ⟨_, b1, b2, _⟩ | ⟨_, b1, b2, _⟩ <;> omega
  · intro z lvl hz p hp q hq hm e he k hk
    have : base.get? k ≠ none := hB.there k ⟨e, List.mem_flatMap.2 ⟨_, (memD _).2 ⟨z, lvl, hz, p, hp, q, hq, hm, rfl⟩, he⟩, hk⟩
    rw [hget]
    cases PV.get? k with
    | some c => simp
    | none => simpa using this
  · intro z lvl hz p hp q hq hm e he
    have hmem : e ∈ D.flatMap Prod.snd := List.mem_flatMap.2 ⟨_, (memD _).2 ⟨z, lvl, hz, p, hp, q, hq, hm, rfl⟩, he⟩
    have he2 : e.2 = '~' := (memM e.1 e.2 hmem).1
    have : PV.get? e.1 = some '~' := by
      refine (get?_foldl_set _ _ _).1 '~' (List.mem_append_right _ (by rw [← he2]; exact hmem)) fun c' hc' => ?_
      rcases List.mem_append.1 hc' with h | h
      · obtain ⟨z', vs', hz', p', hp', hc', h2⟩ := (memS _ _).1 h
        exact absurd h2 ((memM e.1 e.2 hmem).2.2.2 z' (List.getElem?_eq_some_iff.1 hz').1 p' hp')
      · exact (memM _ _ h).1
    rw [hget, this]
    rfl

end Honeycomb
