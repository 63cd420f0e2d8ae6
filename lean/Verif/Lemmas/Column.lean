import Verif.Lemmas.AttainedEM3

/-!
# Errors on a column that move as little as the sub-rounds allow

A line of faults on a column of data qubits, followed sub-round by sub-round. Each edge measurement can move the line along its edge. After three
sub-rounds the rest of the line is a product of two-qubit operators that sub-round 3 measures.
-/

namespace Honeycomb
namespace HoneycombLayout
variable {lay : HoneycombLayout} {N : Nat}

/-! ## Steps of a run next to a second frame -/

/-- From `g` to `g'` in sub-round `k`: the two ends of each measured edge change by the same multiple of the measured operator. -/
def Kicks (lay : HoneycombLayout) (k : Int) (g g' : PauliOp) : Prop := ∀ e ∈ lay.round_edges k, ∃ r : ZMod 2,
  g' e.left = g e.left + r • (Basis.ofIdx k).pauli ∧ g' e.right = g e.right + r • (Basis.ofIdx k).pauli

theorem smul_add_pauli (r s : ZMod 2) (a b p : Pauli) : a + r • p + (b + s • p) = a + b + (r + s) • p := by revert r s a b p; decide

theorem Kicks.add {k : Int} {g g' h h' : PauliOp} (a : lay.Kicks k g g') (b : lay.Kicks k h h') : lay.Kicks k (g + h) (g' + h') := by
  intro e he
  obtain ⟨r, a1, a2⟩ := a e he
  obtain ⟨s, b1, b2⟩ := b e he
  refine ⟨r + s, ?_, ?_⟩
  · simp only [Pi.add_apply]
    rw [a1, b1, smul_add_pauli]
  · simp only [Pi.add_apply]
    rw [a2, b2, smul_add_pauli]

theorem par_add (g h : PauliOp) (k : Int) (e : Edge) : par (g + h) k e = par g k e + par h k e := by
  simp only [par, Pi.add_apply, anti_add_left]
  ring

theorem AbsRun.inv {F0 : PauliOp} {k : Nat} {c : Edge → ZMod 2} {R : List (ZMod 2)} {G : PauliOp} (h : lay.AbsRun F0 (k + 1) c R G) :
    ∃ c0 R0 G0, lay.AbsRun F0 k c0 R0 G0 ∧ lay.Kicks k G0 G ∧ c = (fun e => c0 e + if e ∈ lay.round_edges k then par G0 k e else 0) ∧
      R = R0 ++ (lay.round_edges k).map fun e => if lay.isPC3 then c0 e + par G0 k e else par G0 k e := by
  cases h with
  | step h F' hF => exact ⟨_, _, _, h, hF, rfl, rfl⟩

/-- A step next to a frame whose edges all have even parity. -/
theorem AbsRun.beside {F0 : PauliOp} {k : Nat} {c : Edge → ZMod 2} {R : List (ZMod 2)} {G G' g g' : PauliOp} (h : lay.AbsRun F0 k c R (G + g))
    (hG : lay.Kicks k G G') (hg : lay.Kicks k g g') (h0 : ∀ e ∈ lay.round_edges k, par g k e = 0) :
    lay.AbsRun F0 (k + 1) (fun e => c e + if e ∈ lay.round_edges k then par G k e else 0)
      (R ++ (lay.round_edges k).map fun e => if lay.isPC3 then c e + par G k e else par G k e) (G' + g') := by
  have hp : ∀ e ∈ lay.round_edges k, par (G + g) k e = par G k e := fun e he => by rw [par_add, h0 e he, add_zero]
  have := h.step (G' + g') (hG.add hg)
  have e1 : (fun e => c e + if e ∈ lay.round_edges k then par (G + g) k e else 0) = fun e => c e + if e ∈ lay.round_edges k then par G k e else 0 := by
    funext e
    split_ifs with he
    · rw [hp e he]
    · rfl
  have e2 : ((lay.round_edges k).map fun e => if lay.isPC3 then c e + par (G + g) k e else par (G + g) k e) =
      (lay.round_edges k).map fun e => if lay.isPC3 then c e + par G k e else par G k e :=
    List.map_congr_left fun e he => by rw [hp e he]
  rwa [e1, e2] at this

/-! ## Frames on the column -/

/-- A frame on the column `x = 2` that repeats every six rows. -/
def column (g : Int → Pauli) : PauliOp := fun q => if q.x = 2 then g (q.y / 2 % 6) else 0

/-- The rows of the ends of an edge, modulo 6. -/
theorem edge_column (hv : lay.Valid) {k : Int} {e : Edge} (he : e ∈ lay.round_edges k) :
    ((e.left.x = e.right.x ∧ ((e.left.y / 2 % 6 - k) % 3 = 1 ∧ e.right.y / 2 % 6 = (e.left.y / 2 % 6 + 1) % 6 ∨
        (e.left.y / 2 % 6 - k) % 3 = 2 ∧ e.right.y / 2 % 6 = (e.left.y / 2 % 6 + 5) % 6)) ∨
      (e.left.x ≠ e.right.x ∧ e.right.y / 2 % 6 = e.left.y / 2 % 6 ∧ (e.left.y / 2 % 6 - k) % 3 = 0)) ∧
    (e.left.x = 2 → e.left.y / 2 % 6 ∈ ([0, 2, 4] : List Int)) ∧ (e.right.x = 2 → e.right.y / 2 % 6 ∈ ([1, 3, 5] : List Int)) := by
  have hh := Valid.th_pos hv
  obtain ⟨o, h1, h2⟩ := edge_other_end hv he (q := e.left) (Or.inl rfl)
  have hd := edge_ends_data hv (round_edges_subset_all he)
  have hpar := edge_parity hv (round_edges_subset_all he)
  have hne := edge_left_ne_right hv (round_edges_subset_all he)
  have ho : e.right = o := by
    rcases h1 with h1 | h1
    · exact h1.2
    · exact absurd h1.2.symm hne
  obtain ⟨⟨-, -, b1⟩, -, b2⟩ := (mem_data_qubit_coords hv).1 hd.1
  obtain ⟨⟨-, -, b3⟩, -, b4⟩ := (mem_data_qubit_coords hv).1 hd.2
  obtain ⟨z1, e1⟩ := twelve_rows (y := e.left.y + 2) hh
  obtain ⟨z2, e2⟩ := twelve_rows (y := e.left.y - 2) hh
  simp only [dataQubitParity, decide_eq_true_eq, decide_eq_false_iff_not, not_not] at hpar
  refine ⟨?_, ?_, ?_⟩
  · rw [ho]
    rcases h2 with ⟨a, b, c⟩ | ⟨a, b, c⟩ | ⟨a, b, c⟩
    · exact .inr ⟨fun h => c h.symm, by rw [b], by omega⟩
    · exact .inl ⟨b.symm, .inl ⟨by omega, by omega⟩⟩
    · exact .inl ⟨b.symm, .inr ⟨by omega, by omega⟩⟩
  · intro hx
    have := hpar.1
    simp only [List.mem_cons, List.not_mem_nil, or_false]
    omega
  · intro hx
    have := hpar.2
    simp only [List.mem_cons, List.not_mem_nil, or_false]
    omega

/-- A change of a frame on the column is a change by edge operators if it is so on the vertical edges, and absent elsewhere. -/
theorem kicks_column (hv : lay.Valid) {k : Int} {g g' : Int → Pauli}
    (h1 : ∀ r ∈ ([0, 2, 4] : List Int), (r - k) % 3 = 1 → ∃ s : ZMod 2, g' r = g r + s • (Basis.ofIdx k).pauli ∧ g' ((r + 1) % 6) = g ((r + 1) % 6) + s • (Basis.ofIdx k).pauli)
    (h2 : ∀ r ∈ ([0, 2, 4] : List Int), (r - k) % 3 = 2 → ∃ s : ZMod 2, g' r = g r + s • (Basis.ofIdx k).pauli ∧ g' ((r + 5) % 6) = g ((r + 5) % 6) + s • (Basis.ofIdx k).pauli)
    (h0 : ∀ r ∈ ([0, 1, 2, 3, 4, 5] : List Int), (r - k) % 3 = 0 → g' r = g r) : lay.Kicks k (column g) (column g') := by
  intro e he
  obtain ⟨hc, hl, hr⟩ := edge_column hv he
  simp only [column]
  have z : ∀ p : Pauli, p = p + (0 : ZMod 2) • (Basis.ofIdx k).pauli := fun p => by rw [zero_smul_pauli, add_zero]
  rcases hc with ⟨hx, ⟨a, b⟩ | ⟨a, b⟩⟩ | ⟨hx, a, b⟩
  · by_cases h : e.left.x = 2
    · rw [if_pos h, if_pos h, if_pos (hx ▸ h), if_pos (hx ▸ h), b]
      exact h1 _ (hl h) a
    · rw [if_neg h, if_neg h, if_neg (hx ▸ h), if_neg (hx ▸ h)]
      exact ⟨0, z 0, z 0⟩
  · by_cases h : e.left.x = 2
    · rw [if_pos h, if_pos h, if_pos (hx ▸ h), if_pos (hx ▸ h), b]
      exact h2 _ (hl h) a
    · rw [if_neg h, if_neg h, if_neg (hx ▸ h), if_neg (hx ▸ h)]
      exact ⟨0, z 0, z 0⟩
  · have := h0 (e.left.y / 2 % 6) (by simp only [List.mem_cons, List.not_mem_nil, or_false]; omega) b
    rw [a, this]
    exact ⟨0, z _, z _⟩

/-- The parities of a frame on the column. -/
theorem par_column (hv : lay.Valid) {k : Int} {g : Int → Pauli}
    (h1 : ∀ r ∈ ([0, 2, 4] : List Int), (r - k) % 3 = 1 → anti (g r) (Basis.ofIdx k).pauli + anti (g ((r + 1) % 6)) (Basis.ofIdx k).pauli = 0)
    (h2 : ∀ r ∈ ([0, 2, 4] : List Int), (r - k) % 3 = 2 → anti (g r) (Basis.ofIdx k).pauli + anti (g ((r + 5) % 6)) (Basis.ofIdx k).pauli = 0)
    (h0 : ∀ r ∈ ([0, 1, 2, 3, 4, 5] : List Int), (r - k) % 3 = 0 → anti (g r) (Basis.ofIdx k).pauli = 0) {e : Edge} (he : e ∈ lay.round_edges k) :
    par (column g) k e = 0 := by
  obtain ⟨hc, hl, hr⟩ := edge_column hv he
  have z : anti 0 (Basis.ofIdx k).pauli = 0 := by cases Basis.ofIdx k <;> decide
  simp only [par, column]
  rcases hc with ⟨hx, ⟨a, b⟩ | ⟨a, b⟩⟩ | ⟨hx, a, b⟩
  · by_cases h : e.left.x = 2
    · rw [if_pos h, if_pos (hx ▸ h), b]
      exact h1 _ (hl h) a
    · rw [if_neg h, if_neg (hx ▸ h), z, add_zero]
  · by_cases h : e.left.x = 2
    · rw [if_pos h, if_pos (hx ▸ h), b]
      exact h2 _ (hl h) a
    · rw [if_neg h, if_neg (hx ▸ h), z, add_zero]
  · have := h0 (e.left.y / 2 % 6) (by simp only [List.mem_cons, List.not_mem_nil, or_false]; omega) b
    rw [a]
    split_ifs <;> simp only [this, z, add_zero]

/-! ## The line, sub-round by sub-round -/

/-- Before sub-round 0: the line of faults. -/
def gap0 (r : Int) : Pauli := if r = 1 ∨ r = 2 ∨ r = 4 ∨ r = 5 then Basis.Z.pauli else 0
/-- Before sub-round 1. -/
def gap1 (r : Int) : Pauli := if r = 1 ∨ r = 2 ∨ r = 4 ∨ r = 5 then Basis.Y.pauli else 0
/-- Before sub-round 2. -/
def gap2 (r : Int) : Pauli := if r = 1 ∨ r = 3 ∨ r = 4 ∨ r = 5 then Basis.Y.pauli else 0
/-- Before sub-round 3. -/
def gap3 (r : Int) : Pauli := if r = 4 ∨ r = 5 then Basis.X.pauli else 0
/-- The errors of the data qubits. -/
def colError (r : Int) : Pauli := if r = 1 then Basis.Y.pauli else if r = 3 then Basis.X.pauli else if r = 5 then Basis.Z.pauli else 0

theorem column_add (g h : Int → Pauli) : column g + column h = column fun r => g r + h r := by
  funext q
  simp only [Pi.add_apply, column]
  split_ifs
  · rfl
  · rfl

theorem kicks_0 (hv : lay.Valid) : lay.Kicks ((0 : Nat) : Int) (column gap0) (column gap1) :=
  kicks_column hv (by decide) (by decide) (by decide)
theorem kicks_1 (hv : lay.Valid) : lay.Kicks ((1 : Nat) : Int) (column gap1) (column gap2) :=
  kicks_column hv (by decide) (by decide) (by decide)
theorem kicks_2 (hv : lay.Valid) : lay.Kicks ((2 : Nat) : Int) (column gap2) (column colError + column gap3) := by
  rw [column_add]
  exact kicks_column hv (by decide) (by decide) (by decide)
theorem kicks_3 (hv : lay.Valid) : lay.Kicks ((3 : Nat) : Int) (column gap3) 0 := by
  have : (0 : PauliOp) = column fun _ => 0 := by
    funext q
    simp [column]
  rw [this]
  exact kicks_column hv (by decide) (by decide) (by decide)

theorem par_0 (hv : lay.Valid) : ∀ e ∈ lay.round_edges ((0 : Nat) : Int), par (column gap0) ((0 : Nat) : Int) e = 0 := fun _ he =>
  par_column hv (by decide) (by decide) (by decide) he
theorem par_1 (hv : lay.Valid) : ∀ e ∈ lay.round_edges ((1 : Nat) : Int), par (column gap1) ((1 : Nat) : Int) e = 0 := fun _ he =>
  par_column hv (by decide) (by decide) (by decide) he
theorem par_3 (hv : lay.Valid) : ∀ e ∈ lay.round_edges ((3 : Nat) : Int), par (column gap3) ((3 : Nat) : Int) e = 0 := fun _ he =>
  par_column hv (by decide) (by decide) (by decide) he

/-- The errors of the ancillas in sub-round 2. -/
def colFlip (e : Edge) : ZMod 2 := par (column gap2) 2 e

/-- Two sub-rounds next to the line. -/
theorem AbsRun.two (hv : lay.Valid) {F0 : PauliOp} {c : Edge → ZMod 2} {R : List (ZMod 2)} {G : PauliOp} (h : lay.AbsRun F0 2 c R G) :
    lay.AbsRun (F0 + column gap0) 2 c R (G + column gap2) := by
  obtain ⟨c1, R1, G1, h1, k1, rfl, rfl⟩ := AbsRun.inv (k := 1) h
  obtain ⟨c0, R0, G0, h0, k0, rfl, rfl⟩ := AbsRun.inv (k := 0) h1
  obtain ⟨rfl, rfl, rfl⟩ : c0 = (fun _ => 0) ∧ R0 = [] ∧ G0 = F0 := by
    cases h0
    exact ⟨rfl, rfl, rfl⟩
  exact ((AbsRun.start (F0 := G0 + column gap0)).beside k0 (kicks_0 hv) (par_0 hv)).beside k1 (kicks_1 hv) (par_1 hv)

/-- The third sub-round, with the errors. -/
theorem AbsRun.three (hv : lay.Valid) {F0 : PauliOp} {c : Edge → ZMod 2} {R : List (ZMod 2)} {G G' : PauliOp} (h : lay.AbsRun F0 2 c R G)
    (hG : lay.Kicks ((2 : Nat) : Int) G G') :
    lay.AbsRun (F0 + column gap0) 3 (fun e => c e + if e ∈ lay.round_edges ((2 : Nat) : Int) then par G ((2 : Nat) : Int) e + colFlip e else 0)
      (R ++ (lay.round_edges ((2 : Nat) : Int)).map fun e => if lay.isPC3 then c e + (par G ((2 : Nat) : Int) e + colFlip e) else par G ((2 : Nat) : Int) e + colFlip e)
      ((G' + column colError) + column gap3) := by
  have := (h.two hv).step _ (hG.add (kicks_2 hv))
  simp only [par_add] at this
  rw [add_assoc]
  exact this

end HoneycombLayout
end Honeycomb
