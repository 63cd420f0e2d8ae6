import Verif.Lemmas.Abstract2
import Verif.Lemmas.Faces

/-!
# Membranes: closed loops that follow the measurement schedule, and the faults that flip them
-/

namespace Honeycomb
namespace HoneycombLayout
variable {lay : HoneycombLayout}

/-- The frame of the data qubits when Pauli faults `E k` strike before sub-round `k`. -/
structure FaultyTrajectory (lay : HoneycombLayout) (N : Nat) (E F : Nat → PauliOp) : Prop where
  init : ∀ q ∈ lay.data_qubit_coords, ∃ r : ZMod 2, F 0 q = r • (lay.obsAt 0).1.pauli + E 0 q
  step : ∀ k : Nat, k < N → ∀ e ∈ lay.round_edges k, ∃ r : ZMod 2,
    F (k + 1) e.left = F k e.left + r • (Basis.ofIdx k).pauli + E (k + 1) e.left ∧
    F (k + 1) e.right = F k e.right + r • (Basis.ofIdx k).pauli + E (k + 1) e.right

/-- The colour of the loop that carries the observable before sub-round `k`. -/
def loopColour (lay : HoneycombLayout) (k : Int) : Int :=
  if lay.obs = "V" then (if k % 2 = 0 then k else k - 1) else (if k % 2 = 1 then k else k - 1)

/-- The index of the observable's basis before sub-round `k`. -/
def loopBasis (lay : HoneycombLayout) (k : Int) : Int :=
  if lay.obs = "V" then (if k % 2 = 0 then k - 1 else k) else (if k % 2 = 1 then k - 1 else k)

theorem v_basis_table : ∀ c ∈ ([0, 1, 2, 3, 4, 5] : List Int),
    patternBasis (obsVPattern c) = Basis.ofIdx (if c % 2 = 0 then c - 1 else c) := by decide

theorem h_basis_table : ∀ c ∈ ([0, 1, 2, 3, 4, 5] : List Int),
    patternBasis (obsHPattern c) = Basis.ofIdx (if c % 2 = 1 then c - 1 else c) := by decide

theorem obsAt_basis (lay : HoneycombLayout) (k : Int) : (lay.obsAt k).1 = Basis.ofIdx (lay.loopBasis k) := by
  rw [obsAt, loopBasis]
  split_ifs with h h1 h1
  all_goals
    first
    | (show patternBasis (obsVPattern k) = _
       rw [← obsVPattern_emod, v_basis_table _ (six_mem k)]
       split_ifs <;> first | omega | exact ofIdx_congr (by omega))
    | (show patternBasis (obsHPattern k) = _
       rw [← obsHPattern_emod, h_basis_table _ (six_mem k)]
       split_ifs <;> first | omega | exact ofIdx_congr (by omega))

/-- The two kinds of steps: the basis moves while the loop stays, or the loop moves while the basis stays. -/
theorem loop_step (lay : HoneycombLayout) (k : Int) :
    (lay.loopColour k = k ∧ lay.loopColour (k + 1) = k ∧ lay.loopBasis k = k - 1 ∧ lay.loopBasis (k + 1) = k + 1) ∨
    (lay.loopColour k = k - 1 ∧ lay.loopColour (k + 1) = k + 1 ∧ lay.loopBasis k = k ∧ lay.loopBasis (k + 1) = k) := by
  simp only [loopColour, loopBasis]
  split_ifs <;> omega

/-- A loop: `g k` marks the ends of the loop's edges of colour `k`; two of the three edges at a vertex of the loop are on it. -/
structure IsLoop (lay : HoneycombLayout) (g : Int → Pt → ZMod 2) : Prop where
  edge : ∀ k, ∀ e ∈ lay.round_edges k, g k e.left = g k e.right
  vertex : ∀ q ∈ lay.data_qubit_coords, ∀ k, g (k + 1) q = g k q + g (k - 1) q

/-- Whether the frame flips the loop's operator before sub-round `k`. -/
def loopFlip (lay : HoneycombLayout) (F : Nat → PauliOp) (g : Int → Pt → ZMod 2) (k : Nat) : ZMod 2 :=
  (lay.data_qubit_coords.map fun q => g (lay.loopColour k) q * anti (F k q) (Basis.ofIdx (lay.loopBasis k)).pauli).sum

/-- Whether the loop's edges measured in sub-round `k` are flipped. -/
def loopMeas (lay : HoneycombLayout) (F : Nat → PauliOp) (g : Int → Pt → ZMod 2) (k : Nat) : ZMod 2 :=
  (lay.data_qubit_coords.map fun q => g k q * anti (F k q) (Basis.ofIdx k).pauli).sum

/-- Whether the faults before sub-round `k` flip the loop. -/
def loopErr (lay : HoneycombLayout) (E : Nat → PauliOp) (g : Int → Pt → ZMod 2) (k : Nat) : ZMod 2 :=
  (lay.data_qubit_coords.map fun q => g (lay.loopColour k) q * anti (E k q) (Basis.ofIdx (lay.loopBasis k)).pauli).sum

variable {N : Nat} {E F : Nat → PauliOp} {g g' : Int → Pt → ZMod 2}

theorem sum_by_edges (hv : lay.Valid) (k : Int) (f : Pt → ZMod 2) :
    (lay.data_qubit_coords.map f).sum = ((lay.round_edges k).map fun e => f e.left + f e.right).sum := by
  rw [← sum_edgeEnds]; exact ((edgeEnds_data hv k).map f).sum_eq.symm

theorem FaultyTrajectory.flip_init (ht : lay.FaultyTrajectory N E F) : lay.loopFlip F g 0 = lay.loopErr E g 0 := by
  refine sum_map_congr fun q hq => ?_
  obtain ⟨r, e⟩ := ht.init q hq
  rw [e, obsAt_basis, anti_add_left, Nat.cast_zero, smul_self_anti, zero_add]

theorem FaultyTrajectory.flip_step (hv : lay.Valid) (ht : lay.FaultyTrajectory N E F) (hg : lay.IsLoop g) {k : Nat} (hk : k < N) :
    lay.loopFlip F g (k + 1) = lay.loopFlip F g k + lay.loopMeas F g k + lay.loopErr E g (k + 1) := by
  rw [loopFlip, loopFlip, loopMeas, loopErr, ← sum_map_add, ← sum_map_add, sum_by_edges hv k, sum_by_edges hv k]
  refine sum_map_congr fun e he => ?_
  obtain ⟨r, e1, e2⟩ := ht.step k hk e he
  have hd := edge_ends_data hv (round_edges_subset_all he)
  have hge := hg.edge k e he
  push_cast
  rcases loop_step lay k with ⟨a, b, c, d⟩ | ⟨a, b, c, d⟩
  · rw [a, b, c, d, e1, e2, hge]
    have hP : (Basis.ofIdx ((k : Int) + 1)).pauli = (Basis.ofIdx ((k : Int) - 1)).pauli + (Basis.ofIdx (k : Int)).pauli := by
      have := pauli_mul_next ((k : Int) + 1)
      rw [← this, add_comm, ofIdx_congr (k := (k : Int) + 1 + 2) (k' := (k : Int)) (by omega),
        ofIdx_congr (k := (k : Int) + 1 + 1) (k' := (k : Int) - 1) (by omega), add_comm]
    simp only [anti_add_left, hP, anti_add_right, anti_smul_left, anti_self, mul_zero]
    have := zmod2_add_self (g k e.right * (r * anti (Basis.ofIdx (k : Int)).pauli (Basis.ofIdx ((k : Int) - 1)).pauli))
    linear_combination this
  · rw [a, b, c, d, e1, e2, hg.vertex _ hd.1, hg.vertex _ hd.2]
    simp only [anti_add_left, smul_self_anti]
    ring

/-- A membrane: the loop may change between sub-rounds as long as the part that carries the observable stays. -/
theorem FaultyTrajectory.membrane (hv : lay.Valid) (ht : lay.FaultyTrajectory N E F) {G : Nat → Int → Pt → ZMod 2}
    (hg : ∀ k, lay.IsLoop (G k))
    (hsw : ∀ k < N, ∀ q ∈ lay.data_qubit_coords, G (k + 1) (lay.loopColour ((k + 1 : Nat) : Int)) q = G k (lay.loopColour ((k + 1 : Nat) : Int)) q)
    {t : Nat} (hN : t ≤ N) :
    lay.loopFlip F (G t) t + ((List.range t).map fun k => lay.loopMeas F (G k) k).sum =
      ((List.range (t + 1)).map fun k => lay.loopErr E (G k) k).sum := by
  induction t with
  | zero => simp [ht.flip_init (g := G 0)]
  | succ t ih =>
    have e1 : lay.loopFlip F (G (t + 1)) (t + 1) = lay.loopFlip F (G t) (t + 1) :=
      sum_map_congr fun q hq => by rw [hsw t (by omega) q hq]
    have e2 : lay.loopErr E (G (t + 1)) (t + 1) = lay.loopErr E (G t) (t + 1) :=
      sum_map_congr fun q hq => by rw [hsw t (by omega) q hq]
    rw [List.range_succ, List.range_succ (n := t + 1), List.map_append, List.map_append, List.sum_append, List.sum_append, ← ih (by omega), e1,
      ht.flip_step hv (hg t) (by omega)]
    simp only [List.map_cons, List.map_nil, List.sum_cons, List.sum_nil, add_zero, e2]
    have := zmod2_add_self (lay.loopMeas F (G t) t)
    linear_combination this

/-! ## Faces -/

theorem hexes_cover (hv : lay.Valid) {c : Int} (h0 : 0 ≤ c) (h3 : c < 3) :
    ((lay.round_hex_centers c).flatMap lay.qubits_around_hex).Perm lay.data_qubit_coords := by
  have hw := Valid.tw_pos hv
  have hh := Valid.th_pos hv
  refine (List.perm_ext_iff_of_nodup ?_ (nodup_data_qubit_coords lay)).2 fun q => ?_
  · rw [List.nodup_flatMap]
    refine ⟨fun h _ => nodup_qubits_around_hex hv h, ?_⟩
    refine (nodup_round_hex_centers hv c).imp_of_mem ?_
    intro a b ha hb hab
    rw [Function.onFun, List.disjoint_left]
    intro q h1 h2
    obtain ⟨xa, ca⟩ := (mem_round_hex_centers hv).1 ha
    obtain ⟨xb, cb⟩ := (mem_round_hex_centers hv).1 hb
    exact hab (face_unique xa xb (ca.trans cb.symm) (mem_qubits_around_hex.1 h1) (mem_qubits_around_hex.1 h2))
  · simp only [List.mem_flatMap]
    constructor
    · rintro ⟨h, hm, hq⟩
      exact qubits_around_hex_data hv ((mem_round_hex_centers hv).1 hm).1 hq
    · intro hq
      obtain ⟨h, hx, hc, hd⟩ := face_exists hw hh ((mem_data_qubit_coords hv).1 hq) c
      exact ⟨h, (mem_round_hex_centers hv).2 ⟨hx, by omega⟩, mem_qubits_around_hex.2 hd⟩

theorem sum_by_hexes (hv : lay.Valid) {c : Int} (h0 : 0 ≤ c) (h3 : c < 3) (f : Pt → ZMod 2) :
    (lay.data_qubit_coords.map f).sum = ((lay.round_hex_centers c).map fun h => ((lay.qubits_around_hex h).map f).sum).sum := by
  rw [← sum_flatMap]; exact ((hexes_cover hv h0 h3).map f).sum_eq.symm

/-- The flips of the edges around a face measured before sub-round `t`. -/
def faceSum (lay : HoneycombLayout) (F : Nat → PauliOp) (h : Pt) : Nat → ZMod 2
  | 0 => 0
  | t + 1 => faceSum lay F h t + if (t : Int) % 3 = hexColour h then 0 else lay.hexSum h (F t) (Basis.ofIdx t).pauli

/-- Two loops differ by the faces of `χ`. -/
structure Homologous (lay : HoneycombLayout) (g g' : Int → Pt → ZMod 2) (χ : Pt → ZMod 2) : Prop where
  ex : ∃ X : Int → Pt → ZMod 2, (∀ c, 0 ≤ c → c < 3 → ∀ h ∈ lay.round_hex_centers c, ∀ q ∈ lay.qubits_around_hex h, X c q = χ h) ∧
    ∀ q ∈ lay.data_qubit_coords, ∀ k, g k q + g' k q = X ((k + 1) % 3) q + X ((k + 2) % 3) q

/-- The faces of colour `c` of `χ`, each with weight `w`. -/
def hexes (lay : HoneycombLayout) (χ w : Pt → ZMod 2) (c : Int) : ZMod 2 := ((lay.round_hex_centers c).map fun h => χ h * w h).sum

theorem hexes_add (χ w w' : Pt → ZMod 2) (c : Int) : lay.hexes χ (fun h => w h + w' h) c = lay.hexes χ w c + lay.hexes χ w' c := by
  rw [hexes, hexes, hexes, ← sum_map_add]
  exact sum_map_congr fun h _ => by ring

theorem sum_mul_left {α : Type} (l : List α) (a : ZMod 2) (f : α → ZMod 2) : (l.map fun x => a * f x).sum = a * (l.map f).sum := by
  induction l with
  | nil => simp
  | cons x l ih => simp [ih, mul_add]

/-- Homologous loops, at one moment. -/
theorem Homologous.at (hv : lay.Valid) {χ : Pt → ZMod 2} (hh : lay.Homologous g g' χ) (k : Int) (G : PauliOp) (P : Pauli) :
    (lay.data_qubit_coords.map fun q => g k q * anti (G q) P).sum + (lay.data_qubit_coords.map fun q => g' k q * anti (G q) P).sum =
      lay.hexes χ (fun h => lay.hexSum h G P) ((k + 1) % 3) + lay.hexes χ (fun h => lay.hexSum h G P) ((k + 2) % 3) := by
  obtain ⟨X, h1, h2⟩ := hh.ex
  have key : ∀ c, 0 ≤ c → c < 3 → (lay.data_qubit_coords.map fun q => X c q * anti (G q) P).sum = lay.hexes χ (fun h => lay.hexSum h G P) c := by
    intro c a b
    rw [sum_by_hexes hv a b, hexes]
    refine sum_map_congr fun h hm => ?_
    rw [hexSum, ← sum_mul_left]
    exact sum_map_congr fun q hq => by rw [h1 c a b h hm q hq]
  rw [← key _ (by omega) (by omega), ← key _ (by omega) (by omega), ← sum_map_add, ← sum_map_add]
  refine sum_map_congr fun q hq => ?_
  rw [← add_mul, ← add_mul, h2 q hq]

/-- Homologous loops, over time. -/
theorem Homologous.meas (hv : lay.Valid) {χ : Pt → ZMod 2} (hh : lay.Homologous g g' χ) (F : Nat → PauliOp) (t : Nat) :
    ((List.range t).map fun k => lay.loopMeas F g k).sum + ((List.range t).map fun k => lay.loopMeas F g' k).sum =
      lay.hexes χ (fun h => lay.faceSum F h t) 0 + lay.hexes χ (fun h => lay.faceSum F h t) 1 + lay.hexes χ (fun h => lay.faceSum F h t) 2 := by
  induction t with
  | zero => simp [hexes, faceSum]
  | succ t ih =>
    have hat := hh.at hv t (F t) (Basis.ofIdx t).pauli
    have hc : ∀ c : Int, lay.hexes χ (fun h => lay.faceSum F h (t + 1)) c = lay.hexes χ (fun h => lay.faceSum F h t) c +
        if (t : Int) % 3 = c then 0 else lay.hexes χ (fun h => lay.hexSum h (F t) (Basis.ofIdx t).pauli) c := by
      intro c
      simp only [faceSum]
      rw [hexes_add]
      congr 1
      split_ifs with e
      · refine sum_map_eq_zero fun h hm => ?_
        beta_reduce
        rw [((mem_round_hex_centers hv).1 hm).2, if_pos e, mul_zero]
      · refine sum_map_congr fun h hm => ?_
        beta_reduce
        rw [((mem_round_hex_centers hv).1 hm).2, if_neg e]
    rw [List.range_succ, List.map_append, List.map_append, List.sum_append, List.sum_append, hc 0, hc 1, hc 2]
    simp only [List.map_cons, List.map_nil, List.sum_cons, List.sum_nil, add_zero]
    change _ + lay.loopMeas F g t + (_ + lay.loopMeas F g' t) = _
    have hat' : lay.loopMeas F g t + lay.loopMeas F g' t = _ := hat
    have h3 : (t : Int) % 3 = 0 ∨ (t : Int) % 3 = 1 ∨ (t : Int) % 3 = 2 := by omega
    rcases h3 with h | h | h
    · rw [show ((t : Int) + 1) % 3 = 1 by omega, show ((t : Int) + 2) % 3 = 2 by omega] at hat'
      rw [h]
      simp; linear_combination ih + hat'
    · rw [show ((t : Int) + 1) % 3 = 2 by omega, show ((t : Int) + 2) % 3 = 0 by omega] at hat'
      rw [h]
      simp; linear_combination ih + hat'
    · rw [show ((t : Int) + 1) % 3 = 0 by omega, show ((t : Int) + 2) % 3 = 1 by omega] at hat'
      rw [h]
      simp; linear_combination ih + hat'

/-- What silent detectors say about the faces. -/
structure Quiet (lay : HoneycombLayout) (N : Nat) (F : Nat → PauliOp) : Prop where
  early : ∀ t ≤ N, ∀ h, HexT lay.tile_width lay.tile_height h → (lay.loopColour t - hexColour h) % 3 = 0 → lay.faceSum F h t = 0
  final : ∀ h, HexT lay.tile_width lay.tile_height h → (lay.loopColour N - hexColour h) % 3 ≠ 0 →
    lay.faceSum F h N + lay.hexSum h (F N) (Basis.ofIdx (lay.loopBasis N)).pauli = 0

/-- The parity the record gives for a loop. -/
def loopValue (lay : HoneycombLayout) (F : Nat → PauliOp) (g : Int → Pt → ZMod 2) (N : Nat) : ZMod 2 :=
  lay.loopFlip F g N + ((List.range N).map fun k => lay.loopMeas F g k).sum

theorem Quiet.value (hv : lay.Valid) (hq : lay.Quiet N F) {χ : Pt → ZMod 2} (hh : lay.Homologous g g' χ) :
    lay.loopValue F g N = lay.loopValue F g' N := by
  have hm := hh.meas hv F N
  have hat := hh.at hv (lay.loopColour N) (F N) (Basis.ofIdx (lay.loopBasis N)).pauli
  have own : ∀ c : Int, (lay.loopColour N - c) % 3 = 0 → lay.hexes χ (fun h => lay.faceSum F h N) c = 0 := by
    intro c hc
    refine sum_map_eq_zero fun h hm => ?_
    obtain ⟨hx, rfl⟩ := (mem_round_hex_centers hv).1 hm
    beta_reduce
    rw [hq.early N le_rfl h hx hc, mul_zero]
  have other : ∀ c : Int, (lay.loopColour N - c) % 3 ≠ 0 → lay.hexes χ (fun h => lay.faceSum F h N) c +
      lay.hexes χ (fun h => lay.hexSum h (F N) (Basis.ofIdx (lay.loopBasis N)).pauli) c = 0 := by
    intro c hc
    rw [← hexes_add]
    refine sum_map_eq_zero fun h hm => ?_
    obtain ⟨hx, rfl⟩ := (mem_round_hex_centers hv).1 hm
    beta_reduce
    rw [hq.final h hx hc, mul_zero]
  have : lay.loopValue F g N + lay.loopValue F g' N = 0 := by
    rw [loopValue, loopValue]
    have hat' : lay.loopFlip F g N + lay.loopFlip F g' N = _ := hat
    have h3 : lay.loopColour N % 3 = 0 ∨ lay.loopColour N % 3 = 1 ∨ lay.loopColour N % 3 = 2 := by omega
    rcases h3 with h | h | h
    · rw [show (lay.loopColour N + 1) % 3 = 1 by omega, show (lay.loopColour N + 2) % 3 = 2 by omega] at hat'
      linear_combination hm + hat' + own 0 (by omega) + other 1 (by omega) + other 2 (by omega)
    · rw [show (lay.loopColour N + 1) % 3 = 2 by omega, show (lay.loopColour N + 2) % 3 = 0 by omega] at hat'
      linear_combination hm + hat' + own 1 (by omega) + other 2 (by omega) + other 0 (by omega)
    · rw [show (lay.loopColour N + 1) % 3 = 0 by omega, show (lay.loopColour N + 2) % 3 = 1 by omega] at hat'
      linear_combination hm + hat' + own 2 (by omega) + other 0 (by omega) + other 1 (by omega)
  generalize lay.loopValue F g N = a at *
  generalize lay.loopValue F g' N = b at *
  revert a b; decide

/-- Loops that differ only by faces of the colour of the loop at time `t` have measured the same so far. -/
theorem Quiet.meas (hv : lay.Valid) (hq : lay.Quiet N F) {χ : Pt → ZMod 2} (hh : lay.Homologous g g' χ) {t : Nat} (ht : t ≤ N)
    (hχ : ∀ h, HexT lay.tile_width lay.tile_height h → (lay.loopColour t - hexColour h) % 3 ≠ 0 → χ h = 0) :
    ((List.range t).map fun k => lay.loopMeas F g k).sum = ((List.range t).map fun k => lay.loopMeas F g' k).sum := by
  have hm := hh.meas hv F t
  have z : ∀ c : Int, lay.hexes χ (fun h => lay.faceSum F h t) c = 0 := by
    intro c
    refine sum_map_eq_zero fun h hm => ?_
    obtain ⟨hx, rfl⟩ := (mem_round_hex_centers hv).1 hm
    by_cases hc : (lay.loopColour t - hexColour h) % 3 = 0
    · beta_reduce
      rw [hq.early t ht h hx hc, mul_zero]
    · rw [hχ h hx hc, zero_mul]
  rw [z, z, z] at hm
  generalize ((List.range t).map fun k => lay.loopMeas F g k).sum = a at *
  generalize ((List.range t).map fun k => lay.loopMeas F g' k).sum = b at *
  revert a b; decide

end HoneycombLayout
end Honeycomb
