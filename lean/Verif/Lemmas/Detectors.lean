import Verif.Lemmas.Marks
import Verif.Props.Layout
import Verif.Spec.Detectors

/-! Closed form of the detectors' contents. -/

namespace Honeycomb
namespace HoneycombLayout
variable (lay : HoneycombLayout)

/-- The measurements of the listed edges in sub-round `j`. -/
def rE (l : List Edge) (j : Int) : Finset Nat := if 0 ≤ j then xorS (l.map fun e => {lay.mTime j.toNat e}) else ∅

/-- The recovered parity of the listed edges in sub-round `j`. -/
def rV (l : List Edge) (j : Int) : Finset Nat := if lay.isPC3 then symmDiff (lay.rE l j) (lay.rE l (j - 3)) else lay.rE l j

/-- The parity of face `h` completed in sub-round `j`. -/
def rF (h : Pt) (j : Int) : Finset Nat := symmDiff (lay.rV (lay.second_edges_around_hex h) j) (lay.rV (lay.first_edges_around_hex h) (j - 1))

variable {lay}

theorem rE_neg {l : List Edge} {j : Int} (h : j < 0) : lay.rE l j = ∅ := by rw [rE, if_neg (by omega)]

theorem rV_neg {l : List Edge} {j : Int} (h : j < 0) : lay.rV l j = ∅ := by
  rw [rV, rE_neg h, rE_neg (by omega)]
  split_ifs <;> simp

theorem rF_neg {h : Pt} {j : Int} (hj : j < 0) : lay.rF h j = ∅ := by
  rw [rF, rV_neg hj, rV_neg (by omega)]
  simp

theorem xorS_symmDiff {α : Type} (l : List α) (f g : α → Finset Nat) :
    xorS (l.map fun a => symmDiff (f a) (g a)) = symmDiff (xorS (l.map f)) (xorS (l.map g)) := by
  induction l with
  | nil => exact (symmDiff_self _).symm
  | cons a l ih =>
    show symmDiff (symmDiff (f a) (g a)) (xorS _) = symmDiff (symmDiff (f a) (xorS _)) (symmDiff (g a) (xorS _))
    rw [ih, symmDiff_symmDiff_symmDiff_comm]

theorem xorS_vE (l : List Edge) (k : Nat) : xorS (l.map (lay.vE k)) = lay.rV l k := by
  rw [rV]
  by_cases hp : lay.isPC3 = true
  · rw [if_pos hp]
    by_cases h3 : 3 ≤ k
    · have : lay.vE k = fun e => symmDiff {lay.mTime k e} {lay.mTime (k - 3) e} := by
        funext e; rw [vE, if_pos ⟨hp, h3⟩]
      rw [this, xorS_symmDiff, rE, rE, if_pos (by omega), if_pos (by omega), show ((k : Int) - 3).toNat = k - 3 by omega]
      rfl
    · have : lay.vE k = fun e => {lay.mTime k e} := by
        funext e; rw [vE, if_neg (fun h => h3 h.2)]
      rw [this, rE_neg (show (k : Int) - 3 < 0 by omega), rE, if_pos (by omega)]
      exact (symmDiff_bot _).symm
  · have : lay.vE k = fun e => {lay.mTime k e} := by
      funext e; rw [vE, if_neg (fun h => hp h.1)]
    rw [if_neg hp, this, rE, if_pos (by omega)]
    rfl

theorem vHalf_eq (k : Nat) (h : Pt) : lay.vHalf k h = some (lay.rV (lay.first_edges_around_hex h) k) := by
  rw [vHalf, xorL_some, xorS_vE]

theorem vHex_eq (b : Basis) (k : Nat) (h : Pt) : lay.vHex b k h = if 1 ≤ k ∨ b = .Z then some (lay.rF h k) else none := by
  rw [vHex, xorL_some, xorS_vE]
  by_cases hk : k < 1
  · obtain rfl : k = 0 := by omega
    rw [if_pos hk, rF, rV_neg (l := lay.first_edges_around_hex h) (j := ((0 : Nat) : Int) - 1) (by norm_num), hInit]
    cases b <;> simp [Basis.index] <;> rfl
  · rw [if_neg hk, if_pos (Or.inl (by omega)), vHalf_eq, xorO_some, rF, show ((k - 1 : Nat) : Int) = k - 1 by omega]

/-- The first basis of a supported observable. -/
theorem obsAt_zero_basis (ho : lay.ObsOk) : (lay.obsAt 0).1 = if lay.obs = "V" then .Z else .X := by
  rw [obsAt]
  rcases ho with h | h
  · rw [if_pos h, if_pos h]; rfl
  · have : lay.obs ≠ "V" := by rw [h]; decide
    rw [if_neg this, if_neg this]; rfl

theorem topHex_eq (ho : lay.ObsOk) {r : Int} (h0 : 0 ≤ r) (h3 : r < 3) {k d : Nat} (h1 : 1 ≤ d) (hd : d ≤ 3) (hc : ((k : Int) - d) % 3 = (r + 2) % 3)
    (h : Pt) : lay.topHex (lay.obsAt 0).1 r k h = if lay.faceKnown k r then some (lay.rF h (k - d)) else none := by
  rw [topHex, topAt_eq _ _ h1 hd hc, vHex_eq, obsAt_zero_basis ho, eInit, faceKnown]
  by_cases hV : lay.obs = "V"
  · simp only [hV, if_true, Basis.index, or_true, decide_eq_true_eq]
    by_cases hk : k < d
    · rw [if_pos hk, rF_neg (by omega)]
      by_cases hr : r = 2
      · rw [if_neg (by omega), if_pos (by omega)]
      · rw [if_pos hr, if_neg (by omega)]
    · rw [if_neg hk, if_pos (by omega), show ((k - d : Nat) : Int) = k - d by omega]
  · have hz : ¬ (Basis.X = Basis.Z) := by decide
    simp only [hV, if_false, Basis.index, hz, or_false, decide_eq_true_eq]
    by_cases hk : k < d
    · rw [if_pos hk, rF_neg (by omega)]
      by_cases hr : r = 0
      · rw [if_neg (by omega), if_pos (by omega)]
      · rw [if_pos hr, if_neg (by omega)]
    · rw [if_neg hk, show ((k - d : Nat) : Int) = k - d by omega]
      by_cases hkd : 1 ≤ k - d
      · rw [if_pos hkd, if_pos (by omega)]
      · rw [if_neg hkd, if_neg (by omega)]

theorem prevHex_eq (ho : lay.ObsOk) (k : Nat) (h : Pt) : lay.prevHex (lay.obsAt 0).1 k h =
    if lay.faceKnown k (((k : Int) - 2) % 3) then some (lay.rF h (k - 3)) else none := by
  have := topHex_eq ho (r := ((k : Int) - 2) % 3) (by omega) (by omega) (k := k) (d := 3) (by omega) (by omega) (by omega) h
  refine Eq.trans ?_ this
  rw [topHex, topAt_eq (d := 3) _ _ (by omega) (by omega) (by push_cast; omega), prevHex]

/-- The contents of the face detectors of a sub-round. -/
theorem hexDetector_eq (ho : lay.ObsOk) (k : Nat) (h : Pt) :
    xorO (lay.vHex (lay.obsAt 0).1 k h) (lay.prevHex (lay.obsAt 0).1 k h) =
      if lay.faceKnown k (((k : Int) - 2) % 3) then some (symmDiff (lay.rF h k) (lay.rF h (k - 3))) else none := by
  rw [prevHex_eq ho, vHex_eq]
  by_cases hk : lay.faceKnown k (((k : Int) - 2) % 3) = true
  · rw [if_pos hk, if_pos hk, if_pos]
    · rfl
    · rw [obsAt_zero_basis ho]
      by_contra hc
      rw [not_or] at hc
      obtain rfl : k = 0 := by omega
      by_cases hV : lay.obs = "V"
      · simp [hV] at hc
      · simp [faceKnown, hV] at hk
  · rw [if_neg hk, if_neg hk, xorO_none_right]

/-! ### Membership -/

theorem mem_rE (hv : lay.Valid) {l : List Edge} {j : Int} (hn : l.Nodup) (hl : ∀ e ∈ l, e ∈ lay.round_edges j) {m : Nat} :
    m ∈ lay.rE l j ↔ 0 ≤ j ∧ ∃ e ∈ l, lay.mTime j.toNat e = m := by
  rw [rE]
  by_cases hj : 0 ≤ j
  · have hnd : (l.map (lay.mTime j.toNat)).Nodup := List.Nodup.map_on (fun a ha b hb e => by
      have ha := hl a ha
      have hb := hl b hb
      rw [← Int.toNat_of_nonneg hj] at ha hb
      exact (mTime_inj hv ha hb e).2) hn
    rw [if_pos hj, show (fun e => ({lay.mTime j.toNat e} : Finset Nat)) = (fun x => {x}) ∘ lay.mTime j.toNat from rfl, ← List.map_map,
      xorS_singletons hnd]
    simp [hj]
  · rw [if_neg hj]
    simp [hj]

/-- Elements of `rE l j` lie in sub-round `j`. -/
theorem rE_round (hv : lay.Valid) {l : List Edge} {j : Int} (hn : l.Nodup) (hl : ∀ e ∈ l, e ∈ lay.round_edges j) {m : Nat}
    (h : m ∈ lay.rE l j) : j = ((m / lay.perRound : Nat) : Int) := by
  obtain ⟨h0, e, he, rfl⟩ := (mem_rE hv hn hl).1 h
  have := hl e he
  have h1 := List.idxOf_lt_length_iff.2 this
  rw [perRound_eq hv] at h1
  rw [mTime, Int.toNat_of_nonneg h0, Nat.mul_comm, Nat.mul_add_div (by omega), Nat.div_eq_of_lt h1]
  omega

theorem faceEdges_mem (hv : lay.Valid) {c : Int} {h : Pt} (hh : h ∈ lay.round_hex_centers c) :
    (∀ j : Int, (j - c) % 3 = 2 → ∀ e ∈ lay.second_edges_around_hex h, e ∈ lay.round_edges j) ∧
    (∀ j : Int, (j - c) % 3 = 1 → ∀ e ∈ lay.first_edges_around_hex h, e ∈ lay.round_edges j) := by
  refine ⟨fun j hj e he => ?_, fun j hj e he => ?_⟩
  · rw [round_edges_congr lay (r' := c + 2) (by omega)]; exact second_mem hv hh he
  · rw [round_edges_congr lay (r' := c + 1) (by omega)]; exact first_mem hv hh he

/-- The measurement is one of the edges of face `h` in one of the sub-rounds. -/
def InRounds (lay : HoneycombLayout) (h : Pt) (js : List Int) (m : Nat) : Prop :=
  ∃ j ∈ js, 0 ≤ j ∧ ∃ e ∈ lay.all_edges_around_hex h, e ∈ lay.round_edges j ∧ lay.mTime j.toNat e = m

theorem inRounds_nil {h : Pt} {m : Nat} : InRounds lay h [] m ↔ False := by simp [InRounds]

theorem inRounds_cons {h : Pt} {j : Int} {js : List Int} {m : Nat} :
    InRounds lay h (j :: js) m ↔ InRounds lay h [j] m ∨ InRounds lay h js m := by
  simp [InRounds]

/-- A measurement belongs to one sub-round only. -/
theorem inRounds_single (hv : lay.Valid) {h : Pt} {j : Int} {m : Nat} :
    InRounds lay h [j] m ↔ j = ((m / lay.perRound : Nat) : Int) ∧ InRounds lay h [((m / lay.perRound : Nat) : Int)] m := by
  constructor
  · intro hm
    have : j = ((m / lay.perRound : Nat) : Int) := by
      obtain ⟨j', hj', h0, e, _, he, rfl⟩ := hm
      obtain rfl := List.mem_singleton.1 hj'
      have h1 := List.idxOf_lt_length_iff.2 he
      rw [perRound_eq hv] at h1
      rw [mTime, Int.toNat_of_nonneg h0, Nat.mul_comm, Nat.mul_add_div (by omega), Nat.div_eq_of_lt h1]
      omega
    exact ⟨this, this ▸ hm⟩
  · rintro ⟨rfl, hm⟩
    exact hm

theorem mem_rE_second (hv : lay.Valid) {c : Int} {h : Pt} (hh : h ∈ lay.round_hex_centers c) {j : Int} (hj : (j - c) % 3 = 2) {m : Nat} :
    m ∈ lay.rE (lay.second_edges_around_hex h) j ↔ j = ((m / lay.perRound : Nat) : Int) ∧ InRounds lay h [((m / lay.perRound : Nat) : Int)] m := by
  have hb := c08_face_boundary lay hv h ((isHex_iff hv h).2 ((mem_round_hex_centers hv).1 hh).1)
  have hn := hb.2.2.2.1
  rw [all_edges_around_hex, List.nodup_append] at hn
  rw [← inRounds_single hv, mem_rE hv hn.2.1 ((faceEdges_mem hv hh).1 j hj)]
  simp only [InRounds, List.mem_singleton, exists_eq_left, all_edges_around_hex, List.mem_append]
  refine and_congr_right fun _ => exists_congr fun e => ?_
  constructor
  · rintro ⟨he, hm⟩
    exact ⟨Or.inr he, (faceEdges_mem hv hh).1 j hj e he, hm⟩
  · rintro ⟨he | he, hr, hm⟩
    · have := round_edges_disjoint hv hr ((faceEdges_mem hv hh).2 (j + 2) (by omega) e he)
      omega
    · exact ⟨he, hm⟩

theorem mem_rE_first (hv : lay.Valid) {c : Int} {h : Pt} (hh : h ∈ lay.round_hex_centers c) {j : Int} (hj : (j - c) % 3 = 1) {m : Nat} :
    m ∈ lay.rE (lay.first_edges_around_hex h) j ↔ j = ((m / lay.perRound : Nat) : Int) ∧ InRounds lay h [((m / lay.perRound : Nat) : Int)] m := by
  have hb := c08_face_boundary lay hv h ((isHex_iff hv h).2 ((mem_round_hex_centers hv).1 hh).1)
  have hn := hb.2.2.2.1
  rw [all_edges_around_hex, List.nodup_append] at hn
  rw [← inRounds_single hv, mem_rE hv hn.1 ((faceEdges_mem hv hh).2 j hj)]
  simp only [InRounds, List.mem_singleton, exists_eq_left, all_edges_around_hex, List.mem_append]
  refine and_congr_right fun _ => exists_congr fun e => ?_
  constructor
  · rintro ⟨he, hm⟩
    exact ⟨Or.inl he, (faceEdges_mem hv hh).2 j hj e he, hm⟩
  · rintro ⟨he | he, hr, hm⟩
    · exact ⟨he, hm⟩
    · have := round_edges_disjoint hv hr ((faceEdges_mem hv hh).1 (j + 1) (by omega) e he)
      omega

/-- The measurements of a face completed in sub-round `j`. -/
theorem mem_rF (hv : lay.Valid) {c : Int} {h : Pt} (hh : h ∈ lay.round_hex_centers c) {j : Int} (hj : (j - c) % 3 = 2) {m : Nat} :
    m ∈ lay.rF h j ↔
      (if lay.isPC3 then [j, j - 1, j - 3, j - 4] else [j, j - 1]).contains ((m / lay.perRound : Nat) : Int) = true ∧
        InRounds lay h [((m / lay.perRound : Nat) : Int)] m := by
  rw [rF, rV, rV]
  generalize hq : ((m / lay.perRound : Nat) : Int) = q
  by_cases hp : lay.isPC3 = true
  · simp only [if_pos hp, Finset.mem_symmDiff, mem_rE_second hv hh hj, mem_rE_second hv hh (j := j - 3) (by omega),
      mem_rE_first hv hh (j := j - 1) (by omega), mem_rE_first hv hh (j := j - 1 - 3) (by omega), hq]
    by_cases hZ : InRounds lay h [q] m
    · simp only [hZ, and_true, List.contains_cons, List.contains_nil, Bool.or_eq_true, beq_iff_eq, Bool.false_eq_true, or_false]
      omega
    · simp [hZ]
  · simp only [if_neg hp, Finset.mem_symmDiff, mem_rE_second hv hh hj, mem_rE_first hv hh (j := j - 1) (by omega), hq]
    by_cases hZ : InRounds lay h [q] m
    · simp only [hZ, and_true, List.contains_cons, List.contains_nil, Bool.or_eq_true, beq_iff_eq, Bool.false_eq_true, or_false]
      omega
    · simp [hZ]

theorem inRounds_iff (hv : lay.Valid) {h : Pt} {js : List Int} {m : Nat} :
    InRounds lay h js m ↔ ((m / lay.perRound : Nat) : Int) ∈ js ∧ InRounds lay h [((m / lay.perRound : Nat) : Int)] m := by
  induction js with
  | nil => simp [inRounds_nil]
  | cons j js ih =>
    rw [inRounds_cons, ih, inRounds_single hv, List.mem_cons, eq_comm (a := j)]
    tauto

/-- The measurements compared by a face detector of sub-round `k`. -/
theorem mem_hexDetector (hv : lay.Valid) {c : Int} {h : Pt} (hh : h ∈ lay.round_hex_centers c) {k : Int} (hk : (k - c) % 3 = 2) {m : Nat} :
    m ∈ symmDiff (lay.rF h k) (lay.rF h (k - 3)) ↔
      InRounds lay h (if lay.isPC3 then [k, k - 1, k - 6, k - 7] else [k, k - 1, k - 3, k - 4]) m := by
  rw [Finset.mem_symmDiff, mem_rF hv hh hk, mem_rF hv hh (j := k - 3) (by omega), inRounds_iff hv (js := ite _ _ _)]
  generalize ((m / lay.perRound : Nat) : Int) = q
  by_cases hZ : InRounds lay h [q] m
  · by_cases hp : lay.isPC3 = true
    · simp only [hp, if_true, hZ, and_true, List.contains_cons, List.contains_nil, Bool.or_eq_true, beq_iff_eq, Bool.false_eq_true, or_false,
        List.mem_cons, List.not_mem_nil]
      omega
    · simp only [hp, if_false, hZ, and_true, List.contains_cons, List.contains_nil, Bool.or_eq_true, beq_iff_eq, Bool.false_eq_true, or_false,
        List.mem_cons, List.not_mem_nil]
      omega
  · simp [hZ]

/-! ### Final data measurements -/

theorem dTime_inj {N : Nat} {p q : Pt} (hp : p ∈ lay.data_qubit_coords) (h : lay.dTime N p = lay.dTime N q) : p = q := by
  simp only [dTime] at h
  exact (List.idxOf_inj hp).1 (by omega)

theorem mem_xorS_data {N : Nat} {l : List Pt} (hn : l.Nodup) (hl : ∀ q ∈ l, q ∈ lay.data_qubit_coords) {m : Nat} :
    m ∈ xorS (l.map fun q => {lay.dTime N q}) ↔ ∃ q ∈ l, lay.dTime N q = m := by
  have hnd : (l.map (lay.dTime N)).Nodup := List.Nodup.map_on (fun a ha b _ e => dTime_inj (hl a ha) e) hn
  rw [show (fun q => ({lay.dTime N q} : Finset Nat)) = (fun x => {x}) ∘ lay.dTime N from rfl, ← List.map_map, xorS_singletons hnd]
  simp

theorem dTime_round {N : Nat} (hP : 0 < lay.perRound) (q : Pt) : N ≤ lay.dTime N q / lay.perRound := by
  rw [Nat.le_div_iff_mul_le hP, dTime]
  omega

theorem mem_dHex (hv : lay.Valid) {c : Int} {h : Pt} (hh : h ∈ lay.round_hex_centers c) {N m : Nat} :
    m ∈ lay.dHex N h ↔ ∃ q ∈ lay.qubits_around_hex h, lay.dTime N q = m :=
  mem_xorS_data (nodup_qubits_around_hex hv h) (fun _ hq => qubits_around_hex_data hv ((mem_round_hex_centers hv).1 hh).1 hq)

/-- A final detector of a face whose last parity is that of sub-round `j`. -/
theorem mem_final_face (hv : lay.Valid) (hP : 0 < lay.perRound) {c : Int} {h : Pt} (hh : h ∈ lay.round_hex_centers c) {N : Nat} {j : Int}
    (hj : (j - c) % 3 = 2) (hjN : j < N) {m : Nat} :
    m ∈ symmDiff (lay.dHex N h) (lay.rF h j) ↔
      (∃ q ∈ lay.qubits_around_hex h, lay.dTime N q = m) ∨
      InRounds lay h (if lay.isPC3 then [j, j - 1, j - 3, j - 4] else [j, j - 1]) m := by
  have hD : (∃ q ∈ lay.qubits_around_hex h, lay.dTime N q = m) → (N : Int) ≤ ((m / lay.perRound : Nat) : Int) := by
    rintro ⟨q, _, rfl⟩
    exact_mod_cast dTime_round hP q
  rw [Finset.mem_symmDiff, mem_rF hv hh hj, mem_dHex hv hh, inRounds_iff hv (js := ite _ _ _)]
  generalize ((m / lay.perRound : Nat) : Int) = q at *
  by_cases hX : ∃ q ∈ lay.qubits_around_hex h, lay.dTime N q = m
  · have hD := hD hX
    simp only [hX, true_and, not_true, and_false, or_false, true_or, iff_true, not_and]
    intro hc
    exfalso
    split_ifs at hc <;>
      simp only [List.contains_cons, List.contains_nil, Bool.or_eq_true, beq_iff_eq, Bool.false_eq_true, or_false] at hc <;> omega
  · simp only [hX, false_and, not_false_eq_true, and_true, false_or]
    split_ifs <;> simp

/-- A final detector of a face whose first half was measured in the last sub-round. -/
theorem mem_final_half (hv : lay.Valid) (hP : 0 < lay.perRound) {c : Int} {h : Pt} (hh : h ∈ lay.round_hex_centers c) {N : Nat}
    (hj : ((N : Int) - c) % 3 = 2) {m : Nat} :
    m ∈ symmDiff (symmDiff (lay.dHex N h) (lay.rV (lay.first_edges_around_hex h) ((N : Int) - 1))) (lay.rF h ((N : Int) - 3)) ↔
      (∃ q ∈ lay.qubits_around_hex h, lay.dTime N q = m) ∨
      InRounds lay h (if lay.isPC3 then [(N : Int) - 1, N - 3, N - 6, N - 7] else [(N : Int) - 1, N - 3, N - 4]) m := by
  have hD : (∃ q ∈ lay.qubits_around_hex h, lay.dTime N q = m) → (N : Int) ≤ ((m / lay.perRound : Nat) : Int) := by
    rintro ⟨q, _, rfl⟩
    exact_mod_cast dTime_round hP q
  rw [Finset.mem_symmDiff, Finset.mem_symmDiff, mem_rF hv hh (by omega), mem_dHex hv hh, inRounds_iff hv (js := ite _ _ _), rV]
  have e1 := mem_rE_first hv hh (j := (N : Int) - 1) (by omega) (m := m)
  have e2 := mem_rE_first hv hh (j := (N : Int) - 1 - 3) (by omega) (m := m)
  generalize ((m / lay.perRound : Nat) : Int) = q at *
  by_cases hX : ∃ q ∈ lay.qubits_around_hex h, lay.dTime N q = m
  · have hD := hD hX
    by_cases hp : lay.isPC3 = true
    · simp only [hp, if_true, Finset.mem_symmDiff, e1, e2, hX, true_and, not_true, and_false, or_false, true_or, iff_true, false_or,
        List.contains_cons, List.contains_nil, Bool.or_eq_true, beq_iff_eq, Bool.false_eq_true]
      by_cases hZ : InRounds lay h [q] m
      · simp only [hZ, and_true]
        omega
      · simp [hZ]
    · simp only [hp, if_false, Finset.mem_symmDiff, e1, hX, true_and, not_true, and_false, or_false, true_or, iff_true, false_or,
        List.contains_cons, List.contains_nil, Bool.or_eq_true, beq_iff_eq, Bool.false_eq_true]
      by_cases hZ : InRounds lay h [q] m
      · simp only [hZ, and_true]
        omega
      · simp [hZ]
  · by_cases hp : lay.isPC3 = true
    · simp only [hp, if_true, Finset.mem_symmDiff, e1, e2, hX, false_and, not_false_eq_true, and_true, false_or,
        List.contains_cons, List.contains_nil, Bool.or_eq_true, beq_iff_eq, Bool.false_eq_true, or_false, List.mem_cons, List.not_mem_nil]
      by_cases hZ : InRounds lay h [q] m
      · simp only [hZ, and_true]
        omega
      · simp [hZ]
    · simp only [hp, if_false, Finset.mem_symmDiff, e1, hX, false_and, not_false_eq_true, and_true, false_or,
        List.contains_cons, List.contains_nil, Bool.or_eq_true, beq_iff_eq, Bool.false_eq_true, or_false, List.mem_cons, List.not_mem_nil]
      by_cases hZ : InRounds lay h [q] m
      · simp only [hZ, and_true]
        omega
      · simp [hZ]

end HoneycombLayout
end Honeycomb
