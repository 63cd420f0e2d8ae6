import Verif.Lemmas.Blocks
import Mathlib.Data.Int.Interval

/-!
# How many qubits are near a point of the torus
-/

namespace Honeycomb
open HoneycombLayout

variable {lay : HoneycombLayout} {r s : Nat} {x y z : Pt}

/-- On the torus `y` is `x` moved by at most `r` in each direction. -/
def Close (lay : HoneycombLayout) (r : Nat) (x y : Pt) : Prop :=
  ∃ δ : Pt, -(r : Int) ≤ δ.x ∧ δ.x ≤ r ∧ -(r : Int) ≤ δ.y ∧ δ.y ≤ r ∧ lay.wrap y = lay.wrap (x + δ)

theorem wrap_wrap_add (x δ : Pt) : lay.wrap (lay.wrap x + δ) = lay.wrap (x + δ) := by
  simp only [HoneycombLayout.wrap, Pt.ext_iff, Pt.add_x, Pt.add_y, Int.emod_add_emod, and_self]

theorem wrap_wrap (x : Pt) : lay.wrap (lay.wrap x) = lay.wrap x := by
  simp only [HoneycombLayout.wrap, Pt.ext_iff, Int.emod_emod, and_self]

theorem Close.trans (h1 : Close lay r x y) (h2 : Close lay s y z) : Close lay (r + s) x z := by
  obtain ⟨δ, a1, a2, a3, a4, e⟩ := h1
  obtain ⟨ε, b1, b2, b3, b4, f⟩ := h2
  refine ⟨δ + ε, ?_, ?_, ?_, ?_, ?_⟩
  · rw [Pt.add_x]; push_cast; omega
  · rw [Pt.add_x]; push_cast; omega
  · rw [Pt.add_y]; push_cast; omega
  · rw [Pt.add_y]; push_cast; omega
  · rw [f, ← wrap_wrap_add y, e, wrap_wrap_add]
    congr 1
    ext <;> simp only [Pt.add_x, Pt.add_y] <;> omega

theorem Close.symm (h : Close lay r x y) : Close lay r y x := by
  obtain ⟨δ, a1, a2, a3, a4, e⟩ := h
  refine ⟨-δ, ?_, ?_, ?_, ?_, ?_⟩
  · rw [Pt.neg_x]; omega
  · rw [Pt.neg_x]; omega
  · rw [Pt.neg_y]; omega
  · rw [Pt.neg_y]; omega
  · rw [← wrap_wrap_add y, e, wrap_wrap_add]
    congr 1
    ext <;> simp only [Pt.add_x, Pt.add_y, Pt.neg_x, Pt.neg_y] <;> omega

theorem Close.mono (h : Close lay r x y) (hs : r ≤ s) : Close lay s x y := by
  obtain ⟨δ, a1, a2, a3, a4, e⟩ := h
  exact ⟨δ, by omega, by omega, by omega, by omega, e⟩

theorem close_wrap (δ : Pt) (h1 : -(r : Int) ≤ δ.x) (h2 : δ.x ≤ r) (h3 : -(r : Int) ≤ δ.y) (h4 : δ.y ≤ r) : Close lay r x (lay.wrap (x + δ)) :=
  ⟨δ, h1, h2, h3, h4, wrap_wrap _⟩

/-- The points of the torus near `x`. -/
noncomputable def ball (lay : HoneycombLayout) (r : Nat) (x : Pt) : Finset Pt :=
  (Finset.Icc (-(r : Int)) r ×ˢ Finset.Icc (-(r : Int)) r).image fun δ => lay.wrap (x + ⟨δ.1, δ.2⟩)

theorem ball_card (x : Pt) : (ball lay r x).card ≤ (2 * r + 1) ^ 2 := by
  refine Finset.card_image_le.trans ?_
  rw [Finset.card_product, Int.card_Icc, show (r : Int) + 1 - -(r : Int) = ((2 * r + 1 : Nat) : Int) by push_cast; ring, Int.toNat_natCast, sq]

theorem mem_ball (h : Close lay r x y) (hy : lay.wrap y = y) : y ∈ ball lay r x := by
  obtain ⟨δ, a1, a2, a3, a4, e⟩ := h
  refine Finset.mem_image.2 ⟨(δ.x, δ.y), ?_, ?_⟩
  · simp only [Finset.mem_product, Finset.mem_Icc]
    exact ⟨⟨a1, a2⟩, a3, a4⟩
  · exact e.symm.trans hy

/-- The points of an edge are near one face. -/
theorem edge_close {e : Edge} (he : e ∈ lay.all_edges) : ∃ h, (Close lay 6 h e.left ∧ Close lay 6 h e.right ∧ Close lay 6 h e.center) ∧
    lay.wrap e.left = e.left ∧ lay.wrap e.right = e.right ∧ lay.wrap e.center = e.center := by
  obtain ⟨h, t, ht, rfl⟩ : ∃ h t, t ∈ EDGE_TYPES ∧ e = lay.hexToEdge h t := by
    rcases mem_all_edges_iff_round.1 he with he | he | he
    all_goals
      simp only [round_edges, mem_sorted, List.mem_flatMap, List.mem_map] at he
      obtain ⟨h, -, t, ht, rfl⟩ := he
      exact ⟨h, t, ht, rfl⟩
  refine ⟨h, ?_⟩
  have ha : lay.wrap (Pt.half (h + t.hex_to_qubit_delta + (h + (t.hex_to_hex_delta - t.hex_to_qubit_delta)))) = lay.wrap (h + Pt.half t.hex_to_hex_delta) := by
    congr 1
    ext <;> simp only [Pt.half_x, Pt.half_y, Pt.add_x, Pt.add_y, Pt.sub_x, Pt.sub_y] <;> omega
  have hb : h + t.hex_to_hex_delta - t.hex_to_qubit_delta = h + (t.hex_to_hex_delta - t.hex_to_qubit_delta) := by
    ext <;> simp only [Pt.add_x, Pt.add_y, Pt.sub_x, Pt.sub_y] <;> omega
  have c1 : Close lay 6 h (lay.wrap (h + t.hex_to_qubit_delta)) := by
    apply close_wrap <;> simp only [EDGE_TYPES, List.mem_cons, List.not_mem_nil, or_false] at ht <;> rcases ht with rfl | rfl | rfl <;> decide
  have c2 : Close lay 6 h (lay.wrap (h + (t.hex_to_hex_delta - t.hex_to_qubit_delta))) := by
    apply close_wrap <;> simp only [EDGE_TYPES, List.mem_cons, List.not_mem_nil, or_false] at ht <;> rcases ht with rfl | rfl | rfl <;> decide
  have c3 : Close lay 6 h (lay.wrap (h + Pt.half t.hex_to_hex_delta)) := by
    apply close_wrap <;> simp only [EDGE_TYPES, List.mem_cons, List.not_mem_nil, or_false] at ht <;> rcases ht with rfl | rfl | rfl <;> decide
  rw [hexToEdge]
  simp only [hb, ha, mkEdge]
  split_ifs
  · exact ⟨⟨c2, c1, c3⟩, wrap_wrap _, wrap_wrap _, wrap_wrap _⟩
  · exact ⟨⟨c1, c2, c3⟩, wrap_wrap _, wrap_wrap _, wrap_wrap _⟩

/-- A place with a qubit of `e` is near the points of `e`. -/
theorem touches_close {e : Edge} (he : e ∈ lay.all_edges) {p : Pt} (h : lay.Touches (fun q => q = e.left ∨ q = e.right) p) (hz : z = e.left ∨ z = e.right ∨ z = e.center) :
    Close lay 24 z p := by
  obtain ⟨q, -, hq, hp⟩ := h
  obtain ⟨f, ⟨c1, c2, c3⟩, -⟩ := edge_close he
  have cz : Close lay 12 z q := by
    have h1 : Close lay 6 f z := by rcases hz with rfl | rfl | rfl <;> assumption
    have h2 : Close lay 6 f q := by rcases hq with rfl | rfl <;> assumption
    exact h1.symm.trans h2
  refine cz.trans (s := 12) ?_
  rcases hp with ⟨-, hp⟩ | ⟨e', he', hq', rfl⟩
  · simp only [qubits_around_hex, sortedComplex, mem_sorted, List.mem_flatMap, List.mem_cons, List.not_mem_nil, or_false] at hp
    obtain ⟨t, ht, hq⟩ := hp
    refine Close.symm (Close.mono (r := 6) ?_ (by omega))
    have hs : p - t.hex_to_qubit_delta = p + (-t.hex_to_qubit_delta) := by
      ext <;> simp only [Pt.add_x, Pt.add_y, Pt.sub_x, Pt.sub_y, Pt.neg_x, Pt.neg_y] <;> omega
    rcases hq with rfl | rfl
    · rw [hs]
      apply close_wrap <;> simp only [EDGE_TYPES, List.mem_cons, List.not_mem_nil, or_false] at ht <;> rcases ht with rfl | rfl | rfl <;> decide
    · apply close_wrap <;> simp only [EDGE_TYPES, List.mem_cons, List.not_mem_nil, or_false] at ht <;> rcases ht with rfl | rfl | rfl <;> decide
  · obtain ⟨f', ⟨d1, d2, d3⟩, -⟩ := edge_close he'
    have h2 : Close lay 6 f' q := by rcases hq' with rfl | rfl <;> assumption
    exact h2.symm.trans d3

/-- The qubits that share a detector with qubit `q`. -/
theorem RegQ.point (hv : lay.Valid) {e : Edge} (he : e ∈ lay.all_edges) {q : Nat} (hr : lay.RegQ e q) :
    ∃ z, (z = e.left ∨ z = e.right ∨ z = e.center) ∧ z ∈ qubitOrder lay ∧ q = lay.idx z := by
  rcases hr with rfl | rfl | ⟨-, rfl⟩
  · exact ⟨_, .inl rfl, data_mem_order (ends_data hv he).1, rfl⟩
  · exact ⟨_, .inr (.inl rfl), data_mem_order (ends_data hv he).2, rfl⟩
  · exact ⟨_, .inr (.inr rfl), center_mem_order he, rfl⟩

/-- Qubits that share a detector are close. -/
theorem near_close (hv : lay.Valid) {e e' : Edge} {p : Pt} (hx : x ∈ qubitOrder lay) (he : e ∈ lay.all_edges) (he' : e' ∈ lay.all_edges) (hr : lay.RegQ e (lay.idx x))
    (hr' : lay.RegQ e' q) (ht : lay.Touches (fun q => q = e.left ∨ q = e.right) p) (ht' : lay.Touches (fun q => q = e'.left ∨ q = e'.right) p) :
    ∃ z, Close lay 48 x z ∧ lay.wrap z = z ∧ q = lay.idx z := by
  obtain ⟨z, hz, ho, e1⟩ := RegQ.point hv he hr
  rw [← idx_inj hv hx ho e1] at hz
  obtain ⟨z', hz', -, e2⟩ := RegQ.point hv he' hr'
  refine ⟨z', (touches_close he ht hz).trans (touches_close he' ht' hz').symm, ?_, e2⟩
  obtain ⟨-, -, w1, w2, w3⟩ := edge_close he'
  rcases hz' with rfl | rfl | rfl <;> assumption

theorem near_qubits (hv : lay.Valid) (hR : r = 48) (q : Nat) : ∃ S : Finset Nat, S.card ≤ (2 * r + 1) ^ 2 ∧ ∀ (q' : Nat) (e e' : Edge) (p : Pt), e ∈ lay.all_edges → e' ∈ lay.all_edges →
    lay.RegQ e q → lay.RegQ e' q' → lay.Touches (fun q => q = e.left ∨ q = e.right) p → lay.Touches (fun q => q = e'.left ∨ q = e'.right) p → q' ∈ S := by
  by_cases hx : ∃ x ∈ qubitOrder lay, lay.idx x = q
  · obtain ⟨x, hx, rfl⟩ := hx
    refine ⟨(ball lay r x).image lay.idx, Finset.card_image_le.trans (ball_card x), fun q' e e' p he he' hr hr' ht ht' => Finset.mem_image.2 ?_⟩
    exact (near_close hv hx he he' hr hr' ht ht').elim fun z h => ⟨z, mem_ball (hR ▸ h.1) h.2.1, h.2.2.symm⟩
  · refine ⟨∅, by simp, fun q' e e' p he he' hr hr' ht ht' => absurd ?_ hx⟩
    rcases hr with rfl | rfl | ⟨-, rfl⟩
    · exact ⟨_, data_mem_order (ends_data hv he).1, rfl⟩
    · exact ⟨_, data_mem_order (ends_data hv he).2, rfl⟩
    · exact ⟨_, center_mem_order he, rfl⟩

end Honeycomb
