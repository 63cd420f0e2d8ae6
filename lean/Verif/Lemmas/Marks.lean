import Verif.Lemmas.Gates
import Verif.Lemmas.TimelineNoise

/-! Record offsets, coordinates and measurement sets of the annotations of a generated circuit. -/

namespace Honeycomb

/-- The record targets of an annotation made after `n` measurements exist. -/
def OffsetsOk (x : Instr × Nat) : Prop := ∀ t ∈ x.1.targets, ∃ o : Int, t = .record o ∧ -(x.2 : Int) ≤ o ∧ o < 0

theorem relTo_range {t : Nat} {s : Finset Nat} (h : ∀ x ∈ s, x < t) : ∀ o ∈ relTo t s, -(t : Int) ≤ o ∧ o < 0 := by
  intro o ho
  obtain ⟨x, hx, rfl⟩ := List.mem_map.1 ho
  have := h x ((Finset.mem_sort _).1 hx)
  omega

theorem offsets_relTo {t : Nat} {s : Finset Nat} (h : ∀ x ∈ s, x < t) {g : Gate} {as : List Arg} :
    OffsetsOk ({ gate := g, targets := (relTo t s).map .record, args := as }, t) := by
  intro u hu
  obtain ⟨o, ho, rfl⟩ := List.mem_map.1 hu
  exact ⟨o, rfl, relTo_range h o ho⟩

theorem offsets_detI {t : Nat} {o : Option (Finset Nat)} (h : BeforeO t o) {c : List Rat} {i : Instr} (hi : i ∈ detI t o c) :
    OffsetsOk (i, t) := by
  cases o with
  | none => simp [detI] at hi
  | some s =>
    simp only [detI, List.mem_singleton] at hi
    subst hi
    exact offsets_relTo (h s rfl)

namespace HoneycombLayout
variable {lay : HoneycombLayout}

theorem beforeO_xorS {α : Type} {t : Nat} {l : List α} {f : α → Finset Nat} (h : ∀ a ∈ l, BeforeO t (some (f a))) :
    BeforeO t (some (xorS (l.map f))) := by
  rw [← xorL_some]
  apply beforeO_xorL
  intro o ho
  obtain ⟨a, ha, rfl⟩ := List.mem_map.1 ho
  exact h a ha

theorem offsets_ann (hv : lay.Valid) (k : Nat) {i : Instr} (h : i ∈ lay.emitAnn k) : OffsetsOk (i, (k + 1) * lay.perRound) := by
  simp only [emitAnn, List.mem_append, List.mem_singleton, or_assoc] at h
  rcases h with h | h | h | h
  · split_ifs at h
    · simp at h
    · rw [List.mem_singleton] at h; subst h
      exact offsets_relTo (beforeO_xorS (fun e he => beforeO_vE hv (mem_obsEdgesOf he)) _ rfl)
  · split_ifs at h with hk
    · obtain ⟨e, he, hi⟩ := List.mem_flatMap.1 h
      refine offsets_detI ?_ hi
      rw [hk.1]
      exact beforeO_vE hv (k := 0) he
    · simp at h
  · obtain ⟨e, he, hi⟩ := List.mem_flatMap.1 h
    exact offsets_detI (beforeO_xorO (beforeO_vHex hv _ (by omega) he) (beforeO_prevHex hv _ (by omega) he)) hi
  · subst h; intro t ht; simp [Instr.shift] at ht

theorem beforeO_topHalfEdge (hv : lay.Valid) {r : Int} (h0 : 0 ≤ r) (h3 : r < 3) (k : Nat) {e : Edge}
    (he : e ∈ lay.round_edges r) : BeforeO (k * lay.perRound) (some (lay.topHalfEdge r k e)) := by
  obtain ⟨d, h1, hd3, hc, eq⟩ := topAt_cases (fun j => some {lay.mTime j e}) (some ∅) (c := r) (by omega) (by omega) k
  rw [topHalfEdge, eq]
  split_ifs with hk
  · exact beforeO_empty _
  · have h' : e ∈ lay.round_edges ((k - d : Nat) : Int) := by rw [round_edges_congr lay (r' := r) (by omega)]; exact he
    intro s hs x hx
    simp only [Option.getD_some, Option.mem_def, Option.some.injEq] at hs
    subst hs
    rw [Finset.mem_singleton.1 hx]
    exact lt_of_lt_of_le (mTime_lt hv h') (Nat.mul_le_mul_right _ (by omega))

theorem offsets_pc3 (hv : lay.Valid) (N : Nat) {i : Instr} (h : i ∈ lay.pc3ObsEmit N) : OffsetsOk (i, N * lay.perRound) := by
  obtain ⟨r, hr, rfl⟩ := List.mem_map.1 h
  have hr' : 0 ≤ r ∧ r < 3 := by
    have : pyRange 3 = [0, 1, 2] := by decide
    rw [this] at hr
    simp at hr; omega
  exact offsets_relTo (beforeO_xorS (fun e he => beforeO_topHalfEdge hv hr'.1 hr'.2 N (mem_obsEdgesOf he)) _ rfl)

theorem beforeO_dTime {k : Nat} {q : Pt} (hq : q ∈ lay.data_qubit_coords) :
    BeforeO (k * lay.perRound + lay.data_qubit_coords.length) (some {lay.dTime k q}) := by
  intro s hs x hx
  simp only [Option.mem_def, Option.some.injEq] at hs
  subst hs
  have := List.idxOf_lt_length_iff.2 hq
  rw [Finset.mem_singleton.1 hx, dTime]; omega

theorem beforeO_dHex (hv : lay.Valid) {k : Nat} {r : Int} {h : Pt} (hh : h ∈ lay.round_hex_centers r) :
    BeforeO (k * lay.perRound + lay.data_qubit_coords.length) (some (lay.dHex k h)) :=
  beforeO_xorS fun _ hq => beforeO_dTime (qubits_around_hex_data hv ((mem_round_hex_centers hv).1 hh).1 hq)

theorem offsets_final (hv : lay.Valid) (n : Int) (k : Nat) {i : Instr} (h : i ∈ lay.emitFinal n k) :
    OffsetsOk (i, k * lay.perRound + lay.data_qubit_coords.length) := by
  have hle : k * lay.perRound ≤ k * lay.perRound + lay.data_qubit_coords.length := by omega
  simp only [emitFinal, List.mem_append, List.mem_singleton, or_assoc] at h
  rcases h with h | h | h
  · split_ifs at h
    · obtain ⟨e, he, hi⟩ := List.mem_flatMap.1 h
      have hd := edge_ends_data hv (round_edges_subset_all he)
      refine offsets_detI (beforeO_xorO (a := some (symmDiff _ _)) ?_ ((beforeO_topEdge hv _ (index_range _).1 (index_range _).2 k he).mono hle)) hi
      rw [← xorO_some]
      exact beforeO_xorO (beforeO_dTime hd.1) (beforeO_dTime hd.2)
    · obtain ⟨e, he, hi⟩ := List.mem_flatMap.1 h
      exact offsets_detI (beforeO_xorO (beforeO_xorO (beforeO_dHex hv he)
        ((beforeO_topHalf hv _ (index_range _).1 (index_range _).2 k he).mono hle))
        ((beforeO_topHex hv _ (index_range _).1 (index_range _).2 k he).mono hle)) hi
  · obtain ⟨e, he, hi⟩ := List.mem_flatMap.1 h
    exact offsets_detI (beforeO_xorO (beforeO_dHex hv he)
        ((beforeO_topHex hv _ (index_range _).1 (index_range _).2 k he).mono hle)) hi
  · subst h
    exact offsets_relTo (beforeO_xorS (fun q hq => beforeO_dTime (obsAt_data hq)) _ rfl)

/-- All record offsets of a generated circuit are valid. -/
theorem offsets_closed (hv : lay.Valid) (hs : lay.Supported) {N : Nat} (hN : lay.sub_rounds = N) :
    ∀ x ∈ timeline 0 (lay.closedCircuit N), OffsetsOk x := by
  intro x hx
  rw [(closed_uses hv hs hN).2.1] at hx
  simp only [List.mem_append, List.mem_flatMap, List.mem_map, or_assoc] at hx
  rcases hx with ⟨k, _, hx⟩ | hx | ⟨i, hi, rfl⟩
  · obtain ⟨i, hi, rfl⟩ := List.mem_map.1 hx
    exact offsets_ann hv k hi
  · rw [pc3Uses] at hx
    split_ifs at hx
    · obtain ⟨i, hi, rfl⟩ := List.mem_map.1 hx
      exact offsets_pc3 hv N hi
    · simp at hx
  · exact offsets_final hv N N hi

/-! ### Coordinates -/

/-- The origin of the coordinates in sub-round `k`. -/
def originAt (k : Nat) : Nat → Rat := fun j => if j = 2 then (k : Rat) else 0

theorem absoluteCoords_noShift {o : Nat → Rat} {a b : List (Instr × Nat)} (h : ∀ x ∈ a, x.1.gate ≠ .SHIFT_COORDS) :
    absoluteCoords o (a ++ b) = absoluteCoords o a ++ absoluteCoords o b := by
  induction a with
  | nil => rfl
  | cons x a ih =>
    obtain ⟨i, n⟩ := x
    have h1 := h (i, n) (by simp)
    have := ih fun y hy => h y (by simp [hy])
    rw [List.cons_append, absoluteCoords, absoluteCoords]
    split <;> simp_all

theorem mem_absoluteCoords_noShift {o : Nat → Rat} {a : List (Instr × Nat)} (h : ∀ x ∈ a, x.1.gate ≠ .SHIFT_COORDS)
    {y : List Rat × Nat} (hy : y ∈ absoluteCoords o a) :
    ∃ x ∈ a, x.1.gate = .DETECTOR ∧ y = (x.1.numbers.mapIdx (fun j z => z + o j), x.2) := by
  induction a with
  | nil => simp [absoluteCoords] at hy
  | cons x a ih =>
    obtain ⟨i, n⟩ := x
    have h1 := h (i, n) (by simp)
    rw [absoluteCoords] at hy
    split at hy
    · contradiction
    · rename_i hg
      rcases List.mem_cons.1 hy with rfl | hy
      · exact ⟨(i, n), List.mem_cons_self, hg, rfl⟩
      · obtain ⟨x, hx, e⟩ := ih (fun y hy => h y (by simp [hy])) hy
        exact ⟨x, by simp [hx], e⟩
    · obtain ⟨x, hx, e⟩ := ih (fun y hy => h y (by simp [hy])) hy
      exact ⟨x, by simp [hx], e⟩

/-- The annotations of a sub-round other than the final coordinate shift. -/
theorem emitAnn_split (k : Nat) : ∃ l, lay.emitAnn k = l ++ [.shift [0, 0, 1]] ∧ ∀ i ∈ l, i.gate ≠ .SHIFT_COORDS := by
  refine ⟨_, rfl, ?_⟩
  intro i hi
  simp only [List.mem_append, or_assoc] at hi
  rcases hi with h | h | h
  · split_ifs at h
    · simp at h
    · rw [List.mem_singleton] at h; subst h; simp [Instr.observable]
  · split_ifs at h
    · obtain ⟨e, _, he⟩ := List.mem_flatMap.1 h
      rw [detI_gate he]; decide
    · simp at h
  · obtain ⟨e, _, he⟩ := List.mem_flatMap.1 h
    rw [detI_gate he]; decide

theorem absoluteCoords_round (k : Nat) (rest : List (Instr × Nat)) {y : List Rat × Nat}
    (hy : y ∈ absoluteCoords (originAt k) (lay.roundUses k ++ rest)) :
    (∃ i ∈ lay.emitAnn k, i.gate = .DETECTOR ∧ y = (i.numbers.mapIdx (fun j z => z + originAt k j), (k + 1) * lay.perRound)) ∨
    y ∈ absoluteCoords (originAt (k + 1)) rest := by
  obtain ⟨l, hl, hns⟩ := emitAnn_split (lay := lay) k
  rw [roundUses, hl, List.map_append, List.append_assoc, absoluteCoords_noShift (by
    intro x hx
    obtain ⟨i, hi, rfl⟩ := List.mem_map.1 hx
    exact hns i hi)] at hy
  rcases List.mem_append.1 hy with hy | hy
  · obtain ⟨x, hx, hd, e⟩ := mem_absoluteCoords_noShift (by
      intro x hx
      obtain ⟨i, hi, rfl⟩ := List.mem_map.1 hx
      exact hns i hi) hy
    obtain ⟨i, hi, rfl⟩ := List.mem_map.1 hx
    exact Or.inl ⟨i, by rw [hl]; simp [hi], hd, e⟩
  · right
    simp only [List.map_cons, List.map_nil, List.cons_append, List.nil_append, absoluteCoords, Instr.shift] at hy
    have : (fun j => originAt k j + ((Instr.numbers { gate := .SHIFT_COORDS, args := [Arg.lit 0, Arg.lit 0, Arg.lit 1] })[j]?).getD 0) =
        originAt (k + 1) := by
      funext j
      simp only [originAt, Instr.numbers]
      match j with
      | 0 => simp
      | 1 => simp
      | 2 => simp
      | j + 3 => simp
    rw [this] at hy
    exact hy

theorem absoluteCoords_rounds (a n : Nat) (rest : List (Instr × Nat)) {y : List Rat × Nat}
    (hy : y ∈ absoluteCoords (originAt a) (((List.range n).flatMap fun j => lay.roundUses (a + j)) ++ rest)) :
    (∃ k, a ≤ k ∧ k < a + n ∧ ∃ i ∈ lay.emitAnn k, i.gate = .DETECTOR ∧
      y = (i.numbers.mapIdx (fun j z => z + originAt k j), (k + 1) * lay.perRound)) ∨
    y ∈ absoluteCoords (originAt (a + n)) rest := by
  induction n generalizing a with
  | zero => exact Or.inr (by simpa using hy)
  | succ n ih =>
    rw [Nat.add_comm n 1, range_flatMap_add] at hy
    simp only [List.range_one, List.flatMap_cons, List.flatMap_nil, List.append_nil, Nat.add_zero, List.append_assoc] at hy
    rcases absoluteCoords_round a _ hy with ⟨i, hi, h⟩ | h
    · exact Or.inl ⟨a, le_refl _, by omega, i, hi, h⟩
    · have h' := ih (a + 1) (by simpa only [Nat.add_assoc] using h)
      rcases h' with ⟨k, h1, h2, h3⟩ | h'
      · exact Or.inl ⟨k, by omega, by omega, h3⟩
      · right; rwa [show a + (n + 1) = a + 1 + n by omega]

/-! ### Steady state -/

theorem xorS_append (a b : List (Finset Nat)) : xorS (a ++ b) = symmDiff (xorS a) (xorS b) := by
  induction a with
  | nil => exact (bot_symmDiff _).symm
  | cons x a ih => rw [List.cons_append]; show symmDiff x (xorS (a ++ b)) = symmDiff (symmDiff x (xorS a)) _; rw [ih, symmDiff_assoc]

theorem xorS_singletons {l : List Nat} (h : l.Nodup) : xorS (l.map fun x => {x}) = l.toFinset := by
  induction l with
  | nil => rfl
  | cons x l ih =>
    rw [List.nodup_cons] at h
    show symmDiff {x} (xorS (l.map fun x => {x})) = _
    rw [ih h.2, List.toFinset_cons, Finset.insert_eq]
    apply Disjoint.symmDiff_eq_sup
    simpa using h.1

theorem mTime_inj (hv : lay.Valid) {j j' : Nat} {e e' : Edge} (he : e ∈ lay.round_edges j) (he' : e' ∈ lay.round_edges j')
    (h : lay.mTime j e = lay.mTime j' e') : j = j' ∧ e = e' := by
  have h1 := List.idxOf_lt_length_iff.2 he
  have h2 := List.idxOf_lt_length_iff.2 he'
  rw [perRound_eq hv] at h1 h2
  simp only [mTime] at h
  have hj : j = j' := by
    have a := congrArg (· / lay.perRound) h
    simp only [Nat.mul_comm _ lay.perRound, Nat.mul_add_div (show 0 < lay.perRound by omega), Nat.div_eq_of_lt h1, Nat.div_eq_of_lt h2] at a
    simpa using a
  subst hj
  refine ⟨rfl, ?_⟩
  have : (lay.round_edges j).idxOf e = (lay.round_edges j).idxOf e' := by omega
  exact (List.idxOf_inj he).1 this

variable (lay) in
/-- The measurements compared by a steady-state detector. -/
def steadyList (k : Nat) (h : Pt) : List Nat :=
  (lay.second_edges_around_hex h).map (lay.mTime k) ++ (lay.first_edges_around_hex h).map (lay.mTime (k - 1)) ++
  ((lay.second_edges_around_hex h).map (lay.mTime (k - 3)) ++ (lay.first_edges_around_hex h).map (lay.mTime (k - 4)))

theorem vHex_steady (hp : lay.isPC3 = false) (b : Basis) {k : Nat} (hk : 1 ≤ k) (h : Pt) :
    lay.vHex b k h = some (xorS (((lay.second_edges_around_hex h).map (lay.mTime k) ++
      (lay.first_edges_around_hex h).map (lay.mTime (k - 1))).map fun x => {x})) := by
  have hE : ∀ j, lay.vE j = fun e => {lay.mTime j e} := by intro j; funext e; simp [vE, hp]
  rw [vHex, if_neg (by omega), vHalf, xorL_some, xorL_some, xorO_some, List.map_append, xorS_append, List.map_map, List.map_map]
  simp only [Function.comp_def, hE]

theorem steady_detector (hp : lay.isPC3 = false) (b : Basis) {k : Nat} (hk : 4 ≤ k) (h : Pt) :
    xorO (lay.vHex b k h) (lay.prevHex b k h) = some (xorS ((lay.steadyList k h).map fun x => {x})) := by
  rw [prevHex, if_neg (by omega), vHex_steady hp b (by omega), vHex_steady hp b (by omega), xorO_some, steadyList,
    show k - 3 - 1 = k - 4 by omega]
  simp only [List.map_append, xorS_append]

theorem steady_second_mem (hv : lay.Valid) {k j : Nat} {h : Pt} (hh : h ∈ lay.round_hex_centers (((k : Int) - 2) % 3)) (hj : j % 3 = k % 3)
    {e : Edge} (he : e ∈ lay.second_edges_around_hex h) : e ∈ lay.round_edges j := by
  rw [round_edges_congr lay (r' := ((k : Int) - 2) % 3 + 2) (by omega)]; exact second_mem hv hh he

theorem steady_first_mem (hv : lay.Valid) {k j : Nat} {h : Pt} (hh : h ∈ lay.round_hex_centers (((k : Int) - 2) % 3)) (hj : (j + 1) % 3 = k % 3)
    {e : Edge} (he : e ∈ lay.first_edges_around_hex h) : e ∈ lay.round_edges j := by
  rw [round_edges_congr lay (r' := ((k : Int) - 2) % 3 + 1) (by omega)]; exact first_mem hv hh he

theorem mem_steadyList (hv : lay.Valid) {k : Nat} (hk : 4 ≤ k) {h : Pt} (hh : h ∈ lay.round_hex_centers (((k : Int) - 2) % 3)) {m : Nat} :
    m ∈ lay.steadyList k h ↔ ∃ j ∈ [k, k - 1, k - 3, k - 4], ∃ e ∈ lay.all_edges_around_hex h, e ∈ lay.round_edges (j : Nat) ∧ lay.mTime j e = m := by
  simp only [steadyList, List.mem_append, List.mem_map, List.mem_cons, List.not_mem_nil, or_false, all_edges_around_hex]
  constructor
  · rintro ((⟨e, he, rfl⟩ | ⟨e, he, rfl⟩) | (⟨e, he, rfl⟩ | ⟨e, he, rfl⟩))
    · exact ⟨k, by simp, e, Or.inr he, steady_second_mem hv hh rfl he, rfl⟩
    · exact ⟨k - 1, by simp, e, Or.inl he, steady_first_mem hv hh (by omega) he, rfl⟩
    · exact ⟨k - 3, by simp, e, Or.inr he, steady_second_mem hv hh (by omega) he, rfl⟩
    · exact ⟨k - 4, by simp, e, Or.inl he, steady_first_mem hv hh (by omega) he, rfl⟩
  · rintro ⟨j, hj, e, he, hr, rfl⟩
    rcases hj with rfl | rfl | rfl | rfl <;> rcases he with he | he
    · have := round_edges_disjoint hv hr (steady_first_mem hv hh (j := j - 1) (by omega) he); omega
    · exact Or.inl (Or.inl ⟨e, he, rfl⟩)
    · exact Or.inl (Or.inr ⟨e, he, rfl⟩)
    · have := round_edges_disjoint hv hr (steady_second_mem hv hh (j := k) rfl he); omega
    · have := round_edges_disjoint hv hr (steady_first_mem hv hh (j := k - 1) (by omega) he); omega
    · exact Or.inr (Or.inl ⟨e, he, rfl⟩)
    · exact Or.inr (Or.inr ⟨e, he, rfl⟩)
    · have := round_edges_disjoint hv hr (steady_second_mem hv hh (j := k) rfl he); omega

theorem steadyList_nodup (hv : lay.Valid) {k : Nat} (hk : 4 ≤ k) {h : Pt} (hh : h ∈ lay.round_hex_centers (((k : Int) - 2) % 3))
    (hn : (lay.all_edges_around_hex h).Nodup) : (lay.steadyList k h).Nodup := by
  rw [all_edges_around_hex, List.nodup_append] at hn
  obtain ⟨n1, n2, _⟩ := hn
  have s2 : ∀ j : Nat, j % 3 = k % 3 → ((lay.second_edges_around_hex h).map (lay.mTime j)).Nodup := fun j hj =>
    List.Nodup.map_on (fun a ha b hb e => (mTime_inj hv (steady_second_mem hv hh hj ha) (steady_second_mem hv hh hj hb) e).2) n2
  have s1 : ∀ j : Nat, (j + 1) % 3 = k % 3 → ((lay.first_edges_around_hex h).map (lay.mTime j)).Nodup := fun j hj =>
    List.Nodup.map_on (fun a ha b hb e => (mTime_inj hv (steady_first_mem hv hh hj ha) (steady_first_mem hv hh hj hb) e).2) n1
  have dis : ∀ {j j' : Nat} {l l' : List Edge}, j ≠ j' → (∀ e ∈ l, e ∈ lay.round_edges j) → (∀ e ∈ l', e ∈ lay.round_edges j') →
      ∀ a ∈ l.map (lay.mTime j), ∀ b ∈ l'.map (lay.mTime j'), a ≠ b := by
    intro j j' l l' hne h1 h2 a ha b hb hab
    obtain ⟨e, he, rfl⟩ := List.mem_map.1 ha
    obtain ⟨e', he', rfl⟩ := List.mem_map.1 hb
    exact hne (mTime_inj hv (h1 e he) (h2 e' he') hab).1
  have A := fun (j : Nat) (hj : j % 3 = k % 3) e he => steady_second_mem (e := e) (j := j) hv hh hj he
  have B := fun (j : Nat) (hj : (j + 1) % 3 = k % 3) e he => steady_first_mem (e := e) (j := j) hv hh hj he
  rw [steadyList, List.nodup_append, List.nodup_append, List.nodup_append]
  refine ⟨⟨s2 _ rfl, s1 _ (by omega), dis (by omega) (A _ rfl) (B _ (by omega))⟩,
    ⟨s2 _ (by omega), s1 _ (by omega), dis (by omega) (A _ (by omega)) (B _ (by omega))⟩, ?_⟩
  intro a ha b hb
  rcases List.mem_append.1 ha with ha | ha <;> rcases List.mem_append.1 hb with hb | hb
  · exact dis (by omega) (A _ rfl) (A _ (by omega)) a ha b hb
  · exact dis (by omega) (A _ rfl) (B _ (by omega)) a ha b hb
  · exact dis (by omega) (B _ (by omega)) (A _ (by omega)) a ha b hb
  · exact dis (by omega) (B _ (by omega)) (B _ (by omega)) a ha b hb

end HoneycombLayout
end Honeycomb
