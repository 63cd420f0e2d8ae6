import Verif.Lemmas.AbsorbCount
import Verif.Lemmas.Damage
import Verif.Lemmas.Lives

/-!
# Ancillas are reset soon

In the styles "SD6" and "SI1000" only a bounded number of operations acts on an ancilla until it is reset.
-/

namespace Honeycomb
variable {c w w' : Nat}

open Classical in
/-- How many operations do something else to `c` than reset it. -/
noncomputable def work (c : Nat) (l : List Instr) : Nat := l.countP fun i => ¬ Renews c i.actions

/-- One of the operations resets `c`. -/
def Resets (c : Nat) (l : List Instr) : Prop := ∃ i ∈ l, Renews c i.actions ∧ ∃ a ∈ i.actions, a.On c

theorem work_append (a b : List Instr) : work c (a ++ b) = work c a + work c b := by
  rw [work, work, work, List.countP_append]

theorem work_le (l : List Instr) : work c l ≤ l.length := List.countP_le_length

theorem work_idle {l : List Instr} (h : ∀ i ∈ l, i.actions = []) : work c l = 0 := by
  refine List.countP_eq_zero.2 fun i hi => ?_
  have : Renews c i.actions := by rw [h i hi]; intro a ha; cases ha
  simpa using this

theorem live_append (a b : List Instr) : live c (a ++ b) ≤ work c a + live c b ∧ (Resets c a → live c (a ++ b) ≤ work c a) := by
  classical
  induction a with
  | nil => exact ⟨by simp [work], by rintro ⟨i, hi, -⟩; cases hi⟩
  | cons i a ih =>
    have hw : work c (i :: a) = work c a + if Renews c i.actions then 0 else 1 := by
      rw [work, List.countP_cons, ← work]
      by_cases h : Renews c i.actions <;> simp [h]
    rw [List.cons_append, live, hw]
    by_cases h : Renews c i.actions
    · rw [if_pos h, if_pos h]
      by_cases ho : ∃ x ∈ i.actions, x.On c
      · rw [if_pos ho]
        exact ⟨by omega, fun _ => by omega⟩
      · rw [if_neg ho]
        refine ⟨by omega, ?_⟩
        rintro ⟨j, hj, h1, h2⟩
        rcases List.mem_cons.1 hj with rfl | hj
        · exact absurd h2 ho
        · exact ih.2 ⟨j, hj, h1, h2⟩
    · rw [if_neg h, if_neg h]
      refine ⟨by omega, ?_⟩
      rintro ⟨j, hj, h1, h2⟩
      rcases List.mem_cons.1 hj with rfl | hj
      · exact absurd h1 h
      · have := ih.2 ⟨j, hj, h1, h2⟩
        omega

theorem live_work (l : List Instr) : live c l ≤ work c l := by
  have := (live_append (c := c) l []).1
  rw [List.append_nil] at this
  simpa [live] using this

theorem work_suffix {s l : List Instr} (h : s <:+ l) : work c s ≤ work c l := by
  obtain ⟨p, rfl⟩ := h
  rw [work_append]
  omega

theorem suffix_cases {s a b : List Instr} (h : s <:+ a ++ b) : s <:+ b ∨ ∃ s0, s0 <:+ a ∧ s = s0 ++ b := by
  obtain ⟨p, hp⟩ := h
  rcases List.append_eq_append_iff.1 hp with ⟨q, rfl, rfl⟩ | ⟨q, rfl, rfl⟩
  · exact .inr ⟨q, ⟨p, rfl⟩, rfl⟩
  · exact .inl ⟨q, rfl⟩

/-- Something before. -/
theorem live_before {a b : List Instr} {A : Nat} (hb : ∀ s, s <:+ b → live c s ≤ A) (ha : work c a ≤ w) : ∀ s, s <:+ a ++ b → live c s ≤ w + A := by
  intro s hs
  rcases suffix_cases hs with h | ⟨s0, h0, rfl⟩
  · have := hb s h
    omega
  · have h1 := (live_append (c := c) s0 b).1
    have h2 := work_suffix (c := c) h0
    have h3 := hb b (List.suffix_refl b)
    omega

theorem blocks_succ (f : Nat → List Instr) (m k : Nat) :
    (List.range (m + 1)).flatMap (fun i => f (k + i)) = f k ++ (List.range m).flatMap fun i => f (k + 1 + i) := by
  rw [List.range_succ_eq_map, List.flatMap_cons, List.flatMap_map, Nat.add_zero]
  congr 2
  funext i
  rw [show k + i.succ = k + 1 + i by omega]

/-- A sequence of blocks, every three of which reset `c`. -/
theorem live_blocks {f : Nat → List Instr} (hw : ∀ k, work c (f k) ≤ w) (hr : ∀ k, Resets c (f k ++ (f (k + 1) ++ f (k + 2)))) {t : List Instr} (ht : work c t ≤ w') :
    ∀ m k, live c ((List.range m).flatMap (fun i => f (k + i)) ++ t) ≤ 3 * w + w'
  | 0, k => by
    have := live_work (c := c) t
    simp only [List.range_zero, List.flatMap_nil, List.nil_append]
    omega
  | 1, k => by
    have h1 := live_work (c := c) t
    rw [blocks_succ, List.append_assoc]
    have h2 := (live_append (c := c) (f k) ((List.range 0).flatMap (fun i => f (k + 1 + i)) ++ t)).1
    have := hw k
    simp only [List.range_zero, List.flatMap_nil, List.nil_append] at h2 ⊢
    omega
  | 2, k => by
    have h1 := live_work (c := c) t
    rw [blocks_succ, blocks_succ]
    simp only [List.range_zero, List.flatMap_nil, List.append_nil]
    have h2 := (live_append (c := c) (f k ++ f (k + 1)) t).1
    rw [work_append] at h2
    have := hw k
    have := hw (k + 1)
    omega
  | m + 3, k => by
    rw [blocks_succ, blocks_succ, blocks_succ, ← List.append_assoc (f (k + 1)), ← List.append_assoc (f k), List.append_assoc]
    refine ((live_append _ _).2 ?_).trans ?_
    · exact hr k
    · rw [work_append, work_append]
      have := hw k
      have := hw (k + 1)
      have := hw (k + 1 + 1)
      omega

theorem live_suffix {f : Nat → List Instr} (hw : ∀ k, work c (f k) ≤ w) (hr : ∀ k, Resets c (f k ++ (f (k + 1) ++ f (k + 2)))) {t : List Instr} (ht : work c t ≤ w') :
    ∀ m k s, s <:+ (List.range m).flatMap (fun i => f (k + i)) ++ t → live c s ≤ 4 * w + w'
  | 0, k, s, hs => by
    simp only [List.range_zero, List.flatMap_nil, List.nil_append] at hs
    have h1 := live_work (c := c) s
    have h2 := work_suffix (c := c) hs
    omega
  | m + 1, k, s, hs => by
    rw [blocks_succ, List.append_assoc] at hs
    rcases suffix_cases hs with h | ⟨s0, h0, rfl⟩
    · exact live_suffix hw hr ht m (k + 1) s h
    · have h1 := (live_append (c := c) s0 ((List.range m).flatMap (fun i => f (k + 1 + i)) ++ t)).1
      have h2 := work_suffix (c := c) h0
      have h3 := live_blocks hw hr ht m (k + 1)
      have := hw k
      omega

theorem resets_on {qs : List Nat} (h : c ∈ qs) : Resets c [.on .R qs] := by
  refine ⟨_, List.mem_singleton_self _, ?_, ?_⟩
  · intro a ha hon
    simp only [Instr.actions, Instr.on] at ha
    obtain ⟨x, -, rfl⟩ := List.mem_map.1 ha
    exact ⟨.Z, by rw [show c = x from hon]⟩
  · refine ⟨.reset .Z c, ?_, rfl⟩
    simp only [Instr.actions, Instr.on, Instr.qubits]
    refine List.mem_map.2 ⟨c, ?_, rfl⟩
    rwa [HoneycombLayout.filterMap_q]

theorem Resets.mono {a b : List Instr} (h : Resets c a) (hab : ∀ i ∈ a, i ∈ b) : Resets c b := by
  obtain ⟨i, hi, h⟩ := h
  exact ⟨i, hab i hi, h⟩

namespace HoneycombLayout
variable {lay : HoneycombLayout} {N : Nat}

theorem work_emitMD (k : Nat) : work c (lay.emitMD k) ≤ 1 := by
  rw [emitMD, work_append]
  have h1 : work c (lay.emitAnn k) = 0 := work_idle fun i hi => ?_
  · have := work_le (c := c) (lay.emitMeas k)
    have : (lay.emitMeas k).length ≤ 1 := by rw [emitMeas]; split_ifs <;> simp
    omega
  · exact List.flatMap_eq_nil_iff.1 (actions_nil_of_marks (emitAnn_marks (lay := lay) k)) i hi

theorem work_subrange {l : List Instr} {n : Nat} (h : l.length ≤ n) : work c l ≤ n := (work_le l).trans h

theorem live_sd6 {e : Edge} (he : e ∈ lay.all_edges) {t : List Instr} (ht : work (lay.idx e.center) t ≤ w') :
    ∀ s, s <:+ lay.sd6All N ++ t → live (lay.idx e.center) s ≤ 80 + w' := by
  have hcyc : ∀ a b, work (lay.idx e.center) (lay.cycleData a b) ≤ 1 := fun a b => work_subrange (by cases a <;> cases b <;> simp [cycleData])
  have htick : work (lay.idx e.center) [Instr.tick] ≤ 1 := work_le _
  have hres : ∀ k, work (lay.idx e.center) (lay.subRoundResets k) ≤ 1 := fun k => work_le _
  have h1 : ∀ k, work (lay.idx e.center) (lay.subRound2qOps k).1 ≤ 1 := fun k => work_le _
  have h2 : ∀ k, work (lay.idx e.center) (lay.subRound2qOps k).2 ≤ 1 := fun k => work_le _
  have hmd : ∀ k, work (lay.idx e.center) (lay.emitMD k) ≤ 1 := fun k => work_emitMD k
  have hre : work (lay.idx e.center) lay.sd6Realign ≤ 2 := work_subrange (by rw [sd6Realign]; split_ifs <;> simp)
  rw [sd6All]
  split_ifs with h
  · intro s hs
    have a1 := live_work (c := lay.idx e.center) s
    have a2 := work_suffix (c := lay.idx e.center) hs
    simp only [work_append] at a2
    have := hcyc true true
    have := hres 0
    have := h1 0
    have := h2 0
    have := hmd 0
    omega
  · have hend : work (lay.idx e.center) (lay.sd6EndEmit N ++ lay.sd6Realign ++ t) ≤ 20 + w' := by
      simp only [work_append, sd6EndEmit]
      have := hcyc false true
      have := h1 ((N : Int) - 1)
      have := h2 ((N : Int) - 2)
      have := h2 ((N : Int) - 1)
      have := hmd (N - 2)
      have := hmd (N - 1)
      omega
    have hblk : ∀ k, work (lay.idx e.center) (lay.sd6Emit k) ≤ 8 := fun k => by
      simp only [work_append, sd6Emit]
      have := hcyc true true
      have := h1 ((k : Int) + 1)
      have := h2 k
      have := hres ((k : Int) + 2)
      have := hmd k
      omega
    have hst : work (lay.idx e.center) lay.sd6Start ≤ 8 := by
      simp only [work_append, sd6Start]
      have := hcyc true true
      have := hcyc true false
      have := h1 0
      have := hres 0
      have := hres 1
      omega
    have hr : ∀ k, Resets (lay.idx e.center) (lay.sd6Emit k ++ (lay.sd6Emit (k + 1) ++ lay.sd6Emit (k + 2))) := fun k => by
      obtain ⟨j, -, -, hj⟩ := edge_colour he
      have : ∃ i < 3, e ∈ lay.round_edges (((k + i : Nat) : Int) + 2) := by
        have : ∃ i < 3, (((k + i : Nat) : Int) + 2) % 3 = j % 3 := by
          have h3 : (j - k - 2) % 3 = 0 ∨ (j - k - 2) % 3 = 1 ∨ (j - k - 2) % 3 = 2 := by omega
          rcases h3 with h | h | h
          exacts [⟨0, by omega, by omega⟩, ⟨1, by omega, by omega⟩, ⟨2, by omega, by omega⟩]
        obtain ⟨i, hi, h⟩ := this
        exact ⟨i, hi, by rw [round_edges_congr lay h]; exact hj⟩
      obtain ⟨i, hi, hm⟩ := this
      have hR0 : Resets (lay.idx e.center) (lay.subRoundResets (((k + i : Nat) : Int) + 2)) := resets_on (List.mem_map.2 ⟨e, hm, rfl⟩)
      have hR : Resets (lay.idx e.center) (lay.sd6Emit (k + i)) := hR0.mono fun x hx => by
        simp only [sd6Emit, List.mem_append]
        exact .inl (.inl (.inl (.inr hx)))
      refine hR.mono fun x hx => ?_
      have : i = 0 ∨ i = 1 ∨ i = 2 := by omega
      rcases this with rfl | rfl | rfl <;> simp [hx]
      · exact .inl hx
    have := live_before (live_suffix hblk hr hend (N - 2) 0) hst
    simp only [Nat.zero_add] at this
    intro s hs
    rw [List.append_assoc, List.append_assoc, List.append_assoc, ← List.append_assoc (lay.sd6EndEmit N)] at hs
    have := this s hs
    omega

theorem live_si1000 {e : Edge} (he : e ∈ lay.all_edges) {t : List Instr} (ht : work (lay.idx e.center) t ≤ w') :
    ∀ s, s <:+ lay.si1000All N ++ t → live (lay.idx e.center) s ≤ 160 + w' := by
  have hblk : ∀ k, work (lay.idx e.center) (lay.si1000Emit k) ≤ 40 := fun k => by
    have h1 : ∀ k, work (lay.idx e.center) (lay.si1000Layer k) ≤ 6 := fun k => work_subrange (by rw [si1000Layer]; split_ifs <;> simp)
    have hmd : ∀ k, work (lay.idx e.center) (lay.emitMD k) ≤ 1 := fun k => work_emitMD k
    have h3 : work (lay.idx e.center) ((pyRange 3).flatMap lay.si1000Layer) ≤ 18 := by
      rw [show pyRange 3 = [0, 1, 2] by decide]
      simp only [List.flatMap_cons, List.flatMap_nil, work_append]
      have := h1 0
      have := h1 1
      have := h1 2
      have := work_le (c := lay.idx e.center) []
      simp only [List.length_nil] at this
      omega
    have h4 : work (lay.idx e.center) ((List.range 3).flatMap fun i => lay.emitMD (3 * k + i)) ≤ 3 := by
      rw [show List.range 3 = [0, 1, 2] by decide]
      simp only [List.flatMap_cons, List.flatMap_nil, work_append]
      have := hmd (3 * k + 0)
      have := hmd (3 * k + 1)
      have := hmd (3 * k + 2)
      have := work_le (c := lay.idx e.center) []
      simp only [List.length_nil] at this
      omega
    simp only [work_append, si1000Emit]
    have a1 : work (lay.idx e.center) (if 0 < k then [.on .R lay.measure_qubit_indices, .tick] else []) ≤ 2 := work_subrange (by split_ifs <;> simp)
    have a2 := work_le (c := lay.idx e.center) [.on .C_ZYX lay.data_qubit_indices_1st, .on .H lay.measure_qubit_indices, .tick]
    have a3 := work_le (c := lay.idx e.center) [.on .H lay.measure_qubit_indices, .tick]
    have a4 := work_le (c := lay.idx e.center) [.tick]
    simp only [List.length_cons, List.length_nil] at a2 a3 a4
    omega
  have hr : ∀ k, Resets (lay.idx e.center) (lay.si1000Emit k ++ (lay.si1000Emit (k + 1) ++ lay.si1000Emit (k + 2))) := fun k =>
    (resets_on (center_measure he)).mono fun i hi => by
      rw [List.mem_singleton.1 hi]
      refine List.mem_append_right _ (List.mem_append_left _ ?_)
      rw [si1000Emit, if_pos (by omega)]
      simp
  have := live_suffix hblk hr ht (N / 3) 0
  simp only [Nat.zero_add] at this
  exact this

theorem live_closed (hv : lay.Valid) (hs : lay.Supported) (hE : lay.isEM3 = false) (hP : lay.isPC3 = false) {e : Edge} (he : e ∈ lay.all_edges) :
    ∀ s, s <:+ lay.closedCircuit N → live (lay.idx e.center) s ≤ 200 := by
  have hb : ∀ b, work (lay.idx e.center) (lay.basisChange b) ≤ 2 := fun b => work_subrange (by rw [basisChange]; split_ifs <;> simp)
  have hpost : work (lay.idx e.center) (lay.basisChange (lay.obsAt N).1 ++ [.on .M lay.data_qubit_indices] ++ lay.emitFinal N N) ≤ 3 := by
    rw [work_append, work_append, work_idle (l := lay.emitFinal N N) fun i hi => List.flatMap_eq_nil_iff.1 (actions_nil_of_marks (emitFinal_marks (lay := lay))) i hi]
    have := hb (lay.obsAt N).1
    have := work_le (c := lay.idx e.center) [.on .M lay.data_qubit_indices]
    simp only [List.length_cons, List.length_nil] at this
    omega
  have hpre : work (lay.idx e.center) (lay.qubitCoordOps ++ ([.on .R lay.used_qubit_indices, .tick] ++ lay.basisChange (lay.obsAt 0).1)) ≤ 4 := by
    rw [work_append, work_append, work_idle (l := lay.qubitCoordOps) fun i hi => by
      obtain ⟨q, _, rfl⟩ := List.mem_map.1 hi
      rfl]
    have := hb (lay.obsAt 0).1
    have := work_le (c := lay.idx e.center) [.on .R lay.used_qubit_indices, .tick]
    simp only [List.length_cons, List.length_nil] at this
    omega
  have hmid : ∀ s, s <:+ lay.allRounds N ++ (lay.basisChange (lay.obsAt N).1 ++ [.on .M lay.data_qubit_indices] ++ lay.emitFinal N N) →
      live (lay.idx e.center) s ≤ 163 := by
    rw [allRounds]
    split_ifs with h1 h2 h3
    · exact fun s h => (live_sd6 he hpost s h).trans (by omega)
    · rw [isPC3, h2] at hP
      simp at hP
    · simp [hE] at h3
    · exact fun s h => (live_si1000 he hpost s h).trans (by omega)
  intro s h
  rw [closedCircuit, List.append_assoc _ (lay.allRounds N)] at h
  exact (live_before hmid hpre s h).trans (by omega)

end HoneycombLayout
end Honeycomb
