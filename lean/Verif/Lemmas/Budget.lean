import Verif.Lemmas.FaultyRun

/-! Which data qubits each instruction of a generated circuit makes interact. -/

namespace Honeycomb

theorem couples_on {g : Gate} {qs : List Nat} {q : Nat} (hg : g ≠ .MPP) (h : (Instr.on g qs).Couples q) : q ∈ qs := by
  obtain ⟨a, ha, hq⟩ := h
  have hqs := qubits_on g qs
  have hctrl : ∀ P Q : Basis, a ∈ (pairs qs).map (fun x => Action.control P Q x.1 x.2) → q ∈ qs := by
    intro P Q hm
    obtain ⟨x, hx, rfl⟩ := List.mem_map.1 hm
    have hp : ∀ l : List Nat, x ∈ pairs l → x.1 ∈ l ∧ x.2 ∈ l := by
      intro l
      induction l using pairs.induct with
      | case1 a b l ih =>
        intro h
        rw [pairs] at h
        rcases List.mem_cons.1 h with rfl | h
        · simp
        · exact ⟨List.mem_cons_of_mem _ (List.mem_cons_of_mem _ (ih h).1), List.mem_cons_of_mem _ (List.mem_cons_of_mem _ (ih h).2)⟩
      | case2 l hl =>
        intro h
        rcases l with _ | ⟨a, _ | ⟨b, l⟩⟩
        · simp [pairs] at h
        · simp [pairs] at h
        · exact absurd rfl (hl a b l)
    rcases hq with rfl | rfl
    · exact (hp qs hx).1
    · exact (hp qs hx).2
  have hres : ∀ b : Basis, a ∈ qs.map (Action.reset b) → q ∈ qs := by
    intro b hm
    obtain ⟨x, hx, rfl⟩ := List.mem_map.1 hm
    have hq : q = x := hq
    rw [hq]; exact hx
  have hcl : ∀ f : Pauli → Pauli, a ∈ qs.map (Action.clifford1 f) → q ∈ qs := by
    intro f hm
    obtain ⟨x, hx, rfl⟩ := List.mem_map.1 hm
    exact hq.elim
  have hme : ∀ b : Basis, a ∈ (qs.map fun q => [(b, q)]).map Action.measure → q ∈ qs := by
    intro b hm
    obtain ⟨y, hy, rfl⟩ := List.mem_map.1 hm
    obtain ⟨x, hx, rfl⟩ := List.mem_map.1 hy
    have hq : q ∈ [x] := hq
    rw [List.mem_singleton.1 hq]; exact hx
  cases g <;> first
    | exact absurd rfl hg
    | (simp only [Instr.on, Instr.actions, Instr.measures, Instr.qubits] at ha hqs
       rw [hqs] at ha
       first
         | exact hctrl _ _ ha
         | exact hres _ ha
         | exact hcl _ ha
         | exact hme _ ha)
    | (simp [Instr.on, Instr.actions] at ha)

theorem couples_clifford {i : Instr} {f : Pauli → Pauli} {qs : List Nat} (h : i.actions = qs.map (.clifford1 f)) {q : Nat} : ¬ i.Couples q := by
  rintro ⟨a, ha, hq⟩
  rw [h] at ha
  obtain ⟨x, _, rfl⟩ := List.mem_map.1 ha
  exact hq

theorem couples_nil {i : Instr} (h : i.actions = []) {q : Nat} : ¬ i.Couples q := by
  rintro ⟨a, ha, hq⟩
  rw [h] at ha
  simp at ha

namespace HoneycombLayout
variable {lay : HoneycombLayout}

/-- The indices of the data qubits. -/
def IsData (lay : HoneycombLayout) (i : Nat) : Prop := i ∈ lay.data_qubit_indices

/-- The indices of the data qubits that satisfy `B`. -/
def IsIn (lay : HoneycombLayout) (B : Pt → Prop) (i : Nat) : Prop := ∃ p ∈ lay.data_qubit_coords, B p ∧ lay.idx p = i

theorem IsIn.data {B : Pt → Prop} {i : Nat} (h : lay.IsIn B i) : lay.IsData i := by
  obtain ⟨p, hp, -, rfl⟩ := h
  exact List.mem_map_of_mem hp

/-- Every data qubit interacts at most once, and those that do belong to the classes `cs`. -/
structure Budget (lay : HoneycombLayout) (cs : List Nat) (l : List Instr) : Prop where
  once : Once lay.IsData l
  only : ∀ i ∈ l, ∀ p ∈ lay.data_qubit_coords, i.Couples (lay.idx p) → lay.ptClass p ∈ cs

theorem Budget.append {a b : List Instr} {cs ds : List Nat} (h1 : lay.Budget cs a) (h2 : lay.Budget ds b) (hd : ∀ c ∈ cs, c ∉ ds) :
    lay.Budget (cs ++ ds) (a ++ b) := by
  constructor
  · refine List.pairwise_append.2 ⟨h1.once, h2.once, fun i hi j hj q hq hc hc' => ?_⟩
    obtain ⟨p, hp, rfl⟩ := List.mem_map.1 hq
    exact hd _ (h1.only i hi p hp hc) (h2.only j hj p hp hc')
  · intro i hi p hp hc
    rw [List.mem_append]
    rcases List.mem_append.1 hi with hi | hi
    · exact Or.inl (h1.only i hi p hp hc)
    · exact Or.inr (h2.only i hi p hp hc)

theorem Budget.idle_left {a b : List Instr} {cs : List Nat} (h1 : lay.Budget [] a) (h2 : lay.Budget cs b) : lay.Budget cs (a ++ b) :=
  h1.append h2 (by simp)

theorem Budget.idle_right {a b : List Instr} {cs : List Nat} (h1 : lay.Budget cs a) (h2 : lay.Budget [] b) : lay.Budget cs (a ++ b) := by
  have := h1.append h2 (by simp)
  rwa [List.append_nil] at this

theorem budget_nil : lay.Budget [] [] := ⟨List.Pairwise.nil, by simp⟩

/-- An instruction that makes no data qubit interact. -/
theorem budget_idle {l : List Instr} (h : ∀ i ∈ l, ∀ p ∈ lay.data_qubit_coords, ¬ i.Couples (lay.idx p)) : lay.Budget [] l := by
  constructor
  · refine List.pairwise_of_forall_mem_list fun i hi j hj q hq hc => ?_
    obtain ⟨p, hp, rfl⟩ := List.mem_map.1 hq
    exact absurd hc (h i hi p hp)
  · exact fun i hi p hp hc => absurd hc (h i hi p hp)

theorem budget_marks {l : List Instr} (h : ∀ i ∈ l, isMark i = true) : lay.Budget [] l := by
  refine budget_idle fun i hi p _ => couples_nil ?_
  rcases (isMark_iff i).1 (h i hi) with e | e | e <;> simp [Instr.actions, e]

theorem budget_tick : lay.Budget [] [.tick] := budget_idle fun i hi p _ => by
  rw [List.mem_singleton.1 hi]; exact couples_nil rfl

theorem budget_clifford {i : Instr} {f : Pauli → Pauli} {qs : List Nat} (h : i.actions = qs.map (.clifford1 f)) : lay.Budget [] [i] :=
  budget_idle fun j hj p _ => by rw [List.mem_singleton.1 hj]; exact couples_clifford h

theorem Budget.mono {l : List Instr} {cs ds : List Nat} (h : lay.Budget cs l) (hs : ∀ c ∈ cs, c = 0 ∨ c = 1 → c ∈ ds) : lay.Budget ds l :=
  ⟨h.once, fun i hi p hp hc => hs _ (h.only i hi p hp hc) (by
    have := (data_class hp).2
    rw [this]
    cases dataQubitParity p <;> simp)⟩

theorem budget_on (hv : lay.Valid) {g : Gate} (hg : g ≠ .MPP) {qs cs : List Nat} (hc : lay.Covers cs qs) : lay.Budget cs [.on g qs] := by
  refine ⟨by simp [Once], fun i hi p hp hq => ?_⟩
  rw [List.mem_singleton.1 hi] at hq
  by_contra hn
  exact hc.not_mem hv (data_class hp).1 hn (couples_on hg hq)

end HoneycombLayout
end Honeycomb
