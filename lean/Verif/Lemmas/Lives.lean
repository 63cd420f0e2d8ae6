import Verif.Lemmas.ChargedNoise

/-! Every ancilla of a generated circuit is coupled to the left end of its edge, then to the right end, then measured. -/

namespace Honeycomb
namespace HoneycombLayout
variable {lay : HoneycombLayout} {e : Edge} {s s' s1 : St} {st st' : Edge → St}

/-- The life of the ancilla of `e`. -/
def Life (lay : HoneycombLayout) (e : Edge) (ops : List Instr) (s s' : St) : Prop :=
  Chain (Moves (lay.idx e.left) (lay.idx e.right) (lay.idx e.center)) ops s s'

theorem Life.app {a b : List Instr} (h1 : lay.Life e a s s1) (h2 : lay.Life e b s1 s') : lay.Life e (a ++ b) s s' := Chain.append h1 h2

theorem Life.quiet {ops : List Instr} (h : ∀ i ∈ ops, ∀ x ∈ i.actions, ¬ x.On (lay.idx e.center)) : lay.Life e ops s s := by
  induction ops with
  | nil => exact .nil
  | cons i l ih => exact .cons (.idle (h i (by simp))) (ih fun j hj => h j (by simp [hj]))

theorem Life.nil : lay.Life e [] s s := Chain.nil

theorem Life.still {ops : List Instr} (h : ∀ i ∈ ops, i.actions = []) : lay.Life e ops s s :=
  .quiet fun i hi x hx => by rw [h i hi] at hx; simp at hx

theorem Life.marks {ops : List Instr} (h : ∀ i ∈ ops, isMark i = true) : lay.Life e ops s s :=
  .still fun i hi => by
    rcases i with ⟨g, ts, as⟩
    rcases (isMark_iff _).1 (h _ hi) with h | h | h <;> simp only at h <;> subst h <;> rfl

theorem Life.pause : lay.Life e [.tick] s s := .still fun i hi => by rw [List.mem_singleton.1 hi]; rfl

theorem Life.tick {t : Basis} {b : Bool} : lay.Life e [.tick] (.fresh t b) (.fresh t true) := .cons .tick .nil

theorem on_off {g : Gate} (hg : kind g = .clifford1 ∨ g = .R ∨ g = .M) {qs : List Nat} {a : Nat} (h : a ∉ qs) : ∀ x ∈ (Instr.on g qs).actions, ¬ x.On a := by
  intro x hx hon
  have hq : (Instr.on g qs).qubits = qs := qubits_on g qs
  cases g <;> simp only [kind, reduceCtorEq, or_self, or_false, or_true, false_or] at hg
  all_goals first
    | (simp only [Instr.actions, Instr.on, List.not_mem_nil] at hx; done)
    | (simp only [Instr.actions, Instr.measures, Instr.on, List.map_map, List.mem_map, Function.comp] at hx
       obtain ⟨q, hm, rfl⟩ := hx
       rw [show Instr.qubits ⟨_, qs.map Target.q, []⟩ = qs from hq] at hm
       obtain rfl : a = q := by
         first
           | exact hon
           | (obtain ⟨y, hy, e⟩ := hon
              rw [List.mem_singleton.1 hy] at e
              exact e)
       exact h hm)

theorem Life.off {g : Gate} (hg : kind g = .clifford1 ∨ g = .R ∨ g = .M) {qs : List Nat} (h : lay.idx e.center ∉ qs) : lay.Life e [.on g qs] s s :=
  .quiet fun i hi => by rw [List.mem_singleton.1 hi]; exact on_off hg h

theorem data_off (hv : lay.Valid) (he : e ∈ lay.all_edges) {l : List Pt} (hl : ∀ q ∈ l, q ∈ lay.data_qubit_coords) : lay.idx e.center ∉ l.map lay.idx := by
  intro h
  obtain ⟨q, hq, h⟩ := List.mem_map.1 h
  exact center_ne_data hv he (hl q hq) h.symm

theorem Life.data (hv : lay.Valid) (he : e ∈ lay.all_edges) {g : Gate} (hg : kind g = .clifford1 ∨ g = .R ∨ g = .M) : lay.Life e [.on g lay.data_qubit_indices] s s :=
  .off hg (data_off hv he fun _ h => h)

theorem Life.cycle (hv : lay.Valid) (he : e ∈ lay.all_edges) (a b : Bool) : lay.Life e (lay.cycleData a b) s s := by
  cases a <;> cases b
  · exact .nil
  · exact .off (.inl rfl) (data_off hv he fun _ h => (List.mem_filter.1 h).1)
  · exact .off (.inl rfl) (data_off hv he fun _ h => (List.mem_filter.1 h).1)
  · exact .data hv he (.inl rfl)

theorem Life.change (hv : lay.Valid) (he : e ∈ lay.all_edges) (b : Basis) : lay.Life e (lay.basisChange b) s s := by
  rw [basisChange]
  split_ifs
  · exact (Life.data hv he (.inl (by cases b <;> rfl))).app .pause
  · exact .nil

theorem Life.realign (hv : lay.Valid) (he : e ∈ lay.all_edges) : lay.Life e lay.sd6Realign s s := by
  refine Life.app ?_ .pause
  split_ifs
  · exact .data hv he (.inl rfl)
  · exact .data hv he (.inl rfl)
  · exact .nil

/-! Instructions on the ancillas of one colour. -/

theorem off_centers (hv : lay.Valid) (he : e ∈ lay.all_edges) {k : Int} (h : e ∉ lay.round_edges k) : lay.idx e.center ∉ (lay.round_edges k).map fun e => lay.idx e.center := by
  intro hm
  obtain ⟨e', he', h'⟩ := List.mem_map.1 hm
  have := idx_inj hv (center_mem_order (round_edges_subset_all he')) (center_mem_order he) h'
  exact h (edge_center_inj hv (round_edges_subset_all he') he this ▸ he')

theorem Life.reset {qs : List Nat} (h : lay.idx e.center ∈ qs) : lay.Life e [.on .R qs] s (.fresh .X false) :=
  .cons (.reset (by
    rw [Instr.actions]
    exact List.mem_map.2 ⟨_, by rw [qubits_on]; exact h, rfl⟩)) .nil

theorem Life.resets {k : Int} (h : e ∈ lay.round_edges k) : lay.Life e (lay.subRoundResets k) s (.fresh .X false) :=
  .reset (List.mem_map.2 ⟨e, h, rfl⟩)

theorem Life.resets_off (hv : lay.Valid) (he : e ∈ lay.all_edges) {k : Int} (h : e ∉ lay.round_edges k) : lay.Life e (lay.subRoundResets k) s s :=
  .off (.inr (.inl rfl)) (off_centers hv he h)

theorem Life.md (hE : lay.isEM3 = false) {k : Nat} (h : e ∈ lay.round_edges k) : lay.Life e (lay.emitMD k) .full (.fresh .X false) := by
  refine Life.app ?_ (.marks (emitAnn_marks k))
  rw [emitMeas, hE]
  refine Chain.cons (.meas ?_) .nil
  rw [Instr.actions]
  refine List.mem_map.2 ⟨[(.Z, lay.idx e.center)], ?_, rfl⟩
  rw [Instr.measures]
  refine List.mem_map.2 ⟨lay.idx e.center, ?_, rfl⟩
  rw [qubits_on]
  exact List.mem_map.2 ⟨e, h, rfl⟩

theorem Life.md_off (hv : lay.Valid) (hE : lay.isEM3 = false) (he : e ∈ lay.all_edges) {k : Nat} (h : e ∉ lay.round_edges k) : lay.Life e (lay.emitMD k) s s := by
  refine Life.app ?_ (.marks (emitAnn_marks k))
  rw [emitMeas, hE]
  exact .off (.inr (.inr rfl)) (off_centers hv he h)

/-- Two-qubit gates of the circuits: `P` of the data qubit controls `Q` on the ancilla. -/
inductive Couples : Gate → Basis → Basis → Prop
  | cx : Couples .CX .Z .X
  | xcx : Couples .XCX .X .X
  | ycx : Couples .YCX .Y .X
  | cz : Couples .CZ .Z .Z

theorem couples_basis (b : Basis) : Couples (basisCX b) b .X := by cases b <;> constructor

theorem Couples.actions {g : Gate} {P Q : Basis} (h : Couples g P Q) (qs : List Nat) :
    (Instr.on g qs).actions = (pairs qs).map fun x => .control P Q x.1 x.2 := by
  rw [show pairs qs = pairs (Instr.on g qs).qubits by rw [qubits_on]]
  cases h <;> rfl

theorem Life.left {g : Gate} {P Q : Basis} (hg : Couples g P Q) {k : Int} (h : e ∈ lay.round_edges k) :
    lay.Life e [.on g (lay.leftTargets (lay.round_edges k))] (.fresh Q true) (.half Q) := by
  refine Chain.cons (.left (P := P) ?_) .nil
  rw [hg.actions, leftTargets, pairs_targets]
  exact List.mem_map.2 ⟨_, List.mem_map.2 ⟨e, h, rfl⟩, rfl⟩

theorem Life.right {g : Gate} {P Q : Basis} (hg : Couples g P Q) {k : Int} (h : e ∈ lay.round_edges k) :
    lay.Life e [.on g (lay.rightTargets (lay.round_edges k))] (.half Q) .full := by
  refine Chain.cons (.right (P := P) ?_) .nil
  rw [hg.actions, rightTargets, pairs_targets]
  exact List.mem_map.2 ⟨_, List.mem_map.2 ⟨e, h, rfl⟩, rfl⟩

theorem pairs_off (hv : lay.Valid) (he : e ∈ lay.all_edges) {g : Gate} {P Q : Basis} (hg : Couples g P Q) {k : Int} (h : e ∉ lay.round_edges k) {f : Edge → Pt}
    (hf : ∀ e ∈ lay.all_edges, f e ∈ lay.data_qubit_coords) : lay.Life e [.on g ((lay.round_edges k).flatMap fun e => [lay.idx (f e), lay.idx e.center])] s s := by
  refine .quiet fun i hi x hx hon => ?_
  rw [List.mem_singleton.1 hi, hg.actions, pairs_targets] at hx
  obtain ⟨y, hy, rfl⟩ := List.mem_map.1 hx
  obtain ⟨e', he', rfl⟩ := List.mem_map.1 hy
  rcases hon with h1 | h1
  · exact center_ne_data hv he (hf e' (round_edges_subset_all he')) h1
  · exact off_centers hv he h (List.mem_map.2 ⟨e', he', h1.symm⟩)

theorem Life.left_off (hv : lay.Valid) (he : e ∈ lay.all_edges) {g : Gate} {P Q : Basis} (hg : Couples g P Q) {k : Int} (h : e ∉ lay.round_edges k) :
    lay.Life e [.on g (lay.leftTargets (lay.round_edges k))] s s := pairs_off hv he hg h fun e he => (ends_data hv he).1

theorem Life.right_off (hv : lay.Valid) (he : e ∈ lay.all_edges) {g : Gate} {P Q : Basis} (hg : Couples g P Q) {k : Int} (h : e ∉ lay.round_edges k) :
    lay.Life e [.on g (lay.rightTargets (lay.round_edges k))] s s := pairs_off hv he hg h fun e he => (ends_data hv he).2

/-! The three styles. -/

theorem edge_colour (he : e ∈ lay.all_edges) : ∃ c : Int, 0 ≤ c ∧ c < 3 ∧ e ∈ lay.round_edges c := by
  rcases mem_all_edges_iff_round.1 he with h | h | h
  · exact ⟨0, by omega, by omega, h⟩
  · exact ⟨1, by omega, by omega, h⟩
  · exact ⟨2, by omega, by omega, h⟩

theorem mem_round {c k : Int} (hc : e ∈ lay.round_edges c) (h : c % 3 = k % 3) : e ∈ lay.round_edges k := by rwa [← round_edges_congr lay h]

theorem not_mem_round (hv : lay.Valid) {c k : Int} (hc : e ∈ lay.round_edges c) (h : c % 3 ≠ k % 3) : e ∉ lay.round_edges k :=
  fun h' => h (round_edges_disjoint hv hc h')

/-- Before the SD6 pipeline step of sub-round `k`. -/
def SdAt (c : Int) (k : Nat) (s : St) : Prop :=
  (c % 3 = (k : Int) % 3 → s = .half .X) ∧ (c % 3 = ((k : Int) + 1) % 3 → s = .fresh .X true)

theorem life_sd6Step (hv : lay.Valid) (hE : lay.isEM3 = false) {c : Int} (hc : e ∈ lay.round_edges c) {k : Nat} (h : SdAt c k s) :
    ∃ s', lay.Life e (lay.sd6Emit k) s s' ∧ SdAt c (k + 1) s' := by
  have he := round_edges_subset_all hc
  have no : ∀ j : Int, c % 3 ≠ j % 3 → e ∉ lay.round_edges j := fun j => not_mem_round hv hc
  have ye : ∀ j : Int, c % 3 = j % 3 → e ∈ lay.round_edges j := fun j => mem_round hc
  rcases (by omega : c % 3 = (k : Int) % 3 ∨ c % 3 = ((k : Int) + 1) % 3 ∨ c % 3 = ((k : Int) + 2) % 3) with h0 | h0 | h0
  · obtain rfl := h.1 h0
    refine ⟨.fresh .X true, ?_, by constructor <;> intro h' <;> push_cast at h' <;> omega⟩
    exact ((((((Life.left_off hv he .cx (no _ (by omega))).app (Life.right .cx (ye _ h0))).app .pause).app (.resets_off hv he (no _ (by omega)))).app
      (.cycle hv he _ _)).app (.md hE (ye _ h0))).app .tick
  · obtain rfl := h.2 h0
    refine ⟨.half .X, ?_, by constructor <;> intro h' <;> push_cast at h' <;> first | rfl | omega⟩
    exact ((((((Life.left .cx (ye _ h0)).app (Life.right_off hv he .cx (no _ (by omega)))).app .pause).app (.resets_off hv he (no _ (by omega)))).app
      (.cycle hv he _ _)).app (.md_off hv hE he (no _ (by omega)))).app .pause
  · refine ⟨.fresh .X true, ?_, by constructor <;> intro h' <;> push_cast at h' <;> first | rfl | omega⟩
    exact ((((((Life.left_off hv he .cx (no _ (by omega))).app (Life.right_off hv he .cx (no _ (by omega)))).app .pause).app (.resets (ye _ h0))).app
      (.cycle hv he _ _)).app (.md_off hv hE he (no _ (by omega)))).app .tick

theorem life_flatMap {f : Nat → List Instr} {P : Nat → St → Prop} (h : ∀ k s, P k s → ∃ s', lay.Life e (f k) s s' ∧ P (k + 1) s') (n : Nat) {s : St} (hs : P 0 s) :
    ∃ s', lay.Life e ((List.range n).flatMap f) s s' ∧ P n s' := by
  induction n with
  | zero => exact ⟨s, .nil, hs⟩
  | succ n ih =>
    obtain ⟨s1, h1, p1⟩ := ih
    obtain ⟨s2, h2, p2⟩ := h n s1 p1
    refine ⟨s2, ?_, p2⟩
    rw [List.range_succ, List.flatMap_append, List.flatMap_singleton]
    exact h1.app h2

theorem life_sd6 (hv : lay.Valid) (hE : lay.isEM3 = false) (he : e ∈ lay.all_edges) {N : Nat} (h1 : 1 ≤ N) (s : St) : ∃ s', lay.Life e (lay.sd6All N) s s' := by
  obtain ⟨c, hc0, hc3, hc⟩ := edge_colour he
  have no : ∀ j : Int, c % 3 ≠ j % 3 → e ∉ lay.round_edges j := fun j => not_mem_round hv hc
  have ye : ∀ j : Int, c % 3 = j % 3 → e ∈ lay.round_edges j := fun j => mem_round hc
  rw [sd6All]
  split_ifs with hN
  · by_cases h0 : c % 3 = 0 % 3
    · exact ⟨_, ((((((((Life.resets (ye _ h0)).app (.cycle hv he _ _)).app .tick).app (Life.left .cx (ye _ h0))).app .pause).app (Life.right .cx (ye _ h0))).app
        .pause).app (.md hE (ye _ h0))).app (.realign hv he)⟩
    · exact ⟨s, ((((((((Life.resets_off hv he (no _ h0)).app (.cycle hv he _ _)).app .pause).app (Life.left_off hv he .cx (no _ h0))).app .pause).app
        (Life.right_off hv he .cx (no _ h0))).app .pause).app (.md_off hv hE he (no _ h0))).app (.realign hv he)⟩
  · have start : ∃ s', lay.Life e lay.sd6Start s s' ∧ SdAt c 0 s' := by
      rcases (by omega : c % 3 = 0 ∨ c % 3 = 1 ∨ c % 3 = 2) with h0 | h0 | h0
      · refine ⟨.half .X, ?_, by constructor <;> intro h' <;> first | rfl | omega⟩
        exact (((((((Life.resets (ye _ h0)).app (.cycle hv he _ _)).app .tick).app (Life.left .cx (ye _ h0))).app .pause).app
          (.resets_off hv he (no _ (by omega)))).app (.cycle hv he _ _)).app .pause
      · refine ⟨.fresh .X true, ?_, by constructor <;> intro h' <;> first | rfl | omega⟩
        exact (((((((Life.resets_off hv he (no _ (by omega))).app (.cycle hv he _ _)).app .pause).app (Life.left_off hv he .cx (no _ (by omega)))).app .pause).app
          (.resets (ye _ h0))).app (.cycle hv he _ _)).app .tick
      · refine ⟨s, ?_, by constructor <;> intro h' <;> first | rfl | omega⟩
        exact (((((((Life.resets_off hv he (no _ (by omega))).app (.cycle hv he _ _)).app .pause).app (Life.left_off hv he .cx (no _ (by omega)))).app .pause).app
          (.resets_off hv he (no _ (by omega)))).app (.cycle hv he _ _)).app .pause
    obtain ⟨s1, l1, p1⟩ := start
    obtain ⟨s2, l2, p2⟩ := life_flatMap (fun k s h => life_sd6Step hv hE hc h) (N - 2) p1
    have fin : ∃ s', lay.Life e (lay.sd6EndEmit N) s2 s' := by
      rcases (by omega : c % 3 = ((N - 2 : Nat) : Int) % 3 ∨ c % 3 = (((N - 2 : Nat) : Int) + 1) % 3 ∨ c % 3 = (((N - 2 : Nat) : Int) + 2) % 3) with h0 | h0 | h0
      · obtain rfl := p2.1 h0
        exact ⟨_, (((((((((Life.left_off hv he .cx (no _ (by omega))).app (Life.right .cx (ye _ (by omega)))).app .pause).app (.md hE (ye _ h0))).app .pause).app
          (.cycle hv he _ _)).app .pause).app (Life.right_off hv he .cx (no _ (by omega)))).app .pause).app (.md_off hv hE he (no _ (by omega)))⟩
      · obtain rfl := p2.2 h0
        exact ⟨_, (((((((((Life.left .cx (ye _ (by omega))).app (Life.right_off hv he .cx (no _ (by omega)))).app .pause).app
          (.md_off hv hE he (no _ (by omega)))).app .pause).app (.cycle hv he _ _)).app .pause).app (Life.right .cx (ye _ (by omega)))).app .pause).app
          (.md hE (ye _ (by omega)))⟩
      · exact ⟨s2, (((((((((Life.left_off hv he .cx (no _ (by omega))).app (Life.right_off hv he .cx (no _ (by omega)))).app .pause).app
          (.md_off hv hE he (no _ (by omega)))).app .pause).app (.cycle hv he _ _)).app .pause).app (Life.right_off hv he .cx (no _ (by omega)))).app .pause).app
          (.md_off hv hE he (no _ (by omega)))⟩
    obtain ⟨s3, l3⟩ := fin
    exact ⟨s3, ((l1.app l2).app l3).app (.realign hv he)⟩

/-- Before the PC3 moment `k`. -/
def PcAt (c : Int) (N k : Nat) (s : St) : Prop :=
  (c % 3 = (k : Int) % 3 → s = .fresh .X true) ∧ (2 ≤ k → c % 3 = ((k : Int) - 2) % 3 → s = .full) ∧
    (1 ≤ k → k ≤ N → c % 3 = ((k : Int) - 1) % 3 → s = .half .X)

theorem life_pc3Step (hv : lay.Valid) (hE : lay.isEM3 = false) {c : Int} (hc : e ∈ lay.round_edges c) {N k : Nat} (hk : k < N + 2) (h : PcAt c N k s) :
    ∃ s', lay.Life e (lay.pc3Emit N k) s s' ∧ (k ≤ N → PcAt c N (k + 1) s') := by
  have he := round_edges_subset_all hc
  have no : ∀ j : Int, c % 3 ≠ j % 3 → e ∉ lay.round_edges j := fun j => not_mem_round hv hc
  have ye : ∀ j : Int, c % 3 = j % 3 → e ∈ lay.round_edges j := fun j => mem_round hc
  obtain ⟨h0, h2, h1⟩ := h
  rcases (by omega : c % 3 = (k : Int) % 3 ∨ c % 3 = ((k : Int) - 1) % 3 ∨ c % 3 = ((k : Int) - 2) % 3) with hk0 | hk1 | hk2
  · obtain rfl := h0 hk0
    by_cases hkN : k < N
    · refine ⟨.half .X, Life.app (s1 := .half .X) (Life.app (s1 := .half .X) (Life.app (s1 := .half .X) ?_ ?_) ?_) .pause, fun _ => ?_⟩
      · rw [if_pos hkN]; exact .left (couples_basis _) (ye _ hk0)
      · split_ifs
        · exact .right_off hv he (couples_basis _) (no _ (by omega))
        · exact .nil
      · split_ifs
        · exact .md_off hv hE he (no _ (by omega))
        · exact .resets_off hv he (no _ (by omega))
      · refine ⟨?_, ?_, ?_⟩ <;> intros <;> first | rfl | (exfalso; push_cast at *; omega)
    · refine ⟨.fresh .X true, Life.app (s1 := .fresh .X true) (Life.app (s1 := .fresh .X true) (Life.app (s1 := .fresh .X true) ?_ ?_) ?_) .pause, fun _ => ?_⟩
      · rw [if_neg hkN]; exact .nil
      · split_ifs
        · exact .right_off hv he (couples_basis _) (no _ (by omega))
        · exact .nil
      · split_ifs
        · exact .md_off hv hE he (no _ (by omega))
        · exact .resets_off hv he (no _ (by omega))
      · refine ⟨?_, ?_, ?_⟩ <;> intros <;> first | rfl | (exfalso; push_cast at *; omega)
  · by_cases hr : 1 ≤ k ∧ k - 1 < N
    · obtain rfl := h1 hr.1 (by omega) hk1
      refine ⟨.full, Life.app (s1 := .full) (Life.app (s1 := .full) (Life.app (s1 := .half .X) ?_ ?_) ?_) .pause, fun _ => ?_⟩
      · split_ifs
        · exact .left_off hv he (couples_basis _) (no _ (by omega))
        · exact .nil
      · rw [if_pos hr]; exact .right (couples_basis _) (ye _ hk1)
      · split_ifs
        · exact .md_off hv hE he (no _ (by omega))
        · exact .resets_off hv he (no _ (by omega))
      · refine ⟨?_, ?_, ?_⟩ <;> intros <;> first | rfl | (exfalso; push_cast at *; omega)
    · refine ⟨s, Life.app (s1 := s) (Life.app (s1 := s) (Life.app (s1 := s) ?_ ?_) ?_) .pause, fun _ => ?_⟩
      · split_ifs
        · exact .left_off hv he (couples_basis _) (no _ (by omega))
        · exact .nil
      · rw [if_neg hr]; exact .nil
      · split_ifs
        · exact .md_off hv hE he (no _ (by omega))
        · exact .resets_off hv he (no _ (by omega))
      · refine ⟨?_, ?_, ?_⟩ <;> intros <;> first | rfl | (exfalso; push_cast at *; omega)
  · refine ⟨.fresh .X true, Life.app (s1 := .fresh .X false) (Life.app (s1 := s) (Life.app (s1 := s) ?_ ?_) ?_) .tick, fun _ => ?_⟩
    · split_ifs
      · exact .left_off hv he (couples_basis _) (no _ (by omega))
      · exact .nil
    · split_ifs
      · exact .right_off hv he (couples_basis _) (no _ (by omega))
      · exact .nil
    · split_ifs with hk'
      · obtain rfl := h2 hk' hk2
        exact .md hE (ye _ (by omega))
      · exact .resets (ye _ hk2)
    · refine ⟨?_, ?_, ?_⟩ <;> intros <;> first | rfl | (exfalso; push_cast at *; omega)

theorem life_pc3 (hv : lay.Valid) (hE : lay.isEM3 = false) (he : e ∈ lay.all_edges) (N : Nat) : ∃ s', lay.Life e (lay.pc3All N) (.fresh .X true) s' := by
  obtain ⟨c, hc0, hc3, hc⟩ := edge_colour he
  have key : ∀ n, n ≤ N + 1 → ∃ s', lay.Life e ((List.range n).flatMap (lay.pc3Emit N)) (.fresh .X true) s' ∧ PcAt c N n s' := by
    intro n
    induction n with
    | zero => exact fun _ => ⟨_, .nil, ⟨fun _ => rfl, fun h => by omega, fun h => by omega⟩⟩
    | succ n ih =>
      intro hn
      obtain ⟨s1, l1, p1⟩ := ih (by omega)
      obtain ⟨s2, l2, p2⟩ := life_pc3Step hv hE hc (by omega) p1
      refine ⟨s2, ?_, p2 (by omega)⟩
      rw [List.range_succ, List.flatMap_append, List.flatMap_singleton]
      exact l1.app l2
  obtain ⟨s1, l1, p1⟩ := key (N + 1) le_rfl
  obtain ⟨s2, l2, -⟩ := life_pc3Step hv hE hc (by omega) p1
  refine ⟨s2, Life.app ?_ (.marks fun i hi => (isMark_iff i).2 (Or.inr (Or.inl (pc3ObsEmit_gate hi))))⟩
  rw [List.range_succ, List.flatMap_append, List.flatMap_singleton]
  exact l1.app l2

theorem center_measure (he : e ∈ lay.all_edges) : lay.idx e.center ∈ lay.measure_qubit_indices :=
  List.mem_map.2 ⟨e.center, mem_measure_qubit_coords.2 ⟨e, he, rfl⟩, rfl⟩

theorem life_hadamard (he : e ∈ lay.all_edges) : (∀ b, lay.Life e [.on .H lay.measure_qubit_indices] (.fresh .X b) (.fresh .Z b)) ∧
    lay.Life e [.on .H lay.measure_qubit_indices] .full .full := by
  have : Action.clifford1 (fun p => (p.2, p.1)) (lay.idx e.center) ∈ (Instr.on .H lay.measure_qubit_indices).actions := by
    rw [Instr.actions]
    exact List.mem_map.2 ⟨_, by rw [qubits_on]; exact center_measure he, rfl⟩
  exact ⟨fun b => .cons (.turn this) .nil, .cons (.back this) .nil⟩

theorem life_layer (hv : lay.Valid) (he : e ∈ lay.all_edges) {k : Int} (h : e ∈ lay.round_edges k) : lay.Life e (lay.si1000Layer k) (.fresh .Z true) .full := by
  refine ((((Life.off (g := .C_ZYX) (.inl rfl) (data_off hv he fun _ h => (List.mem_filter.1 h).1)).app ((Life.left .cz h).app .pause))).app ?_).app
    ((Life.right .cz h).app .pause)
  split_ifs
  · exact .off (.inl rfl) (data_off hv he fun _ h => (List.mem_filter.1 h).1)
  · exact .nil

theorem life_layer_off (hv : lay.Valid) (he : e ∈ lay.all_edges) {k : Int} (h : e ∉ lay.round_edges k) : lay.Life e (lay.si1000Layer k) s s := by
  refine ((((Life.off (g := .C_ZYX) (.inl rfl) (data_off hv he fun _ h => (List.mem_filter.1 h).1)).app ((Life.left_off hv he .cz h).app .pause))).app ?_).app
    ((Life.right_off hv he .cz h).app .pause)
  split_ifs
  · exact .off (.inl rfl) (data_off hv he fun _ h => (List.mem_filter.1 h).1)
  · exact .nil

theorem life_si1000Step (hv : lay.Valid) (hE : lay.isEM3 = false) {c : Int} (hc : e ∈ lay.round_edges c) (hc0 : 0 ≤ c) (hc3 : c < 3) {j : Nat}
    (h : j = 0 → s = .fresh .X true) : lay.Life e (lay.si1000Emit j) s (.fresh .X true) := by
  have he := round_edges_subset_all hc
  have no : ∀ j : Int, c % 3 ≠ j % 3 → e ∉ lay.round_edges j := fun j => not_mem_round hv hc
  have ye : ∀ j : Int, c % 3 = j % 3 → e ∈ lay.round_edges j := fun j => mem_round hc
  refine Life.app (s1 := .fresh .X false) (Life.app (s1 := .full) (Life.app (s1 := .full) (Life.app (s1 := .fresh .Z true) (Life.app (s1 := .fresh .X true) ?_ ?_) ?_) ?_) ?_) .tick
  · split_ifs with hj
    · exact (Life.reset (center_measure he)).app .tick
    · obtain rfl := h (by omega)
      exact .nil
  · exact (Life.off (g := .C_ZYX) (.inl rfl) (data_off hv he fun _ h => (List.mem_filter.1 h).1)).app (((life_hadamard he).1 _).app .pause)
  · rw [show pyRange 3 = [0, 1, 2] from rfl]
    simp only [List.flatMap_cons, List.flatMap_nil]
    rcases (by omega : c = 0 ∨ c = 1 ∨ c = 2) with rfl | rfl | rfl
    · exact (life_layer hv he hc).app ((life_layer_off hv he (no _ (by omega))).app ((life_layer_off hv he (no _ (by omega))).app .nil))
    · exact (life_layer_off hv he (no _ (by omega))).app ((life_layer hv he hc).app ((life_layer_off hv he (no _ (by omega))).app .nil))
    · exact (life_layer_off hv he (no _ (by omega))).app ((life_layer_off hv he (no _ (by omega))).app ((life_layer hv he hc).app .nil))
  · exact (life_hadamard he).2.app .pause
  · rw [show List.range 3 = [0, 1, 2] from rfl]
    simp only [List.flatMap_cons, List.flatMap_nil]
    rcases (by omega : c = 0 ∨ c = 1 ∨ c = 2) with rfl | rfl | rfl
    · exact (Life.md hE (ye _ (by push_cast; omega))).app ((Life.md_off hv hE he (no _ (by push_cast; omega))).app ((Life.md_off hv hE he (no _ (by push_cast; omega))).app .nil))
    · exact (Life.md_off hv hE he (no _ (by push_cast; omega))).app ((Life.md hE (ye _ (by push_cast; omega))).app ((Life.md_off hv hE he (no _ (by push_cast; omega))).app .nil))
    · exact (Life.md_off hv hE he (no _ (by push_cast; omega))).app ((Life.md_off hv hE he (no _ (by push_cast; omega))).app ((Life.md hE (ye _ (by push_cast; omega))).app .nil))

theorem life_si1000 (hv : lay.Valid) (hE : lay.isEM3 = false) (he : e ∈ lay.all_edges) (N : Nat) : ∃ s', lay.Life e (lay.si1000All N) (.fresh .X true) s' := by
  obtain ⟨c, hc0, hc3, hc⟩ := edge_colour he
  obtain ⟨s', h, -⟩ := life_flatMap (P := fun j s => j = 0 → s = .fresh .X true) (fun k s h => ⟨_, life_si1000Step hv hE hc hc0 hc3 h, fun h => by omega⟩) (N / 3)
    (s := .fresh .X true) fun _ => rfl
  exact ⟨s', h⟩

theorem life_closed (hv : lay.Valid) (hs : lay.Supported) (hE : lay.isEM3 = false) (he : e ∈ lay.all_edges) {N : Nat} (h1 : 1 ≤ N) (s : St) :
    ∃ s', lay.Life e (lay.closedCircuit N) s s' := by
  have hr : ∃ s', lay.Life e (lay.allRounds N) (.fresh .X true) s' := by
    rcases supported_style hs with ⟨h, _⟩ | ⟨h, _⟩ | ⟨_, _, h⟩ | ⟨h, _⟩
    · rw [allRounds, if_pos h]; exact life_sd6 hv hE he h1 _
    · rw [allRounds, if_neg (by rw [h]; decide), if_pos h]; exact life_pc3 hv hE he N
    · rw [hE] at h; cases h
    · rw [allRounds, if_neg (by rw [h]; decide), if_neg (by rw [h]; decide), if_neg (by simp [hE])]; exact life_si1000 hv hE he N
  obtain ⟨s', hr⟩ := hr
  have hu : lay.idx e.center ∈ lay.used_qubit_indices := by
    obtain ⟨c, _, _, hc⟩ := edge_colour he
    exact mem_used_center hv hE hc
  refine ⟨s', ((Life.still ?_).app (((Life.reset hu).app .tick).app (.change hv he _))).app hr |>.app (((Life.change hv he _).app (.data hv he (.inr (.inr rfl)))).app
    (.marks emitFinal_marks))⟩
  intro i hi
  obtain ⟨q, hq, rfl⟩ := List.mem_map.1 hi
  rfl

/-- The states of all ancillas. -/
theorem chain_all {ops : List Instr} (h : ∀ e ∈ lay.all_edges, ∃ s', lay.Life e ops (st e) s') : ∃ st', Chain lay.MovesAll ops st st' := by
  induction ops generalizing st with
  | nil => exact ⟨st, .nil⟩
  | cons i ops ih =>
    have : ∀ e, ∃ s1, e ∈ lay.all_edges → Moves (lay.idx e.left) (lay.idx e.right) (lay.idx e.center) i (st e) s1 ∧ ∃ s', lay.Life e ops s1 s' := by
      intro e
      by_cases he : e ∈ lay.all_edges
      · obtain ⟨s', hs⟩ := h e he
        cases hs with
        | cons hm hr => exact ⟨_, fun _ => ⟨hm, _, hr⟩⟩
      · exact ⟨.full, fun h => absurd h he⟩
    choose st1 h1 using this
    obtain ⟨st', h'⟩ := ih fun e he => (h1 e he).2
    exact ⟨st', .cons (fun e he => (h1 e he).1) h'⟩

theorem closed_stdI (hv : lay.Valid) (hs : lay.Supported) (hE : lay.isEM3 = false) {N : Nat} (hN : lay.sub_rounds = N) {i : Instr} (hi : i ∈ lay.closedCircuit N) :
    lay.StdI i := by
  have hg := goodL_closed hs N i hi
  have hmpp : i.gate ≠ .MPP := fun h => by
    have := (hg.bond h).1
    rw [hE] at this; cases this
  have hdisj := actions_disjoint (closed_nodup hv hs hN hi) fun h => absurd h hmpp
  have hlink : ∀ P Q d a, Action.control P Q d a ∈ i.actions → ∃ e ∈ lay.all_edges, (d = lay.idx e.left ∨ d = lay.idx e.right) ∧ a = lay.idx e.center := by
    intro P Q d a h
    obtain ⟨hk, hm⟩ := mem_control h
    obtain ⟨k, e, he, h⟩ := (hg.link hk).2 _ hm
    exact ⟨e, round_edges_subset_all he, h⟩
  have hM : ∀ P ∈ i.measures, ∃ q ∈ i.qubits, P = [(.Z, q)] := by
    intro P hP
    have hu := hg.gate
    rcases i with ⟨g, ts, as⟩
    cases g <;> simp only [Instr.measures, List.not_mem_nil] at hP
    case M =>
      obtain ⟨q, hq, rfl⟩ := List.mem_map.1 hP
      exact ⟨q, hq, rfl⟩
    case MPP => exact absurd rfl hmpp
    all_goals simp [UsesGate, kind] at hu
  refine ⟨⟨hdisj, fun x hx => ?_⟩, hlink, fun P hP => ?_⟩
  · cases x with
    | clifford1 => trivial
    | control P Q d a =>
      obtain ⟨e, he, h, rfl⟩ := hlink P Q d a hx
      intro hda
      rcases h with rfl | rfl
      · exact center_ne_data hv he (ends_data hv he).1 hda.symm
      · exact center_ne_data hv he (ends_data hv he).2 hda.symm
    | reset b q =>
      have hu := hg.gate
      rcases i with ⟨g, ts, as⟩
      cases g <;> simp_all [Instr.actions, UsesGate, kind]
    | measure P =>
      obtain ⟨q, _, h⟩ := hM P (by rw [← results_actions]; exact List.mem_filterMap.2 ⟨_, hx, rfl⟩)
      exact ⟨q, h⟩
  · obtain ⟨y, hy, rfl⟩ := hM P hP
    have hlt := closed_qubits hv hs hN hi hy
    rcases single_channel hv hE hlt with ⟨p, hp, h⟩ | ⟨e, he, h⟩
    · exact ⟨p, fun x hx => ⟨hp, .inl (by rw [List.mem_singleton.1 hx]; simpa using h)⟩⟩
    · exact ⟨e.left, fun x hx => ⟨(ends_data hv he).1, .inr ⟨e, he, rfl, by rw [List.mem_singleton.1 hx]; simpa using h⟩⟩⟩

end HoneycombLayout
end Honeycomb
