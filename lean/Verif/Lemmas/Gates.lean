import Verif.Lemmas.Uses
import Verif.Lemmas.Frame
import Verif.Props.Noise
import Verif.Spec.CircuitPlot

/-! Which instructions a generated circuit contains. -/

namespace Honeycomb

namespace Circuit

theorem ops_append (c d : Circuit) : (c ++ d).ops = c.ops ++ d.ops := by
  show (c.append d).ops = _
  induction c with
  | nil => rfl
  | op i c ih => simp [append, ops, ih]
  | rep n b c _ ih => simp [append, ops, ih]

theorem ops_ofList (l : List Instr) : (ofList l).ops = l := by
  induction l with
  | nil => rfl
  | cons i l ih => simp [ofList, ops, ih]

/-- If every block is run at least once, the unrolled circuit contains every instruction. -/
theorem ops_flatten {c : Circuit} (h : c.Shape fun r _ => 2 ≤ r) {i : Instr} (hi : i ∈ c.ops) : i ∈ c.flatten := by
  induction c with
  | nil => exact hi
  | op j c ih =>
    simp only [ops, flatten, List.mem_cons] at hi ⊢
    exact hi.imp_right (ih h)
  | rep n b c _ ih =>
    obtain ⟨⟨l, rfl, hn⟩, hc⟩ := h
    simp only [ops, flatten, List.mem_append] at hi ⊢
    rcases hi with hi | hi
    · left
      rw [ops_ofList] at hi
      rw [flatten_ofList]
      exact List.mem_flatten.2 ⟨l, List.mem_replicate.2 ⟨by omega, rfl⟩, hi⟩
    · exact Or.inr (ih hc hi)

theorem ofList_normal (l : List Instr) : (ofList l).Normal := by
  induction l with
  | nil => trivial
  | cons i l ih => exact ih

theorem shape_normal {c : Circuit} (h : c.Shape fun r _ => 2 ≤ r) : c.Normal := by
  induction c with
  | nil => trivial
  | op j c ih => exact ih h
  | rep n b c _ ih =>
    obtain ⟨⟨l, rfl, hn⟩, hc⟩ := h
    refine ⟨hn, ?_, ?_, ih hc⟩
    · intro m b' hb
      cases l <;> simp [ofList] at hb
    · exact ofList_normal l

end Circuit

namespace HoneycombLayout
variable (lay : HoneycombLayout)

/-- The gates a style uses. -/
def UsesGate (g : Gate) : Prop :=
  kind g = .clifford1 ∨ kind g = .annotation ∨ g = .R ∨ g = .M ∨ (lay.style = "SD6" ∧ g = .CX) ∨
  (lay.style = "PC3" ∧ kind g = .clifford2) ∨ (lay.isEM3 = true ∧ g = .MPP) ∨ (lay.style = "SI1000" ∧ g = .CZ)

/-- A well-formed instruction of a generated circuit after the coordinates. -/
structure GoodR (i : Instr) : Prop where
  gate : lay.UsesGate i.gate
  tick : i.gate = .TICK → i = .tick
  mpp : i.gate = .MPP → i.args = [] ∧ ∃ gs, i.targets = pairTargets gs
  notCoords : i.gate ≠ .QUBIT_COORDS
  link : kind i.gate = .clifford2 → lay.isEM3 = false ∧ ∀ x ∈ pairs i.qubits, ∃ k : Int, ∃ e ∈ lay.round_edges k,
    (x.1 = lay.idx e.left ∨ x.1 = lay.idx e.right) ∧ x.2 = lay.idx e.center
  bond : i.gate = .MPP → lay.isEM3 = true ∧ ∀ x ∈ pairs i.qubits, ∃ k : Int, ∃ e ∈ lay.round_edges k, x = (lay.idx e.left, lay.idx e.right)
  drawn : ∃ d, Draws i d

/-- A well-formed instruction of a generated circuit. -/
structure GoodI (i : Instr) : Prop where
  gate : lay.UsesGate i.gate
  tick : i.gate = .TICK → i = .tick
  mpp : i.gate = .MPP → i.args = [] ∧ ∃ gs, i.targets = pairTargets gs
  coords : i.gate = .QUBIT_COORDS → i ∈ lay.qubitCoordOps
  link : kind i.gate = .clifford2 → lay.isEM3 = false ∧ ∀ x ∈ pairs i.qubits, ∃ k : Int, ∃ e ∈ lay.round_edges k,
    (x.1 = lay.idx e.left ∨ x.1 = lay.idx e.right) ∧ x.2 = lay.idx e.center
  bond : i.gate = .MPP → lay.isEM3 = true ∧ ∀ x ∈ pairs i.qubits, ∃ k : Int, ∃ e ∈ lay.round_edges k, x = (lay.idx e.left, lay.idx e.right)

def GoodL (l : List Instr) : Prop := ∀ i ∈ l, lay.GoodR i

variable {lay}

theorem goodL_append {a b : List Instr} (ha : lay.GoodL a) (hb : lay.GoodL b) : lay.GoodL (a ++ b) := by
  intro i hi
  rcases List.mem_append.1 hi with h | h
  · exact ha i h
  · exact hb i h

theorem goodL_nil : lay.GoodL [] := by intro i hi; simp at hi

theorem goodL_ite {p : Prop} [Decidable p] {a b : List Instr} (ha : lay.GoodL a) (hb : lay.GoodL b) :
    lay.GoodL (if p then a else b) := by
  split_ifs <;> assumption

theorem goodL_flatMap {α : Type} {l : List α} {f : α → List Instr} (h : ∀ a ∈ l, lay.GoodL (f a)) : lay.GoodL (l.flatMap f) := by
  intro i hi
  obtain ⟨a, ha, hi⟩ := List.mem_flatMap.1 hi
  exact h a ha i hi

theorem goodL_on {g : Gate} (h : lay.UsesGate g) (h1 : g ≠ .TICK) (h2 : g ≠ .MPP) (h3 : g ≠ .QUBIT_COORDS) (qs : List Nat)
    (h4 : kind g = .clifford2 → lay.isEM3 = false ∧ ∀ x ∈ pairs qs, ∃ k : Int, ∃ e ∈ lay.round_edges k,
      (x.1 = lay.idx e.left ∨ x.1 = lay.idx e.right) ∧ x.2 = lay.idx e.center) (h5 : ∃ d, Draws (.on g qs) d) :
    lay.GoodL [.on g qs] := by
  intro i hi
  rw [List.mem_singleton] at hi
  subst hi
  exact ⟨h, fun h => absurd h h1, fun h => absurd h h2, h3, fun h => by rw [qubits_on]; exact h4 h, fun h => absurd h h2,
    h5⟩

theorem draws_on {g : Gate} (h : (letter1 g).isSome = true) (qs : List Nat) : ∃ d, Draws (.on g qs) d := by
  obtain ⟨c, hc⟩ := Option.isSome_iff_exists.1 h
  exact ⟨_, .single hc qs []⟩

theorem draws_pairs {g : Gate} (h : (letter2 g).isSome = true) {qs : List Nat} (hq : ∃ ps : List (Nat × Nat), qs = ps.flatMap fun p => [p.1, p.2]) :
    ∃ d, Draws (.on g qs) d := by
  obtain ⟨⟨c1, c2⟩, hc⟩ := Option.isSome_iff_exists.1 h
  obtain ⟨ps, rfl⟩ := hq
  refine ⟨.pairs c1 c2 ps, ?_⟩
  have : Instr.on g (ps.flatMap fun p => [p.1, p.2]) = ⟨g, ps.flatMap fun q => [.q q.1, .q q.2], []⟩ := by
    simp [Instr.on, List.map_flatMap]
  rw [this]
  exact .pairs hc ps []

theorem goodL_c1 {g : Gate} (h : kind g = .clifford1) (qs : List Nat) (hl : (letter1 g).isSome = true := by rfl) : lay.GoodL [.on g qs] :=
  goodL_on (Or.inl h) (by rintro rfl; simp [kind] at h) (by rintro rfl; simp [kind] at h)
    (by rintro rfl; simp [kind] at h) qs (by rw [h]; intro h; cases h) (draws_on hl qs)

theorem goodL_R (qs : List Nat) : lay.GoodL [.on .R qs] :=
  goodL_on (Or.inr (Or.inr (Or.inl rfl))) (by decide) (by decide) (by decide) qs (fun h => by cases h) (draws_on rfl qs)

theorem goodL_M (qs : List Nat) : lay.GoodL [.on .M qs] :=
  goodL_on (Or.inr (Or.inr (Or.inr (Or.inl rfl)))) (by decide) (by decide) (by decide) qs (fun h => by cases h) (draws_on rfl qs)

theorem goodL_tick : lay.GoodL [.tick] := by
  intro i hi
  rw [List.mem_singleton] at hi
  subst hi
  exact ⟨Or.inr (Or.inl rfl), fun _ => rfl, fun h => by simp [Instr.tick] at h, by simp [Instr.tick],
    fun h => by simp [Instr.tick, kind] at h, fun h => by simp [Instr.tick] at h, _, .tick [] []⟩

theorem goodL_marks {l : List Instr} (h : ∀ i ∈ l, isMark i = true) : lay.GoodL l := by
  intro i hi
  have := (isMark_iff i).1 (h i hi)
  refine ⟨Or.inr (Or.inl ?_), ?_, ?_, ?_, ?_, ?_, ?_⟩
  · rcases this with h | h | h <;> simp [h, kind]
  · intro ht; rcases this with h | h | h <;> simp [h] at ht
  · intro ht; rcases this with h | h | h <;> simp [h] at ht
  · intro ht; rcases this with h | h | h <;> simp [h] at ht
  · intro ht; rcases this with h | h | h <;> simp [h, kind] at ht
  · intro ht; rcases this with h | h | h <;> simp [h] at ht
  · obtain ⟨g, ts, args⟩ := i
    exact ⟨_, .nothing (by simp only at this; simp only [List.mem_cons]; tauto) ts args⟩

theorem goodL_md (k : Nat) : lay.GoodL (lay.emitMD k) :=
  goodL_append (goodL_ite goodL_nil (goodL_M _)) (goodL_marks (emitAnn_marks k))

theorem goodL_resets (k : Int) : lay.GoodL (lay.subRoundResets k) := goodL_R _

theorem goodL_cycle (a b : Bool) : lay.GoodL (lay.cycleData a b) := by
  cases a <;> cases b <;> first | exact goodL_nil | exact goodL_c1 rfl _

theorem goodL_basisChange (b : Basis) : lay.GoodL (lay.basisChange b) := by
  rw [basisChange]
  split_ifs
  · exact goodL_append (goodL_c1 (by cases b <;> rfl) _ (by cases b <;> simp_all [toZGate, letter1])) goodL_tick
  · exact goodL_nil

theorem pairs_targets {α : Type} (l : List α) (f g : α → Nat) : pairs (l.flatMap fun e => [f e, g e]) = l.map fun e => (f e, g e) := by
  induction l with
  | nil => rfl
  | cons a l ih => simp only [List.flatMap_cons, List.cons_append, List.nil_append, pairs, ih, List.map_cons]

/-- Pairs of a data qubit and the ancilla of an edge that ends there. -/
structure Links (lay : HoneycombLayout) (qs : List Nat) : Prop where
  all : ∀ x ∈ pairs qs, ∃ k : Int, ∃ e ∈ lay.round_edges k, (x.1 = lay.idx e.left ∨ x.1 = lay.idx e.right) ∧ x.2 = lay.idx e.center
  even : ∃ ps : List (Nat × Nat), qs = ps.flatMap fun p => [p.1, p.2]

theorem links_left (k : Int) : lay.Links (lay.leftTargets (lay.round_edges k)) := ⟨fun x hx => by
  rw [leftTargets, pairs_targets] at hx
  obtain ⟨e, he, rfl⟩ := List.mem_map.1 hx
  exact ⟨k, e, he, .inl rfl, rfl⟩, (lay.round_edges k).map fun e => (lay.idx e.left, lay.idx e.center), by rw [leftTargets, List.flatMap_map]⟩

theorem links_right (k : Int) : lay.Links (lay.rightTargets (lay.round_edges k)) := ⟨fun x hx => by
  rw [rightTargets, pairs_targets] at hx
  obtain ⟨e, he, rfl⟩ := List.mem_map.1 hx
  exact ⟨k, e, he, .inr rfl, rfl⟩, (lay.round_edges k).map fun e => (lay.idx e.right, lay.idx e.center), by rw [rightTargets, List.flatMap_map]⟩

theorem goodL_cx (h : lay.style = "SD6") {qs : List Nat} (hl : lay.Links qs) : lay.GoodL [.on .CX qs] :=
  goodL_on (by simp [UsesGate, h]) (by decide) (by decide) (by decide) qs (fun _ => ⟨by simp [isEM3, h], hl.all⟩) (draws_pairs rfl hl.even)

theorem goodL_cz (h : lay.style = "SI1000") {qs : List Nat} (hl : lay.Links qs) : lay.GoodL [.on .CZ qs] :=
  goodL_on (by simp [UsesGate, h]) (by decide) (by decide) (by decide) qs (fun _ => ⟨by simp [isEM3, h], hl.all⟩) (draws_pairs rfl hl.even)

theorem goodL_bcx (h : lay.style = "PC3") (b : Basis) {qs : List Nat} (hl : lay.Links qs) : lay.GoodL [.on (basisCX b) qs] :=
  goodL_on (by cases b <;> simp [UsesGate, h, basisCX, kind]) (by cases b <;> decide) (by cases b <;> decide)
    (by cases b <;> decide) qs (fun _ => ⟨by simp [isEM3, h], hl.all⟩) (draws_pairs (by cases b <;> rfl) hl.even)

theorem goodL_realign : lay.GoodL lay.sd6Realign :=
  goodL_append (goodL_ite (goodL_c1 rfl _) (goodL_ite (goodL_c1 rfl _) goodL_nil)) goodL_tick

theorem goodL_em3 (he : lay.isEM3 = true) (k : Nat) : lay.GoodL (lay.em3Emit k) := by
  refine goodL_append (goodL_append ?_ (goodL_md k)) goodL_tick
  intro i hi
  rw [List.mem_singleton] at hi
  subst hi
  refine ⟨by simp [UsesGate, he], fun h => by simp at h, fun _ => ⟨rfl,
    (lay.round_edges k).map fun e => ((sub_round_edge_basis k, lay.idx e.left), (sub_round_edge_basis k, lay.idx e.right)), ?_⟩,
    by simp, fun h => by simp [kind] at h, fun _ => ⟨he, fun x hx => ?_⟩, ⟨.products ((lay.round_edges k).map fun e =>
      ((sub_round_edge_basis k, lay.idx e.left), (sub_round_edge_basis k, lay.idx e.right))), ?_⟩⟩
  · rw [pairTargets, List.flatMap_map]
  · have : ∀ l : List Edge, (l.flatMap fun e => [Target.pauli (sub_round_edge_basis k) (lay.idx e.left), .comb,
        .pauli (sub_round_edge_basis k) (lay.idx e.right)]).filterMap Target.qubit? = l.flatMap fun e => [lay.idx e.left, lay.idx e.right] := by
      intro l
      induction l with
      | nil => rfl
      | cons e l ih =>
        rw [List.flatMap_cons, List.filterMap_append, ih, List.flatMap_cons]
        rfl
    rw [Instr.qubits] at hx
    dsimp only at hx
    rw [this, pairs_targets] at hx
    obtain ⟨e, hm, rfl⟩ := List.mem_map.1 hx
    exact ⟨k, e, hm, rfl⟩
  · have := Draws.products ((lay.round_edges k).map fun e =>
      ((sub_round_edge_basis k, lay.idx e.left), (sub_round_edge_basis k, lay.idx e.right))) []
    rwa [List.flatMap_map] at this

theorem goodL_allRounds (hs : lay.Supported) (N : Nat) : lay.GoodL (lay.allRounds N) := by
  rcases supported_style hs with ⟨h, he⟩ | ⟨h, he⟩ | ⟨hn1, hn2, he⟩ | ⟨h, he⟩
  · rw [allRounds, if_pos h, sd6All]
    apply goodL_ite
    · exact goodL_append (goodL_append (goodL_append (goodL_append (goodL_append (goodL_append (goodL_append (goodL_append
        (goodL_resets _) (goodL_cycle _ _)) goodL_tick) (goodL_cx h (links_left _))) goodL_tick) (goodL_cx h (links_right _))) goodL_tick) (goodL_md 0))
        goodL_realign
    · refine goodL_append (goodL_append (goodL_append ?_ (goodL_flatMap fun k _ => ?_)) ?_) goodL_realign
      · exact goodL_append (goodL_append (goodL_append (goodL_append (goodL_append (goodL_append (goodL_append
          (goodL_resets _) (goodL_cycle _ _)) goodL_tick) (goodL_cx h (links_left _))) goodL_tick) (goodL_resets _)) (goodL_cycle _ _)) goodL_tick
      · exact goodL_append (goodL_append (goodL_append (goodL_append (goodL_append (goodL_append (goodL_cx h (links_left _)) (goodL_cx h (links_right _)))
          goodL_tick) (goodL_resets _)) (goodL_cycle _ _)) (goodL_md k)) goodL_tick
      · exact goodL_append (goodL_append (goodL_append (goodL_append (goodL_append (goodL_append (goodL_append (goodL_append
          (goodL_append (goodL_cx h (links_left _)) (goodL_cx h (links_right _))) goodL_tick) (goodL_md _)) goodL_tick) (goodL_cycle _ _)) goodL_tick)
          (goodL_cx h (links_right _))) goodL_tick) (goodL_md _)
  · rw [allRounds, if_neg (by rw [h]; decide), if_pos h, pc3All]
    refine goodL_append (goodL_flatMap fun k _ => ?_) (goodL_marks fun i hi => (isMark_iff i).2 (Or.inr (Or.inl (pc3ObsEmit_gate hi))))
    exact goodL_append (goodL_append (goodL_append (goodL_ite (goodL_bcx h _ (links_left _)) goodL_nil) (goodL_ite (goodL_bcx h _ (links_right _)) goodL_nil))
      (goodL_ite (goodL_md _) (goodL_resets _))) goodL_tick
  · rw [allRounds, if_neg hn1, if_neg hn2, if_pos he]
    exact goodL_flatMap fun k _ => goodL_em3 he k
  · rw [allRounds, if_neg (by rw [h]; decide), if_neg (by rw [h]; decide), if_neg (by simp [he])]
    refine goodL_flatMap fun j _ => ?_
    refine goodL_append (goodL_append (goodL_append (goodL_append (goodL_append
      (goodL_ite (goodL_append (goodL_R _) goodL_tick) goodL_nil)
      (goodL_append (goodL_c1 rfl _) (goodL_append (goodL_c1 rfl _) goodL_tick)))
      (goodL_flatMap fun r _ => ?_)) (goodL_append (goodL_c1 rfl _) goodL_tick)) (goodL_flatMap fun i _ => goodL_md _)) goodL_tick
    exact goodL_append (goodL_append (goodL_append (goodL_c1 (g := .C_ZYX) rfl _) (goodL_append (goodL_cz h (links_left _)) goodL_tick))
      (goodL_ite (goodL_c1 rfl _) goodL_nil)) (goodL_append (goodL_cz h (links_right _)) goodL_tick)

theorem GoodR.good {i : Instr} (h : lay.GoodR i) : lay.GoodI i := ⟨h.gate, h.tick, h.mpp, fun e => absurd e h.notCoords, h.link, h.bond⟩

/-- What comes after the coordinates. -/
theorem goodL_rest (hs : lay.Supported) (N : Nat) : lay.GoodL ([.on .R lay.used_qubit_indices, .tick] ++ lay.basisChange (lay.obsAt 0).1 ++ lay.allRounds N ++
    (lay.basisChange (lay.obsAt N).1 ++ [.on .M lay.data_qubit_indices] ++ lay.emitFinal N N)) :=
  goodL_append (goodL_append (goodL_append (goodL_append (goodL_R _) goodL_tick) (goodL_basisChange _))
    (goodL_allRounds hs N)) (goodL_append (goodL_append (goodL_basisChange _) (goodL_M _)) (goodL_marks fun i hi =>
      (isMark_iff i).2 ((emitFinal_gate hi).imp_right Or.inl)))

theorem goodL_closed (hs : lay.Supported) (N : Nat) : ∀ i ∈ lay.closedCircuit N, lay.GoodI i := by
  intro i hi
  rw [closedCircuit, List.append_assoc, List.append_assoc] at hi
  rcases List.mem_append.1 hi with hi | hi
  · have hi' := hi
    obtain ⟨q, _, rfl⟩ := List.mem_map.1 hi
    exact ⟨Or.inr (Or.inl rfl), fun h => by simp at h, fun h => by simp at h, fun _ => hi', fun h => by simp [kind] at h, fun h => by simp at h⟩
  · rw [← List.append_assoc] at hi
    exact (goodL_rest hs N i hi).good

theorem usesGate_notNoise {g : Gate} (h : lay.UsesGate g) : isNoise g = false := by
  cases g <;> simp_all [UsesGate, kind, isNoise]

/-- The noise model of a supported style. -/
theorem noise_model_ok (hs : lay.Supported) :
    ∃ nm, lay.noise_model = .ok nm ∧ nm ∈ predefined lay.noise ∧ ∀ g, lay.UsesGate g → nm.rate g ≠ none := by
  rcases hs.1 with h | h | h | h | h
  · refine ⟨.SD6 lay.noise, by simp [noise_model, h], by simp [predefined], fun g hg => ?_⟩
    rw [(c29_supported lay.noise g).1]
    simp [UsesGate, h, isEM3] at hg
    tauto
  · refine ⟨.PC3 lay.noise, by simp [noise_model, h], by simp [predefined], fun g hg => ?_⟩
    rw [(c29_supported lay.noise g).2.1]
    simp [UsesGate, h, isEM3] at hg
    tauto
  · refine ⟨.EM3_v1 lay.noise, by simp [noise_model, h], by simp [predefined], fun g hg => ?_⟩
    rw [(c29_supported lay.noise g).2.2.1]
    simp [UsesGate, h, isEM3] at hg
    tauto
  · refine ⟨.EM3_v2 lay.noise, by simp [noise_model, h], by simp [predefined], fun g hg => ?_⟩
    rw [(c29_supported lay.noise g).2.2.2.1]
    simp [UsesGate, h, isEM3] at hg
    tauto
  · refine ⟨.SI1000 lay.noise, by simp [noise_model, h], by simp [predefined], fun g hg => ?_⟩
    rw [(c29_supported lay.noise g).2.2.2.2]
    simp [UsesGate, h, isEM3] at hg
    tauto

/-- Everything about a generated circuit, before and after noise. -/
theorem makeCircuit_ok (hv : lay.Valid) (hs : lay.Supported) {N : Nat} (hN : lay.sub_rounds = N) :
    ∃ c nm d, lay.generateNoiseless = .ok c ∧ c.flatten = lay.closedCircuit N ∧
      (c.Shape fun r l => 2 ≤ r ∧ (lay.isEM3 = true → ∃ k, l = (List.range 3).flatMap fun j => lay.em3Emit (k + j))) ∧
      (∀ i ∈ c.ops, lay.GoodI i) ∧ Noiseless c ∧ TickOK c ∧ PairMPP c ∧ c.Normal ∧
      lay.noise_model = .ok nm ∧ nm ∈ predefined lay.noise ∧ (∀ i ∈ c.ops, nm.rate i.gate ≠ none) ∧
      nm.noisyCircuit c = .ok d ∧ lay.makeCircuit = .ok d := by
  obtain ⟨c, hc, hf, hsh⟩ := generateNoiseless_closed hv hs hN
  have hsh2 : c.Shape fun r _ => 2 ≤ r := Shape.mono (fun _ _ h => h.1) hsh
  have hg : ∀ i ∈ c.ops, lay.GoodI i := fun i hi => goodL_closed hs N i (hf ▸ Circuit.ops_flatten hsh2 hi)
  obtain ⟨nm, hnm, hp, hr⟩ := noise_model_ok hs
  have hno : Noiseless c := fun i hi => ⟨usesGate_notNoise (hg i hi).gate, fun h => ((hg i hi).mpp h).1⟩
  have hpm : PairMPP c := fun i hi h => ((hg i hi).mpp h).2
  have hr' : ∀ i ∈ c.ops, nm.rate i.gate ≠ none := fun i hi => hr _ (hg i hi).gate
  obtain ⟨d, hd⟩ := (c29_refused nm (predefined_sensible _ _ hp) c none hpm hno).2.2 hr'
  refine ⟨c, nm, d, hc, hf, hsh, hg, hno, fun i hi => (hg i hi).tick, hpm, Circuit.shape_normal hsh2, hnm, hp, hr', hd, ?_⟩
  simp only [makeCircuit, hc, hnm, hd, bind, Except.bind]

end HoneycombLayout
end Honeycomb
