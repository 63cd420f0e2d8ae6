import Verif.Lemmas.CircuitPlot4

/-!
# C82: `plot_circuit` shows the circuit
-/

namespace Honeycomb
open PyDict

/-- What `plot_circuit` looks at. -/
def plottedInstrs (c : Circuit) (only_repeat_block : Bool) : List Instr := if only_repeat_block then onePassOfBlocks c else c.flatten

theorem iter_plotted (c : Circuit) (only : Bool) : iterCircuit c 1 (if only then 1 else 0) = plottedInstrs c only := by
  cases only with
  | true => exact c57_only_blocks c
  | false =>
    have := c57_unrolled c 1 0 (le_refl _)
    simpa [plottedInstrs] using this

/-- C82: a circuit that starts with the coordinates of its qubits (all different) and goes on with instructions that can be drawn, at
most one on each qubit between two `TICK`s and only on qubits with coordinates, gets a diagram that shows it. -/
theorem c82_diagram (c : Circuit) (only_repeat_block : Bool) (coords : List (Nat × Nat × Nat)) (rest : List Instr) (ds : List Drawing)
    (hc : plottedInstrs c only_repeat_block = coords.map coordsInstr ++ rest) (hd : List.Forall₂ Draws rest ds)
    (hq : (coords.map Prod.fst).Nodup) (hp : (coords.map Prod.snd).Nodup)
    (hf : ∀ level ∈ splitLevels ds, ((lettersOf level).map Prod.fst).Nodup ∧ ∀ e ∈ lettersOf level, e.1 ∈ coords.map Prod.fst)
    (hne : coords ≠ []) (hs : shownLevels ds ≠ []) :
    ∃ s, plotCircuit c only_repeat_block = .ok s ∧ IsDiagram coords ds s := by
  have h : GoodCoords coords := ⟨hq, hp⟩
  have hf' : ∀ l ∈ splitLevels ds, Fits coords (lettersOf l) := fun l hl => ⟨(hf l hl).2, (hf l hl).1⟩
  obtain ⟨st, e1, e2, e3, e4⟩ := collected h hd hf'
  have hC : coords.map Prod.snd ≠ [] := by simpa using hne
  obtain ⟨x0, x1, y0, y1, hb⟩ := exists_borders hC
  have hlen : (fullLevels coords ds).length = (shownLevels ds).length := by simp [fullLevels]
  have hv : fullLevels coords ds ≠ [] := by simpa [fullLevels] using hs
  obtain ⟨P, hP, hproj⟩ := projectLevels_eq hb (levelsOver h hf') hv
  set n := (shownLevels ds).length with hn
  have hlevels : plotLevels c only_repeat_block = .ok (fullLevels coords ds, fullLinks coords ds) := by
    rw [plotLevels, iter_plotted, hc, e1]
    simp only [bind, Except.bind, pure, Except.pure, e2, e3, e4, List.map_map]
    rfl
  have hat : ∀ {z : Nat} {l : List Drawing}, (shownLevels ds)[z]? = some l →
      (fullLevels coords ds)[z]? = some (fillLevel (coords.map fun c => cx c.2) (placed coords (lettersOf l))) := by
    intro z l hz
    rw [fullLevels, List.getElem?_map, hz]
    rfl
  have hatl : ∀ {z : Nat} {l : List Drawing}, (shownLevels ds)[z]? = some l → (fullLinks coords ds)[z]? = some (linked coords (linksOf l)) := by
    intro z l hz
    rw [fullLinks, List.getElem?_map, hz]
    rfl
  have hsym : ∀ {z : Nat} {l : List Drawing}, (shownLevels ds)[z]? = some l → ∀ {q : Nat} {p : Nat × Nat}, (q, p) ∈ coords →
      P.get? (place n z p) = some (letterAt l q) := by
    intro z l hz q p hm
    have := hproj.symbol z _ (hat hz) p (List.mem_map_of_mem (f := Prod.snd) hm)
    rw [hlen] at this
    rw [this]
    exact full_get h (hf' l (shown_mem (List.mem_of_getElem? hz))) hm
  have hother : ∀ k c, P.get? k = some c →
      (∃ (z : Nat) (l : List Drawing) (q : Nat) (p : Nat × Nat), (shownLevels ds)[z]? = some l ∧ (q, p) ∈ coords ∧ c = letterAt l q ∧ k = place n z p) ∨
      ((IsLine c ∨ c = '~') ∧ 0 ≤ k.1 ∧ 0 ≤ k.2) := by
    intro k c hk
    rcases hproj.other k c hk with ⟨z, vs, p, hp', hz, hg, e⟩ | h1
    · left
      rw [fullLevels, List.getElem?_map, Option.map_eq_some_iff] at hz
      obtain ⟨l, hz, rfl⟩ := hz
      obtain ⟨⟨q, p'⟩, hm, rfl⟩ := List.mem_map.1 hp'
      rw [full_get h (hf' l (shown_mem (List.mem_of_getElem? hz))) hm] at hg
      refine ⟨z, l, q, p', hz, hm, (Option.some.inj hg).symm, ?_⟩
      rw [e, hlen]
    · exact Or.inr h1
  have hnonneg : ∀ e ∈ P, 0 ≤ e.1.1 ∧ 0 ≤ e.1.2 ∧ ¬ Blank e.2 := by
    intro e he
    rcases hother e.1 e.2 (get?_of_mem hproj.nodup he) with ⟨z, l, q, p, hz, _, h1, h2⟩ | ⟨h1, h2, h3⟩
    · rw [h2, h1]
      exact ⟨by simp [place], by simp [place], letterAt_solid hd (shown_mem (List.mem_of_getElem? hz)) q⟩
    · refine ⟨h2, h3, ?_⟩
      rcases h1 with h1 | h1
      · simp only [IsLine, List.mem_cons, List.not_mem_nil, or_false] at h1
        rcases h1 with h1 | h1 | h1 | h1 <;> rw [h1] <;> exact blank_ascii (by decide) (by decide)
      · rw [h1]; exact blank_ascii (by decide) (by decide)
  set cells : List ((Nat × Nat) × Char) := P.map fun e => ((e.1.1.toNat, e.1.2.toNat), e.2) with hcells
  have hcn : (cells.map Prod.fst).Nodup := by
    rw [hcells, List.map_map]
    have : (Prod.fst ∘ fun e : (Int × Int) × Char => ((e.1.1.toNat, e.1.2.toNat), e.2)) = (fun k : Int × Int => (k.1.toNat, k.2.toNat)) ∘ Prod.fst := rfl
    rw [this, ← List.map_map]
    refine List.Nodup.map_on (fun a ha b hb' hab => ?_) hproj.nodup
    obtain ⟨e, he, rfl⟩ := List.mem_map.1 ha
    obtain ⟨e', he', rfl⟩ := List.mem_map.1 hb'
    have h1 := hnonneg e he
    have h2 := hnonneg e' he'
    simp only [Prod.mk.injEq] at hab
    exact Prod.ext (by omega) (by omega)
  obtain ⟨s, hs1, hs2, hs3, hs4⟩ := c58_characters cells hcn (by
    intro e he
    obtain ⟨e', he', rfl⟩ := List.mem_map.1 he
    exact (hnonneg e' he').2.2)
  have hseen : ∀ (x y : Nat) (c : Char), P.get? ((x : Int), (y : Int)) = some c → seenAt s x y = c := by
    intro x y c hg
    exact hs3 x y c (List.mem_map.2 ⟨_, mem_of_get? hg, by simp⟩)
  have hfill : ∀ (x y : Nat), P.get? ((x : Int), (y : Int)) ≠ none → seenAt s x y ≠ ' ' := by
    intro x y hg
    obtain ⟨c, hc'⟩ := Option.ne_none_iff_exists'.1 hg
    rw [hseen x y c hc']
    have := (hnonneg _ (mem_of_get? hc')).2.2
    exact fun e => this (Or.inl e)
  refine ⟨s, ?_, ?_, ?_, ?_, ?_, ?_, ?_, hs2⟩
  · rw [plotCircuit, hlevels]
    simp only [bind, Except.bind]
    rw [diagram3d, hP]
    simp only [bind, Except.bind]
    rw [← hs1, hcells, List.map_map]
    congr 1
    refine List.map_congr_left fun e he => ?_
    have := hnonneg e he
    simp only [Function.comp]
    rw [Int.toNat_of_nonneg this.1, Int.toNat_of_nonneg this.2.1]
  · intro z l hz q x y hm
    exact hseen _ _ _ (hsym hz hm)
  · intro col ln hfree
    by_cases hg : ∃ c, ((col, ln), c) ∈ cells
    · obtain ⟨c, hc'⟩ := hg
      rw [hs3 col ln c hc']
      obtain ⟨e, he, h1⟩ := List.mem_map.1 hc'
      have hnn := hnonneg e he
      simp only [Prod.mk.injEq] at h1
      rcases hother e.1 e.2 (get?_of_mem hproj.nodup he) with ⟨z, l, q, p, hz, hm, _, h3⟩ | ⟨h2, _⟩
      · exfalso
        refine hfree z (List.getElem?_eq_some_iff.1 hz).1 q p.1 p.2 hm ?_
        rw [h3] at h1
        simp only [place, Int.toNat_natCast] at h1
        exact ⟨h1.1.1.symm, h1.1.2.symm⟩
      · rw [h1.2] at h2
        simp only [IsLine, List.mem_cons, List.not_mem_nil, or_false] at h2 ⊢
        tauto
    · rw [hs4 col ln fun c hc' => hg ⟨c, hc'⟩]
      simp
  all_goals
    intro z l hz
    have hlink : ∀ {p q : Nat × Nat}, LinkedAt coords l p q → ∃ p' q', ((p' = p ∧ q' = q) ∨ (p' = q ∧ q' = p)) ∧
        p' ∈ coords.map Prod.snd ∧ q' ∈ coords.map Prod.snd ∧ (cx p', cx q') ∈ linked coords (linksOf l) := by
      rintro p q ⟨a, b, h1, ha, hb'⟩
      have hpa := List.mem_map_of_mem (f := Prod.snd) ha
      have hpb := List.mem_map_of_mem (f := Prod.snd) hb'
      rcases h1 with h1 | h1
      · refine ⟨p, q, Or.inl ⟨rfl, rfl⟩, hpa, hpb, List.mem_map.2 ⟨_, h1, ?_⟩⟩
        simp only [posOf_eq h ha, posOf_eq h hb']
      · refine ⟨q, p, Or.inr ⟨rfl, rfl⟩, hpb, hpa, List.mem_map.2 ⟨_, h1, ?_⟩⟩
        simp only [posOf_eq h ha, posOf_eq h hb']
    have hline := hproj.line z _ (hatl hz)
    have hmark := hproj.mark z _ (hatl hz)
    rw [hlen] at hline hmark
    simp only [plotConnector_nat] at hline hmark
    have hins : ∀ p ∈ coords.map Prod.snd, x0 ≤ p.1 ∧ p.1 ≤ x1 ∧ y0 ≤ p.2 ∧ p.2 ≤ y1 := hb.inside
    have hins' : ∀ c ∈ coords, x0 ≤ c.2.1 ∧ c.2.1 ≤ x1 ∧ y0 ≤ c.2.2 ∧ c.2.2 ≤ y1 := fun c hc => hins c.2 (List.mem_map_of_mem hc)
    have hx0 : ∃ c ∈ coords, c.2.1 = x0 := by
      obtain ⟨p, hp', e⟩ := hb.x0_mem
      obtain ⟨c, hc', rfl⟩ := List.mem_map.1 hp'
      exact ⟨c, hc', e⟩
    have hx1 : ∃ c ∈ coords, c.2.1 = x1 := by
      obtain ⟨p, hp', e⟩ := hb.x1_mem
      obtain ⟨c, hc', rfl⟩ := List.mem_map.1 hp'
      exact ⟨c, hc', e⟩
    have hy0 : ∃ c ∈ coords, c.2.2 = y0 := by
      obtain ⟨p, hp', e⟩ := hb.y0_mem
      obtain ⟨c, hc', rfl⟩ := List.mem_map.1 hp'
      exact ⟨c, hc', e⟩
    have hy1 : ∃ c ∈ coords, c.2.2 = y1 := by
      obtain ⟨p, hp', e⟩ := hb.y1_mem
      obtain ⟨c, hc', rfl⟩ := List.mem_map.1 hp'
      exact ⟨c, hc', e⟩
  · -- the same y
    intro a b y hab hL hin hout ln h1 h2
    simp only [← hn] at h1 h2
    obtain ⟨p', q', hpq, hp', hq', hm⟩ := hlink hL
    have hno1 : ¬ (min p'.1 q'.1 = x0 ∧ max p'.1 q'.1 = x1) := by
      rintro ⟨m1, m2⟩
      obtain ⟨c, hc', hlt⟩ := hin
      have := hins' c hc'
      rcases hpq with ⟨rfl, rfl⟩ | ⟨rfl, rfl⟩ <;> simp only at m1 m2 <;> omega
    have hno2 : ¬ (min p'.2 q'.2 = y0 ∧ max p'.2 q'.2 = y1) := by
      rintro ⟨m1, m2⟩
      obtain ⟨c, hc', hne'⟩ := hout
      have := hins' c hc'
      rcases hpq with ⟨rfl, rfl⟩ | ⟨rfl, rfl⟩ <;> simp only at m1 m2 <;> omega
    have := hline p' hp' q' hq' hm
    rw [if_neg hno1, if_neg hno2] at this
    refine hfill _ _ (this _ (List.mem_singleton.2 rfl) _ (Or.inl ?_))
    rcases hpq with ⟨rfl, rfl⟩ | ⟨rfl, rfl⟩ <;> refine ⟨rfl, rfl, ?_, ?_⟩ <;> simp only <;> omega
  · -- the same x
    intro x a b hab hL hin hout col h1 h2
    simp only [← hn] at h1 h2
    obtain ⟨p', q', hpq, hp', hq', hm⟩ := hlink hL
    have hno1 : ¬ (min p'.1 q'.1 = x0 ∧ max p'.1 q'.1 = x1) := by
      rintro ⟨m1, m2⟩
      obtain ⟨c, hc', hne'⟩ := hout
      have := hins' c hc'
      rcases hpq with ⟨rfl, rfl⟩ | ⟨rfl, rfl⟩ <;> simp only at m1 m2 <;> omega
    have hno2 : ¬ (min p'.2 q'.2 = y0 ∧ max p'.2 q'.2 = y1) := by
      rintro ⟨m1, m2⟩
      obtain ⟨c, hc', hlt⟩ := hin
      have := hins' c hc'
      rcases hpq with ⟨rfl, rfl⟩ | ⟨rfl, rfl⟩ <;> simp only at m1 m2 <;> omega
    have := hline p' hp' q' hq' hm
    rw [if_neg hno1, if_neg hno2] at this
    refine hfill _ _ (this _ (List.mem_singleton.2 rfl) _ (Or.inr ?_))
    rcases hpq with ⟨rfl, rfl⟩ | ⟨rfl, rfl⟩ <;> refine ⟨rfl, rfl, ?_, ?_⟩ <;> simp only <;> omega
  · -- opposite borders, the same y
    intro a b y hab hL hin
    obtain ⟨p', q', hpq, hp', hq', hm⟩ := hlink hL
    have ea : a = x0 := by
      obtain ⟨c, hc', e⟩ := hx0
      have := hin c hc'
      have := hins p' hp'
      have := hins q' hq'
      rcases hpq with ⟨rfl, rfl⟩ | ⟨rfl, rfl⟩ <;> simp only at * <;> omega
    have eb : b = x1 := by
      obtain ⟨c, hc', e⟩ := hx1
      have := hin c hc'
      have := hins p' hp'
      have := hins q' hq'
      rcases hpq with ⟨rfl, rfl⟩ | ⟨rfl, rfl⟩ <;> simp only at * <;> omega
    have hyes : min p'.1 q'.1 = x0 ∧ max p'.1 q'.1 = x1 := by
      rcases hpq with ⟨rfl, rfl⟩ | ⟨rfl, rfl⟩ <;> simp only <;> omega
    have e2' : p'.2 = y ∧ q'.2 = y := by rcases hpq with ⟨rfl, rfl⟩ | ⟨rfl, rfl⟩ <;> exact ⟨rfl, rfl⟩
    have hl := hline p' hp' q' hq' hm
    have hk := hmark p' hp' q' hq' hm
    rw [if_pos hyes, e2'.1, e2'.2] at hl hk
    have hup := up_lt n x0 z
    have hdown := lt_down n x1 z
    rw [ea, eb]
    refine ⟨upRow n x0 z, downRow n x1 z, hup, hdown, ?_, ?_, hseen _ _ _ (hk _ List.mem_cons_self), hseen _ _ _ (hk _ (List.mem_cons_of_mem _ (List.mem_singleton.2 rfl)))⟩
    · intro ln h1 h2
      simp only [← hn] at h1 h2
      refine hfill _ _ (hl _ List.mem_cons_self _ (Or.inl ⟨rfl, rfl, ?_, ?_⟩)) <;> simp only <;> omega
    · intro ln h1 h2
      simp only [← hn] at h1 h2
      refine hfill _ _ (hl _ (List.mem_cons_of_mem _ (List.mem_singleton.2 rfl)) _ (Or.inl ⟨rfl, rfl, ?_, ?_⟩)) <;> simp only <;> omega
  · -- opposite borders, the same x
    intro x a b hab hL hin hout
    obtain ⟨p', q', hpq, hp', hq', hm⟩ := hlink hL
    have ea : a = y0 := by
      obtain ⟨c, hc', e⟩ := hy0
      have := hin c hc'
      have := hins p' hp'
      have := hins q' hq'
      rcases hpq with ⟨rfl, rfl⟩ | ⟨rfl, rfl⟩ <;> simp only at * <;> omega
    have eb : b = y1 := by
      obtain ⟨c, hc', e⟩ := hy1
      have := hin c hc'
      have := hins p' hp'
      have := hins q' hq'
      rcases hpq with ⟨rfl, rfl⟩ | ⟨rfl, rfl⟩ <;> simp only at * <;> omega
    have hno1 : ¬ (min p'.1 q'.1 = x0 ∧ max p'.1 q'.1 = x1) := by
      rintro ⟨m1, m2⟩
      obtain ⟨c, hc', hne'⟩ := hout
      have := hins' c hc'
      rcases hpq with ⟨rfl, rfl⟩ | ⟨rfl, rfl⟩ <;> simp only at m1 m2 <;> omega
    have hyes : min p'.2 q'.2 = y0 ∧ max p'.2 q'.2 = y1 := by
      rcases hpq with ⟨rfl, rfl⟩ | ⟨rfl, rfl⟩ <;> simp only <;> omega
    have e2' : p'.1 = x ∧ q'.1 = x := by rcases hpq with ⟨rfl, rfl⟩ | ⟨rfl, rfl⟩ <;> exact ⟨rfl, rfl⟩
    have hl := hline p' hp' q' hq' hm
    have hk := hmark p' hp' q' hq' hm
    rw [if_neg hno1, if_pos hyes, e2'.1, e2'.2] at hl hk
    have hleft := left_lt n y0 z
    have hright := lt_right n y1 z
    rw [ea, eb]
    refine ⟨leftCol n y0 z, rightCol n y1 z, hleft, hright, ?_, ?_, hseen _ _ _ (hk _ List.mem_cons_self), hseen _ _ _ (hk _ (List.mem_cons_of_mem _ (List.mem_singleton.2 rfl)))⟩
    · intro col h1 h2
      simp only [← hn] at h1 h2
      refine hfill _ _ (hl _ List.mem_cons_self _ (Or.inr ⟨rfl, rfl, ?_, ?_⟩)) <;> simp only <;> omega
    · intro col h1 h2
      simp only [← hn] at h1 h2
      refine hfill _ _ (hl _ (List.mem_cons_of_mem _ (List.mem_singleton.2 rfl)) _ (Or.inr ⟨rfl, rfl, ?_, ?_⟩)) <;> simp only <;> omega

/-- Four qubits on a square, a controlled operation along each side, and a parity measurement. -/
def squareCoords : List (Nat × Nat × Nat) := [(0, 0, 0), (1, 0, 1), (2, 1, 0), (3, 1, 1), (4, 2, 0)]

def squareRest : List Instr :=
  [⟨.R, [.q 0, .q 1], []⟩, ⟨.TICK, [], []⟩, ⟨.CX, [.q 0, .q 1, .q 4, .q 2], []⟩, ⟨.DEPOLARIZE2, [.q 0, .q 1], [.lit (1 / 1000)]⟩, ⟨.TICK, [], []⟩,
   ⟨.MPP, [.pauli .X 0, .comb, .pauli .Z 4], []⟩, ⟨.H_YZ, [.q 3], []⟩]

def squareDrawing : List Drawing :=
  [.single 'R' [0, 1], .tick, .pairs '@' 'X' [(0, 1), (4, 2)], .nothing, .tick, .products [((.X, 0), (.Z, 4))], .single 'G' [3]]

/-- The hypotheses of `c82_diagram` hold for it: two links that are drawn, one that leads over the border. -/
example : ∃ s, plotCircuit (Circuit.ofList (squareCoords.map coordsInstr ++ squareRest)) false = .ok s ∧ IsDiagram squareCoords squareDrawing s := by
  refine c82_diagram _ false squareCoords squareRest squareDrawing ?_ ?_ (by decide) (by decide) (by decide) (by decide) (by decide)
  · rfl
  · refine .cons (.single (by rfl) [0, 1] []) (.cons (.tick _ _) (.cons (.pairs (by rfl) [(0, 1), (4, 2)] _) (.cons (.nothing (by decide) _ _)
      (.cons (.tick _ _) (.cons (.products [((.X, 0), (.Z, 4))] _) (.cons (.single (by rfl) [3] []) .nil))))))

/-! ## Products that cannot be drawn -/

/-- The targets of a measured product: its factors, joined with `*`. -/
def productTargets (g : List (Basis × Nat)) : List Target := (g.map fun f => Target.pauli f.1 f.2).intersperse .comb

theorem product_fold (g : List (Basis × Nat)) (hg : g ≠ []) (first : List Target) (G : List (List Target)) :
    (productTargets g).foldlM plotGroupStep (first :: G) = .ok ([] :: (first ++ g.map fun f => Target.pauli f.1 f.2) :: G) := by
  induction g generalizing first with
  | nil => exact absurd rfl hg
  | cons f g ih =>
    cases g with
    | nil => rfl
    | cons f2 g =>
      have h := ih (by simp) (first ++ [Target.pauli f.1 f.2])
      rw [productTargets, List.map_cons, List.map_cons, List.intersperse_cons_cons, List.foldlM_cons]
      rw [productTargets, List.map_cons] at h
      show List.foldlM plotGroupStep ([] :: (first ++ [Target.pauli f.1 f.2]) :: G) (Target.comb :: _) = _
      rw [List.foldlM_cons]
      refine (show _ = _ from h).trans ?_
      simp

theorem products_fold (gs : List (List (Basis × Nat))) (hg : ∀ g ∈ gs, g ≠ []) (G : List (List Target)) :
    (gs.flatMap productTargets).foldlM plotGroupStep ([] :: G) =
      .ok ([] :: ((gs.map fun g => g.map fun f => Target.pauli f.1 f.2).reverse ++ G)) := by
  induction gs generalizing G with
  | nil => rfl
  | cons g gs ih =>
    rw [List.flatMap_cons, List.foldlM_append, product_fold g (hg g (by simp))]
    simp only [bind, Except.bind, List.nil_append]
    rw [ih fun g' h' => hg g' (by simp [h'])]
    simp

theorem foldlM_ok_mem {α β : Type} {f : β → α → Except PyErr β} {l : List α} {s t : β} (h : l.foldlM f s = .ok t) {a : α} (ha : a ∈ l) :
    ∃ s' t', f s' a = .ok t' := by
  induction l generalizing s with
  | nil => simp at ha
  | cons b l ih =>
    rw [List.foldlM_cons] at h
    cases hb : f s b with
    | error e => rw [hb] at h; cases h
    | ok s1 =>
      rw [hb] at h
      rcases List.mem_cons.1 ha with rfl | ha
      · exact ⟨s, s1, hb⟩
      · exact ih h ha

/-- C82: a diagram is never drawn wrong for a product of three or more factors, which it could not show: plot_circuit raises an exception
for every circuit in which such a product is measured. -/
theorem c82_long_product (c : Circuit) (only_repeat_block : Bool) (gs : List (List (Basis × Nat))) (args : List Arg)
    (hc : (⟨.MPP, gs.flatMap productTargets, args⟩ : Instr) ∈ plottedInstrs c only_repeat_block) (hne : ∀ g ∈ gs, g ≠ [])
    (g : List (Basis × Nat)) (hg : g ∈ gs) (h3 : 3 ≤ g.length) : ∃ e, plotCircuit c only_repeat_block = .error e := by
  cases hp : plotCircuit c only_repeat_block with
  | error e => exact ⟨e, rfl⟩
  | ok s =>
    exfalso
    rw [plotCircuit, plotLevels, iter_plotted] at hp
    cases hf : (plottedInstrs c only_repeat_block).foldlM PlotState.step {} with
    | error e => rw [hf] at hp; cases hp
    | ok st =>
      obtain ⟨s1, s2, hs⟩ := foldlM_ok_mem hf hc
      have e : PlotState.step s1 ⟨.MPP, gs.flatMap productTargets, args⟩ =
        (plotGroupsOf (gs.flatMap productTargets)).bind fun groups => groups.foldlM PlotState.plotProduct s1 := rfl
      have e2 : plotGroupsOf (gs.flatMap productTargets) = .ok (gs.map fun g => g.map fun f => Target.pauli f.1 f.2) := by
        rw [plotGroupsOf, products_fold gs hne]
        simp [bind, Except.bind, pure, Except.pure]
      rw [e, e2] at hs
      obtain ⟨s3, s4, h⟩ := foldlM_ok_mem (show List.foldlM _ _ _ = _ from hs) (List.mem_map.2 ⟨g, hg, rfl⟩)
      rw [PlotState.plotProduct, if_pos (by rw [List.length_map]; omega)] at h
      cases h

example : ∃ e, plotCircuit (Circuit.ofList (squareCoords.map coordsInstr ++
    [⟨.MPP, [[(Basis.X, 0), (.Y, 1)], [(.X, 0), (.X, 1), (.Z, 2)]].flatMap productTargets, []⟩])) false = .error e := by
  refine c82_long_product _ false [[(Basis.X, 0), (.Y, 1)], [(.X, 0), (.X, 1), (.Z, 2)]] [] ?_ (by simp) [(.X, 0), (.X, 1), (.Z, 2)] (by simp) (by decide)
  rw [plottedInstrs, if_neg (by decide), Circuit.flatten_ofList]
  simp

end Honeycomb
