import Verif.Spec.Diagram
import Verif.Spec.Steps

/-!
# Specification of circuit diagrams (C82–C84)

A diagram has one level per time step. Level `z` of `n` shows the qubit at the coordinates `(x, y / 2)` in column
`(y + 2) * (n + 3) + z` of line `(x + 1) * (n + 2) + z`.
-/

namespace Honeycomb

/-- The letters of the operations on single qubits. -/
def letter1 : Gate → Option Char
  | .R => some 'R'
  | .M => some 'M'
  | .MX => some 'm'
  | .MY => some 'm'
  | .H => some 'H'
  | .H_YZ => some 'G'
  | .C_XYZ => some 'C'
  | .C_ZYX => some 'C'
  | _ => none

/-- The letters of a controlled operation: `@` for the control of `CX`, `CY`, `CZ`, otherwise the axes. -/
def letter2 : Gate → Option (Char × Char)
  | .CX => some ('@', 'X')
  | .CY => some ('@', 'Y')
  | .CZ => some ('@', 'Z')
  | .XCX => some ('X', 'X')
  | .XCY => some ('X', 'Y')
  | .XCZ => some ('X', 'Z')
  | .YCX => some ('Y', 'X')
  | .YCY => some ('Y', 'Y')
  | .YCZ => some ('Y', 'Z')
  | _ => none

/-- The letter of a factor of a measured Pauli product. -/
def letterOf : Basis → Char
  | .X => 'x'
  | .Y => 'y'
  | .Z => 'z'

/-- The operations that a diagram can show, with the qubits they act on. -/
inductive Drawing where
  | single (c : Char) (qs : List Nat)
  | pairs (c1 c2 : Char) (qs : List (Nat × Nat))
  | products (ps : List ((Basis × Nat) × (Basis × Nat)))
  | tick
  | nothing

/-- Which instruction is drawn how. -/
inductive Draws : Instr → Drawing → Prop
  | single {g c} (h : letter1 g = some c) (qs : List Nat) (args) : Draws ⟨g, qs.map .q, args⟩ (.single c qs)
  | pairs {g c1 c2} (h : letter2 g = some (c1, c2)) (qs : List (Nat × Nat)) (args) :
      Draws ⟨g, qs.flatMap fun q => [.q q.1, .q q.2], args⟩ (.pairs c1 c2 qs)
  | products (ps : List ((Basis × Nat) × (Basis × Nat))) (args) :
      Draws ⟨.MPP, ps.flatMap fun p => [.pauli p.1.1 p.1.2, .comb, .pauli p.2.1 p.2.2], args⟩ (.products ps)
  | tick (ts args) : Draws ⟨.TICK, ts, args⟩ .tick
  | nothing {g} (h : g ∈ [Gate.DETECTOR, .OBSERVABLE_INCLUDE, .SHIFT_COORDS, .X_ERROR, .DEPOLARIZE1, .DEPOLARIZE2]) (ts args) :
      Draws ⟨g, ts, args⟩ .nothing

/-- The letters of a drawing, with their qubits. -/
def Drawing.letters : Drawing → List (Nat × Char)
  | .single c qs => qs.map fun q => (q, c)
  | .pairs c1 c2 qs => qs.flatMap fun q => [(q.1, c1), (q.2, c2)]
  | .products ps => ps.flatMap fun p => [(p.1.2, letterOf p.1.1), (p.2.2, letterOf p.2.1)]
  | .tick => []
  | .nothing => []

/-- The pairs of qubits that a drawing connects. -/
def Drawing.links : Drawing → List (Nat × Nat)
  | .pairs _ _ qs => qs
  | .products ps => ps.map fun p => (p.1.2, p.2.2)
  | _ => []

/-- The levels of a sequence of drawings: what is drawn between two ticks. -/
def splitLevels : List Drawing → List (List Drawing)
  | [] => [[]]
  | .tick :: ds => [] :: splitLevels ds
  | d :: ds =>
    match splitLevels ds with
    | l :: ls => (d :: l) :: ls
    | [] => [[d]]

/-- All letters of a level. -/
def lettersOf (level : List Drawing) : List (Nat × Char) := level.flatMap Drawing.letters

/-- All links of a level. -/
def linksOf (level : List Drawing) : List (Nat × Nat) := level.flatMap Drawing.links

/-- The levels that are shown: all of them, except for the last one if it has no letters. -/
def shownLevels (ds : List Drawing) : List (List Drawing) :=
  let ls := splitLevels ds
  if lettersOf (ls.getLast?.getD []) = [] then ls.dropLast else ls

/-- The character of a qubit on a level: a backslash if nothing happens to it. -/
def letterAt (level : List Drawing) (q : Nat) : Char := ((lettersOf level).lookup q).getD '\\'

/-- Column of level `z` of `n` of the qubit at `(x, y / 2)`. -/
def diagramCol (n y z : Nat) : Nat := (y + 2) * (n + 3) + z

/-- Line of level `z` of `n` of the qubit at `(x, y / 2)`. -/
def diagramRow (n x z : Nat) : Nat := (x + 1) * (n + 2) + z

/-- `QUBIT_COORDS(x, y / 2) q`. -/
def coordsInstr (c : Nat × Nat × Nat) : Instr :=
  ⟨.QUBIT_COORDS, [.q c.1], [.lit c.2.1, .lit ((c.2.2 : Rat) / 2)]⟩

/-- Two qubits, at `p` and `q`, are linked on a level. -/
def LinkedAt (coords : List (Nat × Nat × Nat)) (level : List Drawing) (p q : Nat × Nat) : Prop :=
  ∃ a b, ((a, b) ∈ linksOf level ∨ (b, a) ∈ linksOf level) ∧ (a, p) ∈ coords ∧ (b, q) ∈ coords

/-- A column of the text, between two lines (both included), is filled. -/
def FilledCol (s : List Char) (col ln1 ln2 : Nat) : Prop := ∀ ln, ln1 ≤ ln → ln ≤ ln2 → seenAt s col ln ≠ ' '

/-- A line of the text, between two columns (both included), is filled. -/
def FilledRow (s : List Char) (ln col1 col2 : Nat) : Prop := ∀ col, col1 ≤ col → col ≤ col2 → seenAt s col ln ≠ ' '

/-- The text `s` is the diagram of the drawings `ds` of qubits at the given coordinates (qubit, `x`, `y`):
* the character of every qubit is at its place on every level;
* all other characters are blanks, lines, crossings and ends of lines (`~`);
* two linked qubits with the same `x` or the same `y` are joined by a line; if they are at opposite borders, a line leads from
  each of them outwards and ends with a `~`. -/
structure IsDiagram (coords : List (Nat × Nat × Nat)) (ds : List Drawing) (s : List Char) : Prop where
  letters : ∀ (z : Nat) (level : List Drawing), (shownLevels ds)[z]? = some level → ∀ q x y, (q, x, y) ∈ coords →
    seenAt s (diagramCol (shownLevels ds).length y z) (diagramRow (shownLevels ds).length x z) = letterAt level q
  rest : ∀ col ln, (∀ z < (shownLevels ds).length, ∀ q x y, (q, x, y) ∈ coords →
      ¬ (col = diagramCol (shownLevels ds).length y z ∧ ln = diagramRow (shownLevels ds).length x z)) →
    seenAt s col ln ∈ [' ', '|', '-', '+', '=', '~']
  same_y : ∀ (z : Nat) (level : List Drawing), (shownLevels ds)[z]? = some level → ∀ x1 x2 y, x1 < x2 →
    LinkedAt coords level (x1, y) (x2, y) → (∃ c ∈ coords, c.2.1 < x1 ∨ x2 < c.2.1) → (∃ c ∈ coords, c.2.2 ≠ y) →
    FilledCol s (diagramCol (shownLevels ds).length y z) (diagramRow (shownLevels ds).length x1 z)
      (diagramRow (shownLevels ds).length x2 z)
  same_x : ∀ (z : Nat) (level : List Drawing), (shownLevels ds)[z]? = some level → ∀ x y1 y2, y1 < y2 →
    LinkedAt coords level (x, y1) (x, y2) → (∃ c ∈ coords, c.2.2 < y1 ∨ y2 < c.2.2) → (∃ c ∈ coords, c.2.1 ≠ x) →
    FilledRow s (diagramRow (shownLevels ds).length x z) (diagramCol (shownLevels ds).length y1 z)
      (diagramCol (shownLevels ds).length y2 z)
  border_x : ∀ (z : Nat) (level : List Drawing), (shownLevels ds)[z]? = some level → ∀ x1 x2 y, x1 < x2 →
    LinkedAt coords level (x1, y) (x2, y) → (∀ c ∈ coords, x1 ≤ c.2.1 ∧ c.2.1 ≤ x2) →
    ∃ up down, up < diagramRow (shownLevels ds).length x1 z ∧ diagramRow (shownLevels ds).length x2 z < down ∧
      FilledCol s (diagramCol (shownLevels ds).length y z) up (diagramRow (shownLevels ds).length x1 z) ∧
      FilledCol s (diagramCol (shownLevels ds).length y z) (diagramRow (shownLevels ds).length x2 z) down ∧
      seenAt s (diagramCol (shownLevels ds).length y z) up = '~' ∧ seenAt s (diagramCol (shownLevels ds).length y z) down = '~'
  border_y : ∀ (z : Nat) (level : List Drawing), (shownLevels ds)[z]? = some level → ∀ x y1 y2, y1 < y2 →
    LinkedAt coords level (x, y1) (x, y2) → (∀ c ∈ coords, y1 ≤ c.2.2 ∧ c.2.2 ≤ y2) → (∃ c ∈ coords, c.2.1 ≠ x) →
    ∃ left right, left < diagramCol (shownLevels ds).length y1 z ∧ diagramCol (shownLevels ds).length y2 z < right ∧
      FilledRow s (diagramRow (shownLevels ds).length x z) left (diagramCol (shownLevels ds).length y1 z) ∧
      FilledRow s (diagramRow (shownLevels ds).length x z) (diagramCol (shownLevels ds).length y2 z) right ∧
      seenAt s left (diagramRow (shownLevels ds).length x z) = '~' ∧ seenAt s right (diagramRow (shownLevels ds).length x z) = '~'
  trimmed : Trimmed s

end Honeycomb
