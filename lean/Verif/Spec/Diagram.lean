import Verif.Model.Stim

/-!
# Specification of text diagrams (C57, C58)
-/

namespace Honeycomb

/-- What `plot_circuit(c, only_repeat_block=True)` has to look at: the qubit coordinates outside of blocks, and one pass through
every top-level block (with the blocks inside it unrolled). -/
def onePassOfBlocks : Circuit → List Instr
  | .nil => []
  | .op i rest => if i.gate = .QUBIT_COORDS then i :: onePassOfBlocks rest else onePassOfBlocks rest
  | .rep _ body rest => body.flatten ++ onePassOfBlocks rest

/-- The character seen at column `x` of line `y` of a text; a blank beyond the end of the line or of the text. -/
def seenAt : List Char → Nat → Nat → Char
  | [], _, _ => ' '
  | c :: s, x, 0 => if c = '\n' then ' ' else match x with
      | 0 => c
      | x + 1 => seenAt s x 0
  | c :: s, x, y + 1 => if c = '\n' then seenAt s x y else seenAt s x (y + 1)

/-- Python's `str.isspace` for a single character. -/
def Blank (c : Char) : Prop :=
  c = ' ' ∨ ('\t'.toNat ≤ c.toNat ∧ c.toNat ≤ '\r'.toNat) ∨ (28 ≤ c.toNat ∧ c.toNat ≤ 31) ∨ c.toNat = 0x85 ∨ c.toNat = 0xa0 ∨
  c.toNat = 0x1680 ∨ (0x2000 ≤ c.toNat ∧ c.toNat ≤ 0x200a) ∨ c.toNat = 0x2028 ∨ c.toNat = 0x2029 ∨ c.toNat = 0x202f ∨
  c.toNat = 0x205f ∨ c.toNat = 0x3000

/-- A text without white space at the end of a line or of the text. -/
def Trimmed (s : List Char) : Prop :=
  (∀ a c b, s = a ++ c :: '\n' :: b → c ≠ '\n' → ¬ Blank c) ∧ (∀ a c, s = a ++ [c] → ¬ Blank c)

/-- A finite map from columns and lines to texts in which every text has room: it starts at a column that exists, and
no other text ends in a column where it stands. (A text ends at its column.) -/
def Room (cells : List ((Nat × Nat) × List Char)) : Prop :=
  ∀ x y t, ((x, y), t) ∈ cells → t.length ≤ x + 1 ∧ ∀ x' t', ((x', y), t') ∈ cells → x' < x → x' + t.length ≤ x

end Honeycomb
