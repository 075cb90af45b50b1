import Mathlib.Data.Nat.Notation
import Mathlib.Data.List.Basic
import Mathlib.Algebra.Order.Field.Rat
import Mathlib.LinearAlgebra.Matrix.Defs
import Mathlib.Algebra.BigOperators.Group.Finset.Basic
/-!
# Specification vocabulary for Dynkin diagrams drawn as text
-/
namespace LieNN.Spec

/-- The text is the lines `ls`, separated by line feeds. -/
def Lines (text : List Char) (ls : List (List Char)) : Prop :=
  text = (ls.intersperse ['\n']).flatten ∧ ∀ l ∈ ls, '\n' ∉ l

/-- The character in row `y` and column `x`; blank outside the picture. -/
def charAt (ls : List (List Char)) (y x : ℕ) : Char := (ls.getD y []).getD x ' '

/-- There is a node at this place. -/
def Node (ls : List (List Char)) (y x : ℕ) : Prop := charAt ls y x = '0'

/-- The three characters to the right of a place. -/
def rightOf (ls : List (List Char)) (y x : ℕ) : List Char :=
  [charAt ls y (x + 1), charAt ls y (x + 2), charAt ls y (x + 3)]

/-- How a pair of neighbouring nodes with Cartan integers `c = 2 (αᵢ, αⱼ) / (αᵢ, αᵢ)` and
`c' = 2 (αᵢ, αⱼ) / (αⱼ, αⱼ)` is drawn from left to right: an arrow points to the shorter root. -/
def bond (c c' : ℚ) : Option (List Char) :=
  if c = -1 ∧ c' = -1 then some ['-', '-', '-']
  else if c = -1 ∧ c' = -2 then some ['=', '>', '=']
  else if c = -2 ∧ c' = -1 then some ['=', '<', '=']
  else none

/-- Two places are joined by a single bond: three dashes to the right, or a bar below. -/
def Bonded (ls : List (List Char)) (p q : ℕ × ℕ) : Prop :=
  (q = (p.1, p.2 + 4) ∧ rightOf ls p.1 p.2 = ['-', '-', '-']) ∨
    (q = (p.1 + 2, p.2) ∧ charAt ls (p.1 + 1) p.2 = '|')

/-- The text `s` stands in the line `l` from column `x` on. -/
def At (l : List Char) (x : ℕ) (s : List Char) : Prop := (l.drop x).take s.length = s

/-- The column in which the label of the node `i` (counted from 0) begins when the numbers from 1 on are
written with three blanks in between. -/
def labelColumn (i : ℕ) : ℕ := ∑ j ∈ Finset.range i, ((Nat.toDigits 10 (j + 1)).length + 3)

/-- The text is a chain of `r` nodes with the bonds given by the Cartan matrix `C`, and below it the
numbers `1, …, r`. -/
def DrawnChain (r : ℕ) (C : Matrix (Fin r) (Fin r) ℚ) (text : List Char) : Prop :=
  (∀ i j : Fin r, i.1 + 1 < j.1 → C i j = 0 ∧ C j i = 0) ∧
  ∃ row labels, Lines text [row, labels] ∧ (∀ x, Node [row] 0 x ↔ ∃ i : Fin r, x = 4 * i.1) ∧
    (∀ i j : Fin r, j.1 = i.1 + 1 → bond (C i j) (C j i) = some (rightOf [row] 0 (4 * i.1))) ∧
    ∀ i < r, At labels (labelColumn i) (Nat.toDigits 10 (i + 1))

end LieNN.Spec
