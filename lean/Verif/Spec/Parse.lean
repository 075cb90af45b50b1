import Mathlib.Data.List.Basic
import Mathlib.Data.Int.Notation
/-!
# Grammar of the textual irreps

A text is a list of characters.
-/
namespace LieNN.Spec

/-- `s` is a decimal numeral of `n`, leading zeros allowed. -/
def Numeral (n : ℕ) (s : List Char) : Prop :=
  s ≠ [] ∧ (∀ c ∈ s, c.isDigit = true) ∧ Nat.ofDigitChars 10 s 0 = n

/-- Labels of `SU2` and `SO3`: a numeral. -/
def LabelInt (j : ℤ) (s : List Char) : Prop := ∃ n : ℕ, j = n ∧ Numeral n s

/-- Labels of `Z2`: `e` for `1`, `o` for `-1`. -/
def LabelZ2 (p : ℤ) (s : List Char) : Prop := (p = 1 ∧ s = ['e']) ∨ (p = -1 ∧ s = ['o'])

/-- Labels of `O3`: a numeral, then the parity. -/
def LabelO3 (x : ℤ × ℤ) (s : List Char) : Prop :=
  ∃ a b, LabelInt x.1 a ∧ LabelZ2 x.2 b ∧ s = a ++ b

/-- Labels of `SL2C`: two numerals between parentheses, separated by a comma. -/
def LabelPair (x : ℤ × ℤ) (s : List Char) : Prop :=
  ∃ a b, LabelInt x.1 a ∧ LabelInt x.2 b ∧ s = '(' :: (a ++ ',' :: b) ++ [')']

/-- Labels of `SUN`: numerals between parentheses, separated by commas; they do not increase and the last
one is zero. -/
def LabelSUN (S : List ℤ) (s : List Char) : Prop :=
  S.Pairwise (· ≥ ·) ∧ S.getLast? = some 0 ∧
    ∃ ts, List.Forall₂ LabelInt S ts ∧ s = '(' :: ([','].intercalate ts) ++ [')']

/-- A term: `MxLABEL`, or `LABEL` for multiplicity one. -/
def Term {α : Type} (lab : α → List Char → Prop) (t : ℤ × α) (s : List Char) : Prop :=
  (t.1 = 1 ∧ lab t.2 s) ∨ ∃ a b, LabelInt t.1 a ∧ lab t.2 b ∧ s = a ++ 'x' :: b

/-- A sum of terms. -/
def SumText {α : Type} (lab : α → List Char → Prop) (L : List (ℤ × α)) (s : List Char) : Prop :=
  ∃ ts, List.Forall₂ (Term lab) L ts ∧ s = ['+'].intercalate ts

/-- The usual numeral. -/
def num (n : ℕ) : List Char := Nat.toDigits 10 n

end LieNN.Spec
