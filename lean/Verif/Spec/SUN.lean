import Mathlib.Data.Rat.Defs
import Mathlib.Data.List.Basic
import Mathlib.Algebra.Order.Ring.Int
/-!
# Gelfand-Tsetlin patterns

Written without reference to the code: a pattern is a triangular array of integers whose consecutive
rows interlace.
-/
namespace LieNN.Spec

/-- The entry `j` of the row `i`. -/
def ent (M : List (List ℤ)) (i j : ℕ) : ℤ := (M.getD i []).getD j 0

/-- `n` rows, of lengths `n`, `n - 1`, ..., `1`. -/
def Triangular (n : ℕ) (M : List (List ℤ)) : Prop :=
  M.length = n ∧ ∀ i < n, (M.getD i []).length = n - i

/-- Every entry lies between the two entries above it. -/
def Interlacing (M : List (List ℤ)) : Prop :=
  ∀ i j, i + j + 1 < M.length → ent M i (j + 1) ≤ ent M (i + 1) j ∧ ent M (i + 1) j ≤ ent M i j

/-- The Gelfand-Tsetlin patterns of first row `S`. -/
def IsGT (S : List ℤ) (M : List (List ℤ)) : Prop :=
  Triangular S.length M ∧ M.head? = some S ∧ Interlacing M

/-- Non-empty and non-increasing. -/
def IsWeight (S : List ℤ) : Prop := S ≠ [] ∧ S.Pairwise (· ≥ ·)

instance (S : List ℤ) : Decidable (IsWeight S) := inferInstanceAs (Decidable (_ ∧ _))

end LieNN.Spec
