import Mathlib.Data.Complex.Basic
import Mathlib.Data.Matrix.Mul
/-!
# Equivalent families of matrices
-/
namespace LieNN.Spec

open Matrix

/-- A change of basis carries one family of matrices to the other. -/
def Equivalent {n d e : ℕ} (X : Fin n → Matrix (Fin d) (Fin d) ℂ) (Y : Fin n → Matrix (Fin e) (Fin e) ℂ) : Prop :=
  ∃ (Q : Matrix (Fin d) (Fin e) ℂ) (P : Matrix (Fin e) (Fin d) ℂ), Q * P = 1 ∧ P * Q = 1 ∧ ∀ a, X a * Q = Q * Y a

end LieNN.Spec
