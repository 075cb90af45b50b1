import Mathlib.Algebra.Algebra.Subalgebra.Lattice
import Verif.Model.Rep
/-!
# Specifications for the tabulated irreps
-/
namespace LieNN.Spec

open Matrix

/-- `j3` is in the Clebsch-Gordan series of `j1` and `j2` (all of them twice a spin): triangle
inequality and parity. -/
def Triangle (j₁ j₂ j₃ : ℕ) : Prop :=
  j₁ ≤ j₂ + j₃ ∧ j₂ ≤ j₁ + j₃ ∧ j₃ ≤ j₁ + j₂ ∧ (j₁ + j₂ + j₃) % 2 = 0

/-- The brackets of `su(2)`. -/
def IsSu2 {d : ℕ} (X : Fin 3 → Matrix (Fin d) (Fin d) ℂ) : Prop :=
  X 0 * X 1 - X 1 * X 0 = X 2 ∧ X 1 * X 2 - X 2 * X 1 = X 0 ∧ X 2 * X 0 - X 0 * X 2 = X 1

/-- The structure constants are antisymmetric and satisfy the Jacobi identity. -/
def IsLieAlgebra {n : ℕ} (A : Fin n → Fin n → Fin n → ℂ) : Prop :=
  (∀ i j k, A i j k = -A j i k) ∧
  (∀ i j k m, ∑ l, (A i j l * A l k m + A j k l * A l i m + A k i l * A l j m) = 0)

/-- What is assumed of `scipy.linalg.sqrtm`: for a matrix whose square is a nonzero multiple of the
identity, a square root that is a polynomial in the matrix. -/
def SqrtmInvSpec (sqrtm : {d : ℕ} → Matrix (Fin d) (Fin d) ℂ → Matrix (Fin d) (Fin d) ℂ) : Prop :=
  ∀ {d : ℕ} (M : Matrix (Fin d) (Fin d) ℂ) (c : ℂ), c ≠ 0 → M * M = c • 1 →
    sqrtm M * sqrtm M = M ∧ sqrtm M ∈ Algebra.adjoin ℂ {M}

end LieNN.Spec
