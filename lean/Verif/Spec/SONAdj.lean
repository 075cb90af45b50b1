import Mathlib.Data.Matrix.Basic
import Mathlib.Data.Matrix.Mul
import Mathlib.Data.Real.Basic
/-!
# Specification: matrices that preserve a bilinear form
-/
namespace LieNN.Spec

open Matrix

/-- `G` preserves the bilinear form with the matrix `B` infinitesimally. -/
def PreservesForm {n : ℕ} (B G : Matrix (Fin n) (Fin n) ℝ) : Prop := Gᵀ * B + B * G = 0

/-- The split form on `2 m` coordinates: coordinate `i` is paired with `i + m`. -/
def splitForm (m : ℕ) : Matrix (Fin (2 * m)) (Fin (2 * m)) ℝ :=
  Matrix.of fun a b => if (a : ℕ) + m = b ∨ (b : ℕ) + m = a then 1 else 0

/-- The commutators of the family `X` are combinations of the family. -/
def ClosedFamily {n : ℕ} {ι : Type} [Fintype ι] (X : ι → Matrix (Fin n) (Fin n) ℝ) : Prop :=
  ∃ A : ι → ι → ι → ℝ, ∀ i j, X i * X j - X j * X i = ∑ k, A i j k • X k

end LieNN.Spec
