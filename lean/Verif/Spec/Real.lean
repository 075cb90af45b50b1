import Mathlib.Data.Matrix.Basic
import Mathlib.LinearAlgebra.Matrix.NonsingularInverse
import Mathlib.Algebra.Polynomial.AlgebraMap
import Mathlib.Analysis.Complex.Basic
/-!
# Specification: real forms, square roots
-/
namespace LieNN.Spec

open Matrix

/-- All entries are real. -/
def RealEntries {n d : ℕ} (Y : Fin n → Matrix (Fin d) (Fin d) ℂ) : Prop :=
  ∀ a i j, (Y a i j).im = 0

/-- Some change of basis makes all matrices real. -/
def HasRealForm {n d : ℕ} (Y : Fin n → Matrix (Fin d) (Fin d) ℂ) : Prop :=
  ∃ Q : Matrix (Fin d) (Fin d) ℂ, IsUnit Q ∧ RealEntries fun a => Q * Y a * Q⁻¹

/-- What is assumed of `scipy.linalg.sqrtm`: on an invertible matrix it returns a square root that
is a primary matrix function, that is, a polynomial in the matrix. -/
def SqrtmSpec {d : ℕ} (sqrtm : Matrix (Fin d) (Fin d) ℂ → Matrix (Fin d) (Fin d) ℂ) : Prop :=
  ∀ S, IsUnit S → sqrtm S * sqrtm S = S ∧ ∃ p : Polynomial ℂ, sqrtm S = Polynomial.aeval S p

end LieNN.Spec
