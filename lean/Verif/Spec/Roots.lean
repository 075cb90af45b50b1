import Mathlib.Data.Matrix.Mul
import Mathlib.LinearAlgebra.Matrix.Cartan
import Mathlib.Algebra.Order.Field.Rat
/-!
# Specification vocabulary for root systems of the classical algebras
-/
namespace LieNN.Spec

variable {m : ℕ}

/-- All the coordinates are integers. -/
def Integral (v : Fin m → ℚ) : Prop := ∀ k, ∃ z : ℤ, v k = z

/-- The first non-zero coordinate exists and is positive. -/
def LexPos (v : Fin m → ℚ) : Prop := ∃ k, 0 < v k ∧ ∀ l < k, v l = 0

/-- Roots of type A: integral vectors of squared length 2 and coordinate sum 0. -/
def RootA (v : Fin m → ℚ) : Prop := Integral v ∧ v ⬝ᵥ v = 2 ∧ ∑ k, v k = 0

/-- Roots of type B: integral vectors of squared length 1 or 2. -/
def RootB (v : Fin m → ℚ) : Prop := Integral v ∧ (v ⬝ᵥ v = 1 ∨ v ⬝ᵥ v = 2)

/-- Roots of type C: integral vectors of squared length 2, and twice those of squared length 1. -/
def RootC (v : Fin m → ℚ) : Prop :=
  (Integral v ∧ v ⬝ᵥ v = 2) ∨ ∃ w : Fin m → ℚ, Integral w ∧ w ⬝ᵥ w = 1 ∧ v = (2 : ℚ) • w

/-- Roots of type D: integral vectors of squared length 2. -/
def RootD (v : Fin m → ℚ) : Prop := Integral v ∧ v ⬝ᵥ v = 2

/-- `fund` is the basis dual to the coroots `2 α / (α, α)` of `roots`. -/
def DualWeights (rank : ℕ) (fund roots : List (Fin m → ℚ)) : Prop :=
  fund.length = rank ∧ roots.length = rank ∧ ∀ i < rank, ∀ j < rank,
    2 * (fund.getD i 0 ⬝ᵥ roots.getD j 0) / (roots.getD j 0 ⬝ᵥ roots.getD j 0) = if i = j then 1 else 0

end LieNN.Spec
