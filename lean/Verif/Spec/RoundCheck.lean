import Mathlib.Data.Complex.Basic
import Mathlib.Analysis.Complex.Norm
import Mathlib.LinearAlgebra.Matrix.Defs
/-!
# Shape of the generators in the error analysis
-/
namespace LieNN.Spec

/-- Every row and every column of the matrices has at most two nonzero entries, of norm at most `G`. -/
def TwoPerLine (G : ℝ) {n d : ℕ} (X : Fin n → Matrix (Fin d) (Fin d) ℂ) : Prop :=
  ∀ a, (∀ i, ∃ S : Finset (Fin d), S.card ≤ 2 ∧ ∀ k, k ∉ S → X a i k = 0) ∧
    (∀ k, ∃ S : Finset (Fin d), S.card ≤ 2 ∧ ∀ i, i ∉ S → X a i k = 0) ∧ ∀ i k, ‖X a i k‖ ≤ G

/-- The bracket of two elements of the basis is a basis element with a factor of norm at most one. -/
def OnePerBracket {n : ℕ} (A : Fin n → Fin n → Fin n → ℂ) : Prop :=
  ∀ i j, ∃ k₀, (∀ k, k ≠ k₀ → A i j k = 0) ∧ ‖A i j k₀‖ ≤ 1

end LieNN.Spec
