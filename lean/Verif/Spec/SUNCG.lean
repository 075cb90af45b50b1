import Verif.Spec.CG
import Mathlib.LinearAlgebra.Span.Basic
/-!
# Exact null spaces and the space of the Clebsch-Gordan coefficients
-/
namespace LieNN.Spec

open Matrix

/-- `L` is an orthonormal basis of the solutions of `A x = 0`. -/
structure ExactNull {m n : ℕ} (A : Matrix (Fin m) (Fin n) ℝ) (L : List (Fin n → ℝ)) : Prop where
  orth : L.Pairwise fun x y => x ⬝ᵥ y = 0
  unit : ∀ x ∈ L, x ⬝ᵥ x = 1
  span : ∀ x, A *ᵥ x = 0 ↔ x ∈ Submodule.span ℝ {y | y ∈ L}

/-- The space of all equivariant arrays. -/
def cgSpace {n h d₁ d₂ d₃ : ℕ} (r₁ : Rep n h d₁) (r₂ : Rep n h d₂) (r₃ : Rep n h d₃) :
    Submodule ℂ (Fin d₁ → Fin d₂ → Fin d₃ → ℂ) where
  carrier := {C | IsCG r₁ r₂ r₃ C}
  zero_mem' := ⟨fun a i j l => by simp, fun a i j l => by simp⟩
  add_mem' := by
    rintro C D ⟨h1, h2⟩ ⟨h3, h4⟩
    refine ⟨fun a i j l => ?_, fun a i j l => ?_⟩
    · simp only [Pi.add_apply, add_mul, mul_add, Finset.sum_add_distrib, h1, h3]
      ring
    · simp only [Pi.add_apply, add_mul, mul_add, Finset.sum_add_distrib, h2, h4]
  smul_mem' := by
    rintro c C ⟨h1, h2⟩
    refine ⟨fun a i j l => ?_, fun a i j l => ?_⟩
    · simp only [Pi.smul_apply, smul_eq_mul, mul_assoc, mul_left_comm _ c, ← Finset.mul_sum, h1]
      ring
    · simp only [Pi.smul_apply, smul_eq_mul, mul_assoc, mul_left_comm _ c, ← Finset.mul_sum, h2]

end LieNN.Spec
