import Mathlib.LinearAlgebra.Matrix.Determinant.Basic
import Mathlib.LinearAlgebra.Matrix.NonsingularInverse
import Mathlib.Algebra.Order.Chebyshev
import Mathlib.Data.Real.Basic
/-!
# The restricted Lorentz group
-/
namespace LieNN.Spec

open Matrix

/-- The Minkowski form over the reals. -/
def eta : Matrix (Fin 4) (Fin 4) ℝ := diagonal ![-1, 1, 1, 1]

theorem eta_mul_eta : eta * eta = 1 := by
  rw [eta, diagonal_mul_diagonal, ← diagonal_one]
  congr 1
  funext i
  fin_cases i <;> simp

theorem lorentz_swap {L : Matrix (Fin 4) (Fin 4) ℝ} (h : Lᵀ * eta * L = eta) : L * eta * Lᵀ = eta := by
  have h1 : (eta * Lᵀ * eta) * L = 1 := by
    rw [Matrix.mul_assoc, Matrix.mul_assoc, ← Matrix.mul_assoc Lᵀ, h, eta_mul_eta]
  have h2 : L * (eta * Lᵀ * eta) = 1 := mul_eq_one_comm.1 h1
  calc L * eta * Lᵀ = L * (eta * Lᵀ * eta) * eta := by
        simp only [Matrix.mul_assoc, eta_mul_eta, Matrix.mul_one]
    _ = eta := by rw [h2, Matrix.one_mul]

theorem lorentz_col {L : Matrix (Fin 4) (Fin 4) ℝ} (h : Lᵀ * eta * L = eta) :
    L 0 0 ^ 2 = 1 + (L 1 0 ^ 2 + L 2 0 ^ 2 + L 3 0 ^ 2) := by
  have := congrFun (congrFun h 0) 0
  simp [eta, mul_apply, Fin.sum_univ_four, diagonal_apply] at this
  linarith

theorem lorentz_row {L : Matrix (Fin 4) (Fin 4) ℝ} (h : Lᵀ * eta * L = eta) :
    L 0 0 ^ 2 = 1 + (L 0 1 ^ 2 + L 0 2 ^ 2 + L 0 3 ^ 2) := by
  have := lorentz_col (L := Lᵀ) (by rw [transpose_transpose]; exact lorentz_swap h)
  exact this

/-- The time component of a product has the sign of the product of the time components. -/
theorem lorentz_time {L M : Matrix (Fin 4) (Fin 4) ℝ} (hL : Lᵀ * eta * L = eta) (hM : Mᵀ * eta * M = eta)
    (h : 0 < L 0 0 * M 0 0) : 0 < (L * M) 0 0 := by
  have e1 := lorentz_row hL
  have e2 := lorentz_col hM
  rw [mul_apply, Fin.sum_univ_four]
  set s := L 0 1 * M 1 0 + L 0 2 * M 2 0 + L 0 3 * M 3 0 with hs
  have h1 : s ^ 2 ≤ (L 0 1 ^ 2 + L 0 2 ^ 2 + L 0 3 ^ 2) * (M 1 0 ^ 2 + M 2 0 ^ 2 + M 3 0 ^ 2) := by
    rw [hs]
    nlinarith [sq_nonneg (L 0 1 * M 2 0 - L 0 2 * M 1 0), sq_nonneg (L 0 1 * M 3 0 - L 0 3 * M 1 0),
      sq_nonneg (L 0 2 * M 3 0 - L 0 3 * M 2 0)]
  have h2 : s ^ 2 < (L 0 0 * M 0 0) ^ 2 := by
    rw [mul_pow, e1, e2]
    nlinarith [sq_nonneg (L 0 1), sq_nonneg (L 0 2), sq_nonneg (L 0 3), sq_nonneg (M 1 0), sq_nonneg (M 2 0), sq_nonneg (M 3 0)]
  have h3 := (abs_lt_of_sq_lt_sq' h2 h.le).1
  linarith

/-- The restricted Lorentz group: real matrices that preserve the Minkowski form, with determinant one and a positive
time component. -/
def lorentz : Submonoid (Matrix (Fin 4) (Fin 4) ℝ) where
  carrier := {L | Lᵀ * eta * L = eta ∧ L.det = 1 ∧ 0 < L 0 0}
  one_mem' := by
    refine ⟨?_, det_one, ?_⟩
    · rw [transpose_one, Matrix.one_mul, Matrix.mul_one]
    · rw [one_apply_eq]
      exact one_pos
  mul_mem' := by
    rintro L M ⟨h1, h2, h3⟩ ⟨g1, g2, g3⟩
    refine ⟨?_, by rw [det_mul, h2, g2, mul_one], lorentz_time h1 g1 (mul_pos h3 g3)⟩
    rw [transpose_mul]
    calc Mᵀ * Lᵀ * eta * (L * M) = Mᵀ * (Lᵀ * eta * L) * M := by simp only [Matrix.mul_assoc]
      _ = eta := by rw [h1, g1]

end LieNN.Spec
