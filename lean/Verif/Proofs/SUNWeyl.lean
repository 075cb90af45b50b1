import Mathlib.LinearAlgebra.Vandermonde
import Mathlib.LinearAlgebra.Matrix.Determinant.Basic
import Mathlib.RingTheory.Polynomial.Pochhammer
import Mathlib.Data.Nat.Factorial.SuperFactorial
import Mathlib.Data.Int.Interval
import Mathlib.Tactic.Linarith
import Mathlib.Tactic.LinearCombination
import Mathlib.Tactic.FieldSimp
/-!
# The branching identity of the Weyl dimension formula

The Vandermonde determinant summed over a box between consecutive points.
-/
namespace LieNN.SUN

open Matrix Polynomial

/-- The falling factorial is a discrete antiderivative. -/
theorem descPochhammer_diff (k : ℕ) (x : ℚ) :
    (descPochhammer ℚ (k + 1)).eval (x + 1) - (descPochhammer ℚ (k + 1)).eval x =
      ((k : ℚ) + 1) * (descPochhammer ℚ k).eval x := by
  have h1 : (descPochhammer ℚ (k + 1)).eval (x + 1) = (x + 1) * (descPochhammer ℚ k).eval x := by
    rw [descPochhammer_succ_left]
    simp
  rw [h1, descPochhammer_succ_eval]
  ring

theorem sum_Ico_telescope (f F : ℤ → ℚ) (h : ∀ x, F (x + 1) - F x = f x) {a b : ℤ} (hab : a ≤ b) :
    ∑ x ∈ Finset.Ico a b, f x = F b - F a := by
  induction b, hab using Int.leInduction with
  | base => simp
  | succ b hb ih =>
    have : Finset.Ico a (b + 1) = insert b (Finset.Ico a b) := by
      ext x
      simp only [Finset.mem_Ico, Finset.mem_insert]
      omega
    rw [this, Finset.sum_insert (by simp), ih, ← h b]
    ring

theorem det_desc {n : ℕ} (v : Fin n → ℚ) :
    (vandermonde v).det = (Matrix.of fun i j : Fin n => (descPochhammer ℚ j).eval (v i)).det :=
  det_eval_matrixOfPolynomials_eq_det_vandermonde v (fun j => descPochhammer ℚ j)
    (fun i => descPochhammer_natDegree ℚ i) (fun i => monic_descPochhammer ℚ i)

/-- The Vandermonde determinant of `n + 1` points is `n!` times the sum of those of the choices of
one integer in each interval between two consecutive points. -/
theorem sum_det_vandermonde (n : ℕ) (v : Fin (n + 1) → ℤ)
    (hv : ∀ j : Fin n, v j.castSucc ≤ v j.succ) :
    (n.factorial : ℚ) * ∑ w ∈ Fintype.piFinset
      (fun j : Fin n => Finset.Ico (v j.castSucc) (v j.succ)),
        (vandermonde fun j => (w j : ℚ)).det = (vandermonde fun i => (v i : ℚ)).det := by
  have h1 : ∑ w ∈ Fintype.piFinset (fun j : Fin n => Finset.Ico (v j.castSucc) (v j.succ)),
      (vandermonde fun j => (w j : ℚ)).det =
      (Matrix.of fun j k : Fin n => ∑ x ∈ Finset.Ico (v j.castSucc) (v j.succ),
        (descPochhammer ℚ k).eval (x : ℚ)).det := by
    have := (detRowAlternating (R := ℚ) (n := Fin n)).toMultilinearMap.map_sum_finset
      (fun (_ : Fin n) (x : ℤ) (k : Fin n) => (descPochhammer ℚ k).eval (x : ℚ))
      (fun j : Fin n => Finset.Ico (v j.castSucc) (v j.succ))
    have h2 : (Matrix.of fun j k : Fin n => ∑ x ∈ Finset.Ico (v j.castSucc) (v j.succ),
        (descPochhammer ℚ k).eval (x : ℚ)) = fun j => ∑ x ∈ Finset.Ico (v j.castSucc) (v j.succ),
          fun k : Fin n => (descPochhammer ℚ k).eval (x : ℚ) := by
      ext j k
      simp
    rw [h2]
    refine Eq.trans ?_ this.symm
    refine Finset.sum_congr rfl fun w _ => ?_
    rw [det_desc]
    rfl
  have h3 : (Matrix.of fun j k : Fin n => ∑ x ∈ Finset.Ico (v j.castSucc) (v j.succ),
        (descPochhammer ℚ k).eval (x : ℚ)) = Matrix.of fun j k : Fin n => (((k : ℕ) : ℚ) + 1)⁻¹ *
        ((descPochhammer ℚ (k + 1)).eval (v j.succ : ℚ) -
          (descPochhammer ℚ (k + 1)).eval (v j.castSucc : ℚ)) := by
    ext j k
    have hk : (((k : ℕ) : ℚ) + 1) ≠ 0 := by positivity
    rw [Matrix.of_apply, Matrix.of_apply, sum_Ico_telescope _
      (fun x : ℤ => (((k : ℕ) : ℚ) + 1)⁻¹ * (descPochhammer ℚ (k + 1)).eval (x : ℚ)) ?_ (hv j)]
    · ring
    · intro x
      rw [← mul_sub]
      push_cast
      rw [descPochhammer_diff, inv_mul_cancel_left₀ hk]
  have h5 : (Matrix.of fun j k : Fin n => (((k : ℕ) : ℚ) + 1)⁻¹ *
        ((descPochhammer ℚ (k + 1)).eval (v j.succ : ℚ) -
          (descPochhammer ℚ (k + 1)).eval (v j.castSucc : ℚ))).det =
      (∏ k : Fin n, (((k : ℕ) : ℚ) + 1)⁻¹) *
        (Matrix.of fun j k : Fin n => (descPochhammer ℚ (k + 1)).eval (v j.succ : ℚ) -
          (descPochhammer ℚ (k + 1)).eval (v j.castSucc : ℚ)).det :=
    Matrix.det_mul_row (fun k : Fin n => (((k : ℕ) : ℚ) + 1)⁻¹) _
  rw [h1, h3, h5]
  have h4 : (n.factorial : ℚ) * ∏ k : Fin n, (((k : ℕ) : ℚ) + 1)⁻¹ = 1 := by
    rw [Finset.prod_inv_distrib]
    have : (n.factorial : ℚ) = ∏ k : Fin n, (((k : ℕ) : ℚ) + 1) := by
      rw [Fin.prod_univ_eq_prod_range (fun k => ((k : ℚ) + 1)) n, ← Finset.prod_range_add_one_eq_factorial]
      push_cast
      rfl
    rw [this]
    refine mul_inv_cancel₀ (Finset.prod_ne_zero_iff.2 fun k _ => by positivity)
  rw [← mul_assoc, h4, one_mul, det_desc]
  symm
  refine (det_eq_of_forall_row_eq_smul_add_pred
    (A := Matrix.of fun i j : Fin (n + 1) => (descPochhammer ℚ j).eval (v i : ℚ)) (B := Matrix.of fun i j : Fin (n + 1) =>
    (Fin.cases ((descPochhammer ℚ j).eval (v 0 : ℚ)) (fun i : Fin n =>
      (descPochhammer ℚ j).eval (v i.succ : ℚ) - (descPochhammer ℚ j).eval (v i.castSucc : ℚ)) i : ℚ))
    (fun _ => 1) (fun j => rfl) (fun i j => by simp)).trans ?_
  rw [Matrix.det_succ_column_zero, Fin.sum_univ_succ, Finset.sum_eq_zero]
  · simp [Matrix.submatrix]
  · intro i _
    simp

end LieNN.SUN
