import Verif.Proofs.RepOps
/-!
# Concrete representations used in the non-vacuity examples
-/
namespace LieNN.Examples

open Matrix Spec

/-- The Levi-Civita symbol. -/
noncomputable def eps : Fin 3 → Fin 3 → Fin 3 → ℂ := fun i j k =>
  (((j : ℂ) - i) * ((k : ℂ) - j) * ((k : ℂ) - i)) / 2

/-- The spin-1/2 representation of `su(2)` with the discrete generator `diag(1, -1)`. -/
noncomputable def su2 : Rep 3 1 2 where
  A := eps
  X := ![!![0, -Complex.I / 2; -Complex.I / 2, 0], !![0, -1 / 2; 1 / 2, 0],
    !![-Complex.I / 2, 0; 0, Complex.I / 2]]
  H := ![!![1, 0; 0, -1]]

theorem su2_isRep : IsRep su2 := by
  intro i j
  fin_cases i <;> fin_cases j <;> ext a b <;> fin_cases a <;> fin_cases b <;>
    simp [su2, eps, Fin.sum_univ_three] <;>
    first
      | done
      | (ring_nf; done)
      | (ring_nf; simp [Complex.I_sq]; done)
      | (ring_nf; simp [Complex.I_sq]; norm_num)

theorem su2_unitary : IsUnitaryRep su2 := by
  refine ⟨fun a => ?_, fun a => ?_⟩
  · fin_cases a
    ext i j
    fin_cases i <;> fin_cases j <;> simp [su2, Matrix.mul_apply, Fin.sum_univ_two]
  · fin_cases a <;> ext i j <;> fin_cases i <;> fin_cases j <;>
      simp [su2, neg_div]

theorem su2_real : ∀ i j k, (su2.A i j k).im = 0 := by
  intro i j k
  fin_cases i <;> fin_cases j <;> fin_cases k <;> simp [su2, eps]

/-- A representation whose structure constants are not real: `[X₀, X₁] = i X₁`. -/
noncomputable def complexAlg : Rep 2 0 2 where
  A := fun i j k => if i = 0 ∧ j = 1 ∧ k = 1 then Complex.I
    else if i = 1 ∧ j = 0 ∧ k = 1 then -Complex.I else 0
  X := ![!![Complex.I, 0; 0, 0], !![0, 1; 0, 0]]
  H := fun a => a.elim0

theorem complexAlg_isRep : IsRep complexAlg := by
  intro i j
  fin_cases i <;> fin_cases j <;> ext a b <;> fin_cases a <;> fin_cases b <;>
    simp [complexAlg]

theorem complexAlg_conj_not : ¬ IsRep complexAlg.conjugate := by
  intro hr
  have := congrFun (congrFun (hr 0 1) 0) 1
  simp only [conjugate_X, complexAlg, Fin.sum_univ_two, Matrix.add_apply, Matrix.sub_apply,
    Matrix.mul_apply, Matrix.smul_apply] at this
  simp [Rep.conjugate, Complex.ext_iff] at this
  norm_num at this

end LieNN.Examples
