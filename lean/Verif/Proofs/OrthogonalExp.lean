import Mathlib.Analysis.InnerProductSpace.PiL2
import Mathlib.LinearAlgebra.Matrix.ToLinearEquiv
import Mathlib.Analysis.SpecialFunctions.Complex.Arg
import Verif.Proofs.UnitaryExp
import Verif.Proofs.Exp
/-!
# The exponential map is onto the group of rotations of three-dimensional space
-/
namespace LieNN

open Matrix NormedSpace

/-- A complex number as a real matrix. -/
noncomputable def rotHom : ℂ →+* Matrix (Fin 2) (Fin 2) ℂ where
  toFun z := !![(z.re : ℂ), -(z.im : ℂ); (z.im : ℂ), (z.re : ℂ)]
  map_one' := by ext i j; fin_cases i <;> fin_cases j <;> simp
  map_zero' := by ext i j; fin_cases i <;> fin_cases j <;> simp
  map_add' z w := by ext i j; fin_cases i <;> fin_cases j <;> simp [add_comm]
  map_mul' z w := by
    ext i j
    fin_cases i <;> fin_cases j <;> simp [Matrix.mul_apply, Fin.sum_univ_two] <;> ring

theorem rotHom_continuous : Continuous rotHom := by
  refine continuous_matrix fun i j => ?_
  fin_cases i <;> fin_cases j
  · exact Complex.continuous_ofReal.comp Complex.continuous_re
  · exact (Complex.continuous_ofReal.comp Complex.continuous_im).neg
  · exact Complex.continuous_ofReal.comp Complex.continuous_im
  · exact Complex.continuous_ofReal.comp Complex.continuous_re

open scoped Matrix.Norms.Operator in
/-- The exponential of an infinitesimal rotation of the plane. -/
theorem exp_rot (t : ℝ) : exp (rotHom (t * Complex.I)) = rotHom (Complex.exp (t * Complex.I)) := by
  rw [Complex.exp_eq_exp_ℂ]
  exact (map_exp rotHom rotHom_continuous _).symm

/-- A rotation has an axis. -/
theorem rotation_axis {R : Matrix (Fin 3) (Fin 3) ℝ} (h1 : Rᵀ * R = 1) (h2 : R.det = 1) :
    ∃ v : Fin 3 → ℝ, v ≠ 0 ∧ R *ᵥ v = v := by
  have hd : (R - 1).det = 0 := by
    have h3 : R * Rᵀ = 1 := mul_eq_one_comm.1 h1
    have e : R - 1 = -(R * (R - 1)ᵀ) := by
      rw [transpose_sub, transpose_one, mul_sub, h3, mul_one, neg_sub]
    have h4 : (R - 1).det = -(R - 1).det := by
      conv_lhs => rw [e, det_neg, det_mul, h2, det_transpose]
      norm_num
    linarith
  obtain ⟨v, hv, h⟩ := exists_mulVec_eq_zero_iff.2 hd
  refine ⟨v, hv, ?_⟩
  rw [sub_mulVec, one_mulVec] at h
  exact sub_eq_zero.1 h

/-- An orthogonal matrix whose first column is a multiple of a given vector. -/
theorem orthogonal_first {v : Fin 3 → ℝ} (hv : v ≠ 0) : ∃ (Q : Matrix (Fin 3) (Fin 3) ℝ) (s : ℝ),
    Qᵀ * Q = 1 ∧ ∀ i, Q i 0 = s * v i := by
  set w : EuclideanSpace ℝ (Fin 3) := WithLp.toLp 2 v with hw
  have hw0 : w ≠ 0 := by
    intro h
    apply hv
    have := congrArg WithLp.ofLp h
    exact this
  have hn : Orthonormal ℝ (({0} : Set (Fin 3)).domRestrict fun _ => (‖w‖⁻¹ : ℝ) • w) := by
    constructor
    · intro i
      exact norm_smul_inv_norm (𝕜 := ℝ) hw0
    · intro i j hij
      exact absurd (Subtype.ext (i.2.trans j.2.symm)) hij
  obtain ⟨b, hb⟩ := hn.exists_orthonormalBasis_extension_of_card_eq (by simp)
  refine ⟨Matrix.of fun i j => b j i, ‖w‖⁻¹, ?_, fun i => ?_⟩
  · ext j k
    rw [mul_apply, one_apply]
    have := orthonormal_iff_ite.1 b.orthonormal j k
    rw [← this, EuclideanSpace.inner_eq_star_dotProduct]
    simp only [dotProduct, transpose_apply, of_apply, star_trivial, Pi.star_apply]
    exact Finset.sum_congr rfl fun i _ => mul_comm _ _
  · rw [of_apply, hb 0 rfl]
    rfl

/-- Every rotation is the exponential of a real antisymmetric matrix. -/
theorem rotation_exp {R : Matrix (Fin 3) (Fin 3) ℝ} (hR : R ∈ specialOrthogonalGroup (Fin 3) ℝ) :
    ∃ Y : Matrix (Fin 3) (Fin 3) ℝ, Yᵀ = -Y ∧ exp (Y.map Complex.ofReal) = R.map Complex.ofReal := by
  obtain ⟨hR1, h2⟩ := mem_specialOrthogonalGroup_iff.1 hR
  have h1 : Rᵀ * R = 1 := (mem_orthogonalGroup_iff' (Fin 3) ℝ).1 hR1
  obtain ⟨v, hv, hRv⟩ := rotation_axis h1 h2
  obtain ⟨Q, s, hQ, hQv⟩ := orthogonal_first hv
  have hQ' : Q * Qᵀ = 1 := mul_eq_one_comm.1 hQ
  set B := Qᵀ * R * Q with hB
  have hBB : Bᵀ * B = 1 := by
    rw [hB, transpose_mul, transpose_mul, transpose_transpose]
    calc Qᵀ * (Rᵀ * Q) * (Qᵀ * R * Q) = Qᵀ * (Rᵀ * (Q * Qᵀ) * R) * Q := by simp only [Matrix.mul_assoc]
      _ = 1 := by rw [hQ', Matrix.mul_one, h1, Matrix.mul_one, hQ]
  have hBd : B.det = 1 := by
    rw [hB, det_mul, det_mul, h2, mul_one, ← det_mul, hQ, det_one]
  have hRQ : R = Q * B * Qᵀ := by
    rw [hB]
    calc R = (Q * Qᵀ) * R * (Q * Qᵀ) := by rw [hQ', Matrix.one_mul, Matrix.mul_one]
      _ = _ := by simp only [Matrix.mul_assoc]
  have hcol : ∀ i, B i 0 = (1 : Matrix (Fin 3) (Fin 3) ℝ) i 0 := by
    intro i
    have : ∀ i, (R * Q) i 0 = Q i 0 := by
      intro i
      have := congrFun hRv i
      rw [mulVec, dotProduct] at this
      rw [mul_apply, hQv, ← this, Finset.mul_sum]
      exact Finset.sum_congr rfl fun k _ => by rw [hQv]; ring
    rw [← hQ, hB, Matrix.mul_assoc, mul_apply, mul_apply]
    exact Finset.sum_congr rfl fun k _ => by rw [this]
  have e := fun i j => congrFun (congrFun hBB i) j
  have hc0 : B 0 0 = 1 := by rw [hcol]; rfl
  have hc1 : B 1 0 = 0 := by rw [hcol]; rfl
  have hc2 : B 2 0 = 0 := by rw [hcol]; rfl
  have e01 := e 0 1
  have e02 := e 0 2
  have e11 := e 1 1
  have e12 := e 1 2
  simp [mul_apply, Fin.sum_univ_three, hc0, hc1, hc2] at e01 e02 e11 e12
  rw [det_fin_three] at hBd
  simp only [hc0, hc1, hc2, e01, e02, zero_mul, one_mul, mul_zero, add_zero, sub_zero] at hBd e11 e12
  have hd : B 2 2 = B 1 1 := by
    linear_combination B 1 1 * hBd - B 2 2 * e11 + B 2 1 * e12
  have hb : B 1 2 = -B 2 1 := by
    linear_combination -B 1 2 * e11 + B 1 1 * e12 - B 2 1 * hBd
  set z : ℂ := ⟨B 1 1, B 2 1⟩ with hz
  have hz1 : ‖z‖ = 1 := by
    have : ‖z‖ ^ 2 = 1 := by
      rw [← Complex.normSq_eq_norm_sq, Complex.normSq_apply]
      linarith
    nlinarith [norm_nonneg z]
  have hexp : Complex.exp (z.arg * Complex.I) = z := by
    have := Complex.norm_mul_exp_arg_mul_I z
    rwa [hz1, Complex.ofReal_one, one_mul] at this
  set L : Matrix (Fin 3) (Fin 3) ℝ := !![0, 0, 0; 0, 0, -z.arg; 0, z.arg, 0] with hL
  have hLd : L.map Complex.ofReal = dsum (0 : Matrix (Fin 1) (Fin 1) ℂ) (rotHom (z.arg * Complex.I)) := by
    ext i j
    fin_cases i <;> fin_cases j <;> simp [hL, dsum, rotHom, Fin.addCases]
  have hBd' : B.map Complex.ofReal = dsum (1 : Matrix (Fin 1) (Fin 1) ℂ) (rotHom z) := by
    ext i j
    fin_cases i <;> fin_cases j <;> simp [dsum, rotHom, Fin.addCases, hz, hc0, hc1, hc2, e01, e02, hd, hb]
  have hLB : exp (L.map Complex.ofReal) = B.map Complex.ofReal := by
    rw [hLd, hBd']
    refine (exp_dsum _ _).trans ?_
    rw [exp_zero, exp_rot, hexp]
  refine ⟨Q * L * Qᵀ, ?_, ?_⟩
  · rw [transpose_mul, transpose_mul, transpose_transpose, ← Matrix.mul_assoc, ← Matrix.neg_mul, ← Matrix.mul_neg]
    congr 2
    ext i j
    fin_cases i <;> fin_cases j <;> simp [hL]
  · set P := Q.map Complex.ofReal with hP
    have hPt : (Qᵀ).map Complex.ofReal = Pᵀ := rfl
    have hPP : P * Pᵀ = 1 := by
      rw [← hPt, hP]
      refine (Matrix.map_mul (f := Complex.ofRealHom) (L := Q) (M := Qᵀ)).symm.trans ?_
      rw [hQ']
      exact Matrix.map_one _ (map_zero _) (map_one _)
    have hinv : P⁻¹ = Pᵀ := inv_eq_right_inv hPP
    have hPu : IsUnit P := ⟨⟨P, Pᵀ, hPP, mul_eq_one_comm.1 hPP⟩, rfl⟩
    have m3 : ∀ M : Matrix (Fin 3) (Fin 3) ℝ, (Q * M * Qᵀ).map Complex.ofReal = P * M.map Complex.ofReal * P⁻¹ := by
      intro M
      rw [hinv, ← hPt, hP]
      exact (Matrix.map_mul (f := Complex.ofRealHom)).trans (by rw [Matrix.map_mul]; rfl)
    rw [m3, Matrix.exp_conj _ _ hPu, hLB, ← m3, ← hRQ]

end LieNN
