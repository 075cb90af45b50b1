import Mathlib.Analysis.CStarAlgebra.Unitary.Connected
import Mathlib.Analysis.CStarAlgebra.Matrix
import Mathlib.Analysis.Matrix.Spectrum
import Mathlib.Analysis.Normed.Algebra.MatrixExponential
import Mathlib.LinearAlgebra.UnitaryGroup
import Mathlib.LinearAlgebra.Matrix.FiniteDimensional
/-!
# The exponential map is onto the special unitary group
-/
namespace LieNN

open Matrix NormedSpace

variable {N : ℕ}

open scoped Matrix.Norms.L2Operator in
/-- Every unitary matrix is the exponential of a skew-Hermitian matrix. -/
theorem unitary_exp {U : Matrix (Fin N) (Fin N) ℂ} (hU : U ∈ unitary (Matrix (Fin N) (Fin N) ℂ)) :
    ∃ A : Matrix (Fin N) (Fin N) ℂ, A.IsHermitian ∧ exp (Complex.I • A) = U := by
  have hc : ContinuousOn Complex.arg (spectrum ℂ U) := (Matrix.finite_spectrum U).continuousOn _
  refine ⟨cfc (Complex.ofReal ∘ Complex.arg : ℂ → ℂ) U, IsSelfAdjoint.cfc_arg U, ?_⟩
  have hn : IsStarNormal U := ⟨by
    show star U * U = U * star U
    rw [Unitary.star_mul_self_of_mem hU, Unitary.mul_star_self_of_mem hU]⟩
  have hc' : ContinuousOn (Complex.ofReal ∘ Complex.arg : ℂ → ℂ) (spectrum ℂ U) :=
    Complex.continuous_ofReal.comp_continuousOn hc
  rw [← CFC.exp_eq_normedSpace_exp (𝕜 := ℂ), ← cfc_comp_smul .., ← cfc_comp' ..]
  conv_rhs => rw [← cfc_id' ℂ U]
  refine cfc_congr fun y hy ↦ ?_
  have hy₁ : ‖y‖ = 1 := spectrum.norm_eq_one_of_unitary hU hy
  have : Complex.I * y.arg = Complex.log y :=
    Complex.ext (by simp [Complex.log_re, hy₁]) (by simp [Complex.log_im])
  have h0 : y ≠ 0 := by
    rintro rfl
    simp at hy₁
  simpa [← Complex.exp_eq_exp_ℂ, this] using Complex.exp_log h0

/-- Every unitary matrix of determinant one is the exponential of a skew-Hermitian matrix of trace zero. -/
theorem special_unitary_exp {U : Matrix (Fin N) (Fin N) ℂ} (hU : U ∈ specialUnitaryGroup (Fin N) ℂ) :
    ∃ Y : Matrix (Fin N) (Fin N) ℂ, Yᴴ = -Y ∧ Y.trace = 0 ∧ exp Y = U := by
  obtain ⟨hU1, hU2⟩ := mem_specialUnitaryGroup_iff.1 hU
  obtain ⟨A, hA, rfl⟩ := unitary_exp hU1
  rcases Nat.eq_zero_or_pos N with rfl | hN
  · exact ⟨0, by simp, by simp, Subsingleton.elim _ _⟩
  set V : Matrix (Fin N) (Fin N) ℂ := hA.eigenvectorUnitary.1 with hV
  set D : Fin N → ℝ := hA.eigenvalues with hD
  have hVV : V * Vᴴ = 1 := Unitary.mul_star_self_of_mem hA.eigenvectorUnitary.2
  have hVV' : Vᴴ * V = 1 := Unitary.star_mul_self_of_mem hA.eigenvectorUnitary.2
  have hinv : V⁻¹ = Vᴴ := inv_eq_right_inv hVV
  have hVu : IsUnit V := ⟨⟨V, Vᴴ, hVV, hVV'⟩, rfl⟩
  have hspec : A = V * diagonal (fun i => (D i : ℂ)) * Vᴴ := hA.spectral_theorem
  -- the exponential of a diagonal matrix in the basis of the eigenvectors
  have hexp : ∀ E : Fin N → ℝ, exp (Complex.I • (V * diagonal (fun i => (E i : ℂ)) * Vᴴ)) =
      V * diagonal (fun i => Complex.exp (Complex.I * E i)) * Vᴴ := by
    intro E
    have e : Complex.I • (V * diagonal (fun i => (E i : ℂ)) * Vᴴ) =
        V * diagonal (fun i => Complex.I * (E i : ℂ)) * V⁻¹ := by
      rw [hinv, ← Matrix.smul_mul, ← Matrix.mul_smul, ← diagonal_smul]
      rfl
    rw [e, Matrix.exp_conj _ _ hVu, Matrix.exp_diagonal, hinv]
    congr 3
    funext i
    rw [Pi.coe_exp, Complex.exp_eq_exp_ℂ]
  -- the trace is a multiple of the period
  have hdet : Complex.exp (Complex.I * ∑ i, (D i : ℂ)) = 1 := by
    rw [hspec, hexp, det_mul, det_mul, mul_right_comm, ← det_mul, hVV, det_one, one_mul, det_diagonal,
      ← Complex.exp_sum, ← Finset.mul_sum] at hU2
    exact hU2
  obtain ⟨k, hk⟩ := Complex.exp_eq_one_iff.1 hdet
  have hk' : ∑ i, (D i : ℂ) = k * (2 * Real.pi) := by
    have : Complex.I * ∑ i, (D i : ℂ) = Complex.I * (k * (2 * Real.pi)) := by rw [hk]; ring
    exact mul_left_cancel₀ Complex.I_ne_zero this
  set E : Fin N → ℝ := Function.update D ⟨0, hN⟩ (D ⟨0, hN⟩ - k * (2 * Real.pi)) with hE
  refine ⟨Complex.I • (V * diagonal (fun i => (E i : ℂ)) * Vᴴ), ?_, ?_, ?_⟩
  · rw [conjTranspose_smul, conjTranspose_mul, conjTranspose_mul, conjTranspose_conjTranspose,
      diagonal_conjTranspose, ← Matrix.mul_assoc, Complex.star_def, Complex.conj_I, neg_smul]
    congr 5
    funext i
    simp
  · rw [trace_smul, trace_mul_cycle, hVV', one_mul, trace_diagonal]
    have : ∑ i, (E i : ℂ) = 0 := by
      have h1 : ∀ i, (E i : ℂ) = Function.update (fun i => (D i : ℂ)) ⟨0, hN⟩ ((D ⟨0, hN⟩ : ℂ) - k * (2 * Real.pi)) i := by
        intro i
        rw [hE]
        by_cases h : i = ⟨0, hN⟩
        · subst h; simp
        · simp [Function.update_of_ne h]
      simp only [h1]
      rw [Finset.sum_update_of_mem (Finset.mem_univ _)]
      rw [← Finset.add_sum_erase _ _ (Finset.mem_univ (⟨0, hN⟩ : Fin N)), ← Finset.sdiff_singleton_eq_erase] at hk'
      linear_combination hk'
    rw [this, smul_zero]
  · rw [hexp]
    conv_rhs => rw [hspec, hexp]
    congr 3
    funext i
    by_cases h : i = ⟨0, hN⟩
    · subst h
      rw [hE, Function.update_self]
      push_cast
      rw [mul_sub, Complex.exp_sub]
      have : Complex.exp (Complex.I * (k * (2 * Real.pi))) = 1 :=
        Complex.exp_eq_one_iff.2 ⟨k, by ring⟩
      rw [this, div_one]
    · rw [hE, Function.update_of_ne h]

/-- A skew-Hermitian matrix in the complex span of independent skew-Hermitian matrices has real coordinates. -/
theorem real_coords {ι : Type} [Fintype ι] {X : ι → Matrix (Fin N) (Fin N) ℂ} (hli : LinearIndependent ℂ X)
    (hs : ∀ a, (X a)ᴴ = -X a) {Y : Matrix (Fin N) (Fin N) ℂ} (hY : Yᴴ = -Y) (hm : Y ∈ Submodule.span ℂ (Set.range X)) :
    ∃ c : ι → ℝ, ∑ a, (c a : ℂ) • X a = Y := by
  obtain ⟨c, rfl⟩ := (Submodule.mem_span_range_iff_exists_fun ℂ).1 hm
  have h : ∑ a, (starRingEnd ℂ (c a) - c a) • X a = 0 := by
    rw [conjTranspose_sum] at hY
    simp only [conjTranspose_smul, hs, smul_neg, Finset.sum_neg_distrib, neg_inj] at hY
    simp only [sub_smul, Finset.sum_sub_distrib]
    exact sub_eq_zero.2 hY
  have h0 := Fintype.linearIndependent_iff.1 hli _ h
  refine ⟨fun a => (c a).re, Finset.sum_congr rfl fun a _ => ?_⟩
  rw [Complex.conj_eq_iff_re.1 (sub_eq_zero.1 (h0 a))]

/-- The exponentials of the real combinations of a basis of `su(N)` are all of `SU(N)`. -/
theorem exp_onto_SU {X : Fin (N ^ 2 - 1) → Matrix (Fin N) (Fin N) ℂ} (hli : LinearIndependent ℂ X)
    (hs : ∀ a, (X a)ᴴ = -X a) (ht : ∀ a, (X a).trace = 0) {U : Matrix (Fin N) (Fin N) ℂ}
    (hU : U ∈ specialUnitaryGroup (Fin N) ℂ) : ∃ c : Fin (N ^ 2 - 1) → ℝ, exp (∑ a, (c a : ℂ) • X a) = U := by
  rcases Nat.eq_zero_or_pos N with rfl | hN
  · exact ⟨0, Subsingleton.elim _ _⟩
  obtain ⟨Y, h1, h2, rfl⟩ := special_unitary_exp hU
  suffices hm : Y ∈ Submodule.span ℂ (Set.range X) by
    obtain ⟨c, rfl⟩ := real_coords hli hs h1 hm
    exact ⟨c, rfl⟩
  have hle : Submodule.span ℂ (Set.range X) ≤ LinearMap.ker (traceLinearMap (Fin N) ℂ ℂ) := by
    rw [Submodule.span_le]
    rintro _ ⟨a, rfl⟩
    exact ht a
  have hrank : Module.finrank ℂ (LinearMap.ker (traceLinearMap (Fin N) ℂ ℂ)) = N ^ 2 - 1 := by
    have hsurj : LinearMap.range (traceLinearMap (Fin N) ℂ ℂ) = ⊤ := by
      rw [LinearMap.range_eq_top]
      intro z
      refine ⟨diagonal (Function.update 0 ⟨0, hN⟩ z), ?_⟩
      rw [traceLinearMap_apply, trace_diagonal, Finset.sum_update_of_mem (Finset.mem_univ _)]
      simp
    have := LinearMap.finrank_range_add_finrank_ker (traceLinearMap (Fin N) ℂ ℂ)
    rw [hsurj, finrank_top, Module.finrank_self, Module.finrank_matrix, Module.finrank_self, Fintype.card_fin,
      mul_one] at this
    rw [pow_two]
    omega
  have : Submodule.span ℂ (Set.range X) = LinearMap.ker (traceLinearMap (Fin N) ℂ ℂ) := by
    refine Submodule.eq_of_le_of_finrank_eq hle ?_
    rw [hrank, finrank_span_eq_card hli, Fintype.card_fin]
  rw [this]
  exact h2

end LieNN
