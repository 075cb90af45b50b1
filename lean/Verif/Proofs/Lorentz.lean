import Verif.Spec.Lorentz
import Verif.Props.SL2C
import Verif.Proofs.GroupRepOnto
import Mathlib.Analysis.SpecialFunctions.Arsinh
/-!
# The exponentials of `SO13.four_vector` generate the restricted Lorentz group
-/
namespace LieNN.SO13

open Matrix NormedSpace Spec

theorem eta_map : ofRealMat 4 eta = Props.minkowski := by
  ext i j
  fin_cases i <;> fin_cases j <;> simp [ofRealMat, eta, Props.minkowski]

theorem exp_minkowski {Y : Matrix (Fin 4) (Fin 4) ℂ} (hY : Yᵀ * Props.minkowski + Props.minkowski * Y = 0) :
    (exp Y)ᵀ * Props.minkowski * exp Y = Props.minkowski := by
  have h2 : Props.minkowski * Props.minkowski = 1 := by rw [← eta_map, ← map_mul, eta_mul_eta, map_one]
  have hu : IsUnit Props.minkowski := ⟨⟨_, _, h2, h2⟩, rfl⟩
  have hi : Props.minkowski⁻¹ = Props.minkowski := inv_eq_right_inv h2
  have e : Yᵀ = Props.minkowski * (-Y) * Props.minkowski⁻¹ := by
    rw [hi, Matrix.mul_neg, ← eq_neg_of_add_eq_zero_left hY, Matrix.mul_assoc, h2, Matrix.mul_one]
  rw [← Matrix.exp_transpose, e, Matrix.exp_conj _ _ hu, hi]
  calc Props.minkowski * exp (-Y) * Props.minkowski * Props.minkowski * exp Y =
      Props.minkowski * (exp (-Y) * (Props.minkowski * Props.minkowski) * exp Y) := by simp only [Matrix.mul_assoc]
    _ = Props.minkowski := by
      rw [h2, Matrix.mul_one, ← Matrix.exp_add_of_commute _ _ (Commute.refl Y).neg_left, neg_add_cancel, exp_zero, Matrix.mul_one]

theorem fourVector_real (a : Fin 6) : (fourVector.X a).map (starRingEnd ℂ) = fourVector.X a := by
  ext i j
  fin_cases a <;> fin_cases i <;> fin_cases j <;> simp [fourVector, fourVectorX]

theorem fourVector_pres {c : Fin 6 → ℝ} {k : Fin 0 → ℤ} {g : Matrix (Fin 4) (Fin 4) ℂ}
    (hg : fourVector.expMap (fun a => (c a : ℂ)) k = .ok g) :
    ∃ m : Matrix (Fin 4) (Fin 4) ℝ, ofRealMat 4 m = g ∧ mᵀ * eta * m = eta := by
  have hr := real_expMap fourVector_real (fun a => a.elim0) hg
  refine ⟨_, hr, ?_⟩
  apply ofRealMat_injective 4
  rw [map_mul, map_mul, eta_map, hr]
  have ht : ofRealMat 4 (g.map Complex.re)ᵀ = gᵀ := by rw [← hr]; rfl
  rw [ht, ← Except.ok.inj hg]
  refine exp_minkowski ?_
  rw [transpose_sum, Matrix.sum_mul, Matrix.mul_sum, ← Finset.sum_add_distrib]
  refine Finset.sum_eq_zero fun a _ => ?_
  rw [transpose_smul, Matrix.smul_mul, Matrix.mul_smul, ← smul_add, Props.C39_four_vector.2 a, smul_zero]

/-- The exponentials are in the restricted Lorentz group. -/
theorem fourVector_mem {c : Fin 6 → ℝ} {k : Fin 0 → ℤ} {g : Matrix (Fin 4) (Fin 4) ℂ}
    (hg : fourVector.expMap (fun a => (c a : ℂ)) k = .ok g) : ∃ L ∈ lorentz, ofRealMat 4 L = g := by
  obtain ⟨m, hm, hp⟩ := fourVector_pres (c := fun a => c a / 2) (k := k) (expMap_zero _ _ _)
  have h0 : m 0 0 ^ 2 = 1 + (m 1 0 ^ 2 + m 2 0 ^ 2 + m 3 0 ^ 2) := lorentz_col hp
  refine ⟨m * m, ⟨?_, ?_, ?_⟩, ?_⟩
  · rw [transpose_mul]
    calc mᵀ * mᵀ * eta * (m * m) = mᵀ * (mᵀ * eta * m) * m := by simp only [Matrix.mul_assoc]
      _ = eta := by rw [hp, hp]
  · have := congrArg Matrix.det hp
    rw [det_mul, det_mul, det_transpose] at this
    have he : eta.det ≠ 0 := by simp [eta, det_diagonal, Fin.prod_univ_four]
    rw [det_mul]
    exact mul_right_cancel₀ he (by rw [one_mul, mul_right_comm]; exact this)
  · refine lorentz_time hp hp ?_
    nlinarith [sq_nonneg (m 1 0), sq_nonneg (m 2 0), sq_nonneg (m 3 0)]
  · rw [map_mul, hm, ← Except.ok.inj hg, ← Matrix.exp_add_of_commute _ _ (Commute.refl _), ← Finset.sum_add_distrib]
    congr 1
    refine Finset.sum_congr rfl fun a _ => ?_
    rw [← add_smul]
    congr 1
    push_cast
    ring

/-- A rotation of space. -/
noncomputable def spatial (R : Matrix (Fin 3) (Fin 3) ℝ) : Matrix (Fin 4) (Fin 4) ℝ := dsum (1 : Matrix (Fin 1) (Fin 1) ℝ) R

theorem spatial_mul (R S : Matrix (Fin 3) (Fin 3) ℝ) : spatial (R * S) = spatial R * spatial S := by
  rw [spatial, spatial, spatial]
  exact (congrArg (dsum · (R * S)) (Matrix.one_mul 1)).symm.trans (dsum_mul _ _ _ _).symm

theorem spatial_one : spatial 1 = 1 := dsum_one

theorem spatial_exp {R : Matrix (Fin 3) (Fin 3) ℝ} (hR : R ∈ specialOrthogonalGroup (Fin 3) ℝ) :
    ∃ c : Fin 6 → ℝ, fourVector.expMap (fun a => (c a : ℂ)) Fin.elim0 = .ok (ofRealMat 4 (spatial R)) := by
  obtain ⟨Y, hY, hE⟩ := rotation_exp hR
  refine ⟨![-Y 1 2, Y 0 2, -Y 0 1, 0, 0, 0], ?_⟩
  rw [expMap_zero]
  congr 1
  have y := fun i j => congrFun (congrFun hY i) j
  simp only [transpose_apply, Matrix.neg_apply] at y
  have y00 : Y 0 0 = 0 := by linarith [y 0 0]
  have y11 : Y 1 1 = 0 := by linarith [y 1 1]
  have y22 : Y 2 2 = 0 := by linarith [y 2 2]
  have y01 := y 0 1
  have y02 := y 0 2
  have y12 := y 1 2
  have e : ∑ a, ((![-Y 1 2, Y 0 2, -Y 0 1, 0, 0, 0] a : ℝ) : ℂ) • fourVector.X a =
      dsum (0 : Matrix (Fin 1) (Fin 1) ℂ) (Y.map Complex.ofReal) := by
    ext i j
    simp only [Fin.sum_univ_six, Matrix.add_apply, Matrix.smul_apply]
    fin_cases i <;> fin_cases j <;>
      simp [fourVector, fourVectorX, dsum, Fin.addCases, y00, y11, y22, y01, y02, y12]
  rw [e]
  refine (exp_dsum _ _).trans ?_
  rw [exp_zero, hE]
  ext i j
  fin_cases i <;> fin_cases j <;> simp [spatial, ofRealMat, dsum, Fin.addCases]

/-- A boost along the first axis. -/
noncomputable def boostX (t : ℝ) : Matrix (Fin 4) (Fin 4) ℝ :=
  !![Real.cosh t, Real.sinh t, 0, 0; Real.sinh t, Real.cosh t, 0, 0; 0, 0, 1, 0; 0, 0, 0, 1]

theorem boostX_exp (t : ℝ) : exp ((t : ℂ) • fourVector.X 3) = ofRealMat 4 (boostX t) := by
  set U : Matrix (Fin 4) (Fin 4) ℂ := !![1, 1, 0, 0; 1, -1, 0, 0; 0, 0, 1, 0; 0, 0, 0, 1] with hU
  set V : Matrix (Fin 4) (Fin 4) ℂ := !![1 / 2, 1 / 2, 0, 0; 1 / 2, -1 / 2, 0, 0; 0, 0, 1, 0; 0, 0, 0, 1] with hV
  have h1 : U * V = 1 := by
    ext i j
    fin_cases i <;> fin_cases j <;> simp [hU, hV, mul_apply, Fin.sum_univ_four] <;> norm_num
  have hi : U⁻¹ = V := inv_eq_right_inv h1
  have hu : IsUnit U := ⟨⟨U, V, h1, mul_eq_one_comm.1 h1⟩, rfl⟩
  have e : (t : ℂ) • fourVector.X 3 = U * diagonal ![(t : ℂ), -t, 0, 0] * U⁻¹ := by
    rw [hi]
    ext i j
    rw [mul_apply, Fin.sum_univ_four]
    simp only [mul_diagonal]
    fin_cases i <;> fin_cases j <;> simp [hU, hV, fourVector, fourVectorX] <;> ring
  rw [e, Matrix.exp_conj _ _ hu, Matrix.exp_diagonal, hi]
  have hd : ∀ i, exp (![(t : ℂ), -t, 0, 0] : Fin 4 → ℂ) i = ![Complex.exp t, Complex.exp (-t), 1, 1] i := by
    intro i
    rw [Pi.coe_exp, ← Complex.exp_eq_exp_ℂ]
    fin_cases i <;> simp
  ext i j
  rw [mul_apply, Fin.sum_univ_four]
  simp only [mul_diagonal, hd]
  fin_cases i <;> fin_cases j <;> simp [hU, hV, boostX, ofRealMat, Complex.cosh, Complex.sinh] <;> ring

theorem boostX_zero : boostX 0 = 1 := by
  ext i j
  fin_cases i <;> fin_cases j <;> simp [boostX]

theorem boostX_neg (t : ℝ) : boostX t * boostX (-t) = 1 := by
  have := Real.cosh_sq t
  ext i j
  rw [mul_apply, Fin.sum_univ_four]
  fin_cases i <;> fin_cases j <;> simp [boostX] <;> nlinarith

/-- A boost along the direction of the first column of `Q`. -/
noncomputable def boostQ (Q : Matrix (Fin 3) (Fin 3) ℝ) (t : ℝ) : Matrix (Fin 4) (Fin 4) ℝ := spatial Q * boostX t * spatial Qᵀ

theorem boostQ_exp {Q : Matrix (Fin 3) (Fin 3) ℝ} (hQ : Qᵀ * Q = 1) (t : ℝ) :
    ∃ c : Fin 6 → ℝ, fourVector.expMap (fun a => (c a : ℂ)) Fin.elim0 = .ok (ofRealMat 4 (boostQ Q t)) := by
  refine ⟨![0, 0, 0, t * Q 0 0, t * Q 1 0, t * Q 2 0], ?_⟩
  rw [expMap_zero]
  congr 1
  set U := ofRealMat 4 (spatial Q)
  set V := ofRealMat 4 (spatial Qᵀ)
  have h1 : U * V = 1 := by
    rw [← map_mul, ← spatial_mul, mul_eq_one_comm.1 hQ, spatial_one, map_one]
  have hi : U⁻¹ = V := inv_eq_right_inv h1
  have hu : IsUnit U := ⟨⟨U, V, h1, mul_eq_one_comm.1 h1⟩, rfl⟩
  have e : ∑ a, ((![0, 0, 0, t * Q 0 0, t * Q 1 0, t * Q 2 0] a : ℝ) : ℂ) • fourVector.X a =
      U * ((t : ℂ) • fourVector.X 3) * U⁻¹ := by
    rw [hi]
    ext i j
    simp only [Fin.sum_univ_six, Matrix.add_apply, Matrix.smul_apply, mul_apply, Fin.sum_univ_four]
    fin_cases i <;> fin_cases j <;>
      simp [fourVector, fourVectorX, U, V, ofRealMat, spatial, dsum, Fin.addCases] <;> ring
  rw [e, Matrix.exp_conj _ _ hu, boostX_exp, hi, boostQ, map_mul, map_mul]

theorem boostQ_neg {Q : Matrix (Fin 3) (Fin 3) ℝ} (hQ : Qᵀ * Q = 1) (t : ℝ) : boostQ Q t * boostQ Q (-t) = 1 := by
  have h1 : spatial Qᵀ * spatial Q = 1 := by rw [← spatial_mul, hQ, spatial_one]
  have h2 : spatial Q * spatial Qᵀ = 1 := mul_eq_one_comm.1 h1
  calc boostQ Q t * boostQ Q (-t) = spatial Q * (boostX t * (spatial Qᵀ * spatial Q) * boostX (-t)) * spatial Qᵀ := by
        simp only [boostQ, Matrix.mul_assoc]
    _ = 1 := by rw [h1, Matrix.mul_one, boostX_neg, Matrix.mul_one, h2]

theorem boostQ_col (Q : Matrix (Fin 3) (Fin 3) ℝ) (t : ℝ) : boostQ Q t 0 0 = Real.cosh t ∧
    boostQ Q t 1 0 = Real.sinh t * Q 0 0 ∧ boostQ Q t 2 0 = Real.sinh t * Q 1 0 ∧ boostQ Q t 3 0 = Real.sinh t * Q 2 0 := by
  simp only [boostQ, mul_apply, Fin.sum_univ_four]
  refine ⟨?_, ?_, ?_, ?_⟩ <;> simp [spatial, boostX, dsum, Fin.addCases] <;> ring

/-- A boost with a given first column. -/
theorem exists_boost {L : Matrix (Fin 4) (Fin 4) ℝ} (hL : L ∈ lorentz) :
    ∃ (Q : Matrix (Fin 3) (Fin 3) ℝ) (t : ℝ), Qᵀ * Q = 1 ∧ ∀ i, boostQ Q t i 0 = L i 0 := by
  obtain ⟨h1, -, h3⟩ := hL
  have hc := lorentz_col h1
  have key : ∃ (Q : Matrix (Fin 3) (Fin 3) ℝ) (t : ℝ), Qᵀ * Q = 1 ∧ L 1 0 = Real.sinh t * Q 0 0 ∧
      L 2 0 = Real.sinh t * Q 1 0 ∧ L 3 0 = Real.sinh t * Q 2 0 := by
    by_cases hv : (![L 1 0, L 2 0, L 3 0] : Fin 3 → ℝ) = 0
    · have v0 := congrFun hv 0
      have v1 := congrFun hv 1
      have v2 := congrFun hv 2
      simp at v0 v1 v2
      exact ⟨1, 0, by simp, by simp [v0], by simp [v1], by simp [v2]⟩
    · obtain ⟨Q, s, hQ, hs⟩ := orthogonal_first hv
      have s0 : s ≠ 0 := by
        rintro rfl
        have e := congrFun (congrFun hQ 0) 0
        rw [mul_apply, Fin.sum_univ_three] at e
        simp [hs] at e
      refine ⟨Q, Real.arsinh s⁻¹, hQ, ?_, ?_, ?_⟩ <;> rw [Real.sinh_arsinh, hs, inv_mul_cancel_left₀ s0] <;> rfl
  obtain ⟨Q, t, hQ, e1, e2, e3⟩ := key
  obtain ⟨b0, b1, b2, b3⟩ := boostQ_col Q t
  refine ⟨Q, t, hQ, fun i => ?_⟩
  fin_cases i
  · refine b0.trans ?_
    have hq := congrFun (congrFun hQ 0) 0
    rw [mul_apply, Fin.sum_univ_three] at hq
    simp only [transpose_apply, one_apply_eq] at hq
    have : Real.cosh t ^ 2 = L 0 0 ^ 2 := by
      rw [Real.cosh_sq, hc, e1, e2, e3]
      linear_combination -Real.sinh t ^ 2 * hq
    exact (pow_left_inj₀ (Real.cosh_pos t).le h3.le two_ne_zero).1 this
  · exact b1.trans e1.symm
  · exact b2.trans e2.symm
  · exact b3.trans e3.symm

/-- Every element of the group is a boost times a rotation. -/
theorem lorentz_exp {L : Matrix (Fin 4) (Fin 4) ℝ} (hL : L ∈ lorentz) : ∃ (c c' : Fin 6 → ℝ) (g g' : Matrix (Fin 4) (Fin 4) ℝ),
    fourVector.expMap (fun a => (c a : ℂ)) Fin.elim0 = .ok (ofRealMat 4 g) ∧
    fourVector.expMap (fun a => (c' a : ℂ)) Fin.elim0 = .ok (ofRealMat 4 g') ∧ L = g * g' := by
  obtain ⟨Q, t, hQ, hcol⟩ := exists_boost hL
  obtain ⟨c, hc⟩ := boostQ_exp hQ t
  obtain ⟨c₁, hc₁⟩ := boostQ_exp hQ (-t)
  have hB := boostQ_neg hQ t
  have hB' : boostQ Q (-t) * boostQ Q t = 1 := mul_eq_one_comm.1 hB
  set K := boostQ Q (-t) * L with hK
  have hKm : K ∈ lorentz := by
    obtain ⟨M, hM, e⟩ := fourVector_mem hc₁
    rw [hK, ← ofRealMat_injective 4 e]
    exact lorentz.mul_mem hM hL
  have hK0 : ∀ i, K i 0 = (1 : Matrix (Fin 4) (Fin 4) ℝ) i 0 := by
    intro i
    rw [hK, mul_apply, ← hB', mul_apply]
    exact Finset.sum_congr rfl fun k _ => by rw [hcol]
  obtain ⟨k1, k2, -⟩ := hKm
  have hr := lorentz_row k1
  have a0 : K 0 0 = 1 := hK0 0
  have a1 : K 1 0 = 0 := hK0 1
  have a2 : K 2 0 = 0 := hK0 2
  have a3 : K 3 0 = 0 := hK0 3
  rw [a0] at hr
  have r1 : K 0 1 = 0 := pow_eq_zero_iff two_ne_zero |>.1 (by nlinarith [sq_nonneg (K 0 1), sq_nonneg (K 0 2), sq_nonneg (K 0 3)])
  have r2 : K 0 2 = 0 := pow_eq_zero_iff two_ne_zero |>.1 (by nlinarith [sq_nonneg (K 0 1), sq_nonneg (K 0 2), sq_nonneg (K 0 3)])
  have r3 : K 0 3 = 0 := pow_eq_zero_iff two_ne_zero |>.1 (by nlinarith [sq_nonneg (K 0 1), sq_nonneg (K 0 2), sq_nonneg (K 0 3)])
  set R : Matrix (Fin 3) (Fin 3) ℝ := Matrix.of fun i j => K i.succ j.succ with hR
  have hKR : K = spatial R := by
    ext i j
    fin_cases i <;> fin_cases j <;> simp [spatial, dsum, Fin.addCases, hR, a0, a1, a2, a3, r1, r2, r3] <;> rfl
  have hRo : Rᵀ * R = 1 := by
    have e : ∀ i j : Fin 3, (R 0 i * R 0 j + R 1 i * R 1 j + R 2 i * R 2 j) = eta i.succ j.succ := by
      intro i j
      have e := congrFun (congrFun k1 i.succ) j.succ
      have z : ∀ i : Fin 3, K 0 i.succ = 0 := by
        intro i
        fin_cases i <;> assumption
      rw [mul_apply, Fin.sum_univ_four] at e
      simp only [eta, mul_diagonal, transpose_apply, z] at e
      rw [← eta] at e
      rw [← e]
      simp [hR]
    ext i j
    rw [mul_apply, Fin.sum_univ_three]
    simp only [transpose_apply, e]
    fin_cases i <;> fin_cases j <;> simp [eta]
  have hRd : R.det = 1 := by
    rw [det_succ_row_zero, Fin.sum_univ_four, a0, r1, r2, r3] at k2
    simp at k2
    exact k2
  obtain ⟨c', hc'⟩ := spatial_exp (mem_specialOrthogonalGroup_iff.2 ⟨(mem_orthogonalGroup_iff' (Fin 3) ℝ).2 hRo, hRd⟩)
  refine ⟨c, c', _, _, hc, hc', ?_⟩
  rw [← hKR, hK, ← Matrix.mul_assoc, hB, Matrix.one_mul]

end LieNN.SO13
