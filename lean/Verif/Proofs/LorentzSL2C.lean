import Verif.Proofs.LorentzRep
/-!
# The group of `SL2C` with real parameters, and the turn by `2π`
-/
namespace LieNN

open Matrix NormedSpace Spec SL2C

section
variable {n h d₁ d₂ : ℕ}

/-- The first summand of a direct sum. -/
theorem polyOf_left (r₁ : Rep n h d₁) (r₂ : Rep n h d₂) : PolyOf (r₁.directSum r₂) r₁ 1 := by
  set T : Matrix (Fin d₁) (Fin (d₁ + d₂)) ℂ := Matrix.of fun i j => Fin.addCases (fun j => (1 : Matrix _ _ ℂ) i j) (fun _ => 0) j with hT
  have hl : ∀ i j, T i (Fin.castAdd d₂ j) = (1 : Matrix _ _ ℂ) i j := by intro i j; simp [hT]
  have hr : ∀ i j, T i (Fin.natAdd d₁ j) = 0 := by intro i j; simp [hT]
  have key : ∀ (M : Matrix (Fin d₁) (Fin d₁) ℂ) (N : Matrix (Fin d₂) (Fin d₂) ℂ), M * T = T * dsum M N := by
    intro M N
    ext i j
    rw [mul_apply, mul_apply, Fin.sum_univ_add]
    refine Fin.addCases (fun j => ?_) (fun j => ?_) j
    · simp only [hl, hr, dsum_ll, zero_mul, Finset.sum_const_zero, add_zero]
      rw [← mul_apply, ← mul_apply, Matrix.mul_one, Matrix.one_mul]
    · simp only [hl, hr, dsum_lr, mul_zero, zero_mul, Finset.sum_const_zero, add_zero]
  refine (PolyOf.refl (r₁.directSum r₂)).image (T := T) (T' := Tᵀ) ?_ (fun a => key _ _) (fun a => key _ _)
  ext i j
  rw [mul_apply, Fin.sum_univ_add]
  simp only [transpose_apply, hl, hr, zero_mul, Finset.sum_const_zero, add_zero]
  simp [Matrix.one_apply]

/-- The second summand. -/
theorem polyOf_right (r₁ : Rep n h d₁) (r₂ : Rep n h d₂) : PolyOf (r₁.directSum r₂) r₂ 1 := by
  set T : Matrix (Fin d₂) (Fin (d₁ + d₂)) ℂ := Matrix.of fun i j => Fin.addCases (fun _ => 0) (fun j => (1 : Matrix _ _ ℂ) i j) j with hT
  have hl : ∀ i j, T i (Fin.castAdd d₂ j) = 0 := by intro i j; simp [hT]
  have hr : ∀ i j, T i (Fin.natAdd d₁ j) = (1 : Matrix _ _ ℂ) i j := by intro i j; simp [hT]
  have key : ∀ (M : Matrix (Fin d₁) (Fin d₁) ℂ) (N : Matrix (Fin d₂) (Fin d₂) ℂ), N * T = T * dsum M N := by
    intro M N
    ext i j
    rw [mul_apply, mul_apply, Fin.sum_univ_add]
    refine Fin.addCases (fun j => ?_) (fun j => ?_) j
    · simp only [hl, hr, dsum_rl, mul_zero, zero_mul, Finset.sum_const_zero, add_zero]
    · simp only [hl, hr, dsum_rr, zero_mul, Finset.sum_const_zero, zero_add]
      rw [← mul_apply, ← mul_apply, Matrix.mul_one, Matrix.one_mul]
  refine (PolyOf.refl (r₁.directSum r₂)).image (T := T) (T' := Tᵀ) ?_ (fun a => key _ _) (fun a => key _ _)
  ext i j
  rw [mul_apply, Fin.sum_univ_add]
  simp only [transpose_apply, hl, hr, zero_mul, Finset.sum_const_zero, zero_add]
  simp [Matrix.one_apply]
end

namespace SL2C

/-- The two spinors. -/
noncomputable def spinors : Rep 6 0 ((⟨1, 0⟩ : SL2C).dim + (⟨0, 1⟩ : SL2C).dim) := (rep ⟨1, 0⟩).directSum (rep ⟨0, 1⟩)

theorem polyOf_cg {b : ℕ} {base : Rep 6 0 b} {r₁ r₂ r₃ : SL2C} {e₁ e₂ : ℕ} (h1 : PolyOf base (rep r₁) e₁)
    (h2 : PolyOf base (rep r₂) e₂) (h : r₃ ∈ mulL r₁ r₂) : PolyOf base (rep r₃) (e₁ + e₂) := by
  refine h1.of_cg h2 (SL2C.isCG h) fun c c' => ?_
  have := congrArg Complex.ofReal (SL2C.ctS_orth h h c c')
  push_cast at this
  simp only [ctC, Complex.conj_ofReal]
  rw [this]
  simp only [Fin.ext_iff, true_and]
  split_ifs <;> simp

theorem polyOf : ∀ l k : ℕ, PolyOf spinors (rep ⟨l, k⟩) (l + k)
  | 0, 0 => by
    refine PolyOf.trivial _ (fun a => ?_) fun a => a.elim0
    have hp := SO13.phase_unit a
    have := SO13.X₀_trivial a
    rw [SO13.X₀_phase] at this
    have := congrArg (star (SO13.phase a) • ·) this
    simpa only [smul_smul, hp, one_smul, smul_zero] using this
  | l + 1, k => by
    have h1 : l + 1 ∈ SU2.mulL l 1 := SU2.mem_mulL.2 ⟨1, l, 0, by omega, by omega, by omega⟩
    have h2 : k ∈ SU2.mulL k 0 := SU2.mem_mulL.2 ⟨0, k, 0, by omega, by omega, by omega⟩
    have := polyOf_cg (polyOf l k) (polyOf_left (rep ⟨1, 0⟩) (rep ⟨0, 1⟩)) (r₃ := ⟨l + 1, k⟩) (mem_mulL.2 ⟨h1, h2⟩)
    rw [show l + 1 + k = l + k + 1 by omega]
    exact this
  | 0, k + 1 => by
    have h1 : 0 ∈ SU2.mulL 0 0 := SU2.mem_mulL.2 ⟨0, 0, 0, by omega, by omega, by omega⟩
    have h2 : k + 1 ∈ SU2.mulL k 1 := SU2.mem_mulL.2 ⟨1, k, 0, by omega, by omega, by omega⟩
    have := polyOf_cg (polyOf 0 k) (polyOf_right (rep ⟨1, 0⟩) (rep ⟨0, 1⟩)) (r₃ := ⟨0, k + 1⟩) (mem_mulL.2 ⟨h1, h2⟩)
    rw [show 0 + (k + 1) = 0 + k + 1 by omega]
    exact this

theorem X_castAdd (r : SL2C) (a : Fin 3) : (rep r).X (Fin.castAdd 3 a) = SO13.lm r a + SO13.rm r a := by
  rw [SO13.lm_eq, SO13.rm_eq]; module

theorem X_natAdd (r : SL2C) (a : Fin 3) : (rep r).X (Fin.natAdd 3 a) = SO13.lm r a - SO13.rm r a := by
  rw [SO13.lm_eq, SO13.rm_eq]; module

/-- The exponent in terms of the two copies of `su(2)`. -/
theorem sum_split (r : SL2C) (α β : Fin 3 → ℝ) :
    ∑ a : Fin 6, ((Fin.addCases (fun a => (α a + β a) / 2) (fun a => (α a - β a) / 2) (show Fin (3 + 3) from a) : ℝ) : ℂ) • (rep r).X a =
      ∑ a, (α a : ℂ) • SO13.lm r a + ∑ a, (β a : ℂ) • SO13.rm r a := by
  rw [show (∑ a : Fin 6, ((Fin.addCases (fun a => (α a + β a) / 2) (fun a => (α a - β a) / 2) (show Fin (3 + 3) from a) : ℝ) : ℂ) •
    (rep r).X a) = ∑ a : Fin (3 + 3), ((Fin.addCases (fun a => (α a + β a) / 2) (fun a => (α a - β a) / 2) a : ℝ) : ℂ) • (rep r).X a from rfl,
    Fin.sum_univ_add, ← Finset.sum_add_distrib, ← Finset.sum_add_distrib]
  refine Finset.sum_congr rfl fun a _ => ?_
  rw [X_castAdd, X_natAdd, Fin.addCases_left, Fin.addCases_right]
  push_cast
  module

theorem su2Mats_trace {d : ℕ} {F : Fin 3 → Matrix (Fin d) (Fin d) ℂ} (h : Su2Mats F) (a : Fin 3) : (F a).trace = 0 := by
  have := fun A B : Matrix (Fin d) (Fin d) ℂ => (trace_sub (A * B) (B * A)).trans (by rw [trace_mul_comm, sub_self])
  fin_cases a
  · exact (congrArg trace h.h12.symm).trans (this _ _)
  · exact (congrArg trace h.h20.symm).trans (this _ _)
  · exact (congrArg trace h.h01.symm).trans (this _ _)

theorem rep_trace (r : SL2C) (a : Fin 6) : ((rep r).X a).trace = 0 := by
  refine Fin.addCases (m := 3) (n := 3) (fun a => ?_) (fun a => ?_) a
  · rw [X_castAdd, trace_add, su2Mats_trace (SO13.su2Mats_lm r), su2Mats_trace (SO13.su2Mats_rm r), add_zero]
  · rw [X_natAdd, trace_sub, su2Mats_trace (SO13.su2Mats_lm r), su2Mats_trace (SO13.su2Mats_rm r), sub_zero]

theorem conjB_ne {l k : ℕ} {M : Matrix (Fin (l + 1) × Fin (k + 1)) (Fin (l + 1) × Fin (k + 1)) ℂ}
    (hM : (B l k)ᵀ * M * B l k = 0) : M = 0 := by
  calc M = (B l k * (B l k)ᵀ) * M * (B l k * (B l k)ᵀ) := by rw [B_mul, Matrix.one_mul, Matrix.mul_one]
    _ = B l k * ((B l k)ᵀ * M * B l k) * (B l k)ᵀ := by simp only [Matrix.mul_assoc]
    _ = 0 := by rw [hM, Matrix.mul_zero, Matrix.zero_mul]

theorem lm_indep {r : SL2C} (h : 1 ≤ r.l) : LinearIndependent ℂ (SO13.lm r) := by
  have hm := SO13.su2Mats_lm r
  refine su2_indep hm.h01 hm.h12 hm.h20 fun e => SU2.gens_ne h ?_
  have := conjB_ne e
  ext i j
  have := congrFun (congrFun this (i, 0)) (j, 0)
  simpa [Zl, kroneckerMap_apply] using this

theorem rm_indep {r : SL2C} (h : 1 ≤ r.k) : LinearIndependent ℂ (SO13.rm r) := by
  have hm := SO13.su2Mats_rm r
  refine su2_indep hm.h01 hm.h12 hm.h20 fun e => SU2.gens_ne h ?_
  have := conjB_ne e
  ext i j
  have := congrFun (congrFun this (0, i)) (0, j)
  simpa [Zr, kroneckerMap_apply] using this

theorem lm_zero (k : ℕ) (a : Fin 3) : SO13.lm ⟨0, k⟩ a = 0 := by
  simp [SO13.lm, Zl, SO13.gens_zero]

theorem rm_zero (l : ℕ) (a : Fin 3) : SO13.rm ⟨l, 0⟩ a = 0 := by
  simp [SO13.rm, Zr, SO13.gens_zero]

/-- All pairs of special unitary matrices are reached. -/
theorem spinors_onto {U V : Matrix (Fin 2) (Fin 2) ℂ} (hU : U ∈ specialUnitaryGroup (Fin 2) ℂ) (hV : V ∈ specialUnitaryGroup (Fin 2) ℂ) :
    ∃ c : Fin 6 → ℝ, (rep ⟨1, 0⟩).expMap (fun a => (c a : ℂ)) Fin.elim0 = .ok U ∧
      (rep ⟨0, 1⟩).expMap (fun a => (c a : ℂ)) Fin.elim0 = .ok V := by
  obtain ⟨α, hα⟩ := exp_onto_SU (N := 2) (X := SO13.lm ⟨1, 0⟩) (lm_indep (r := ⟨1, 0⟩) le_rfl) (SO13.lm_skew ⟨1, 0⟩)
    (su2Mats_trace (SO13.su2Mats_lm ⟨1, 0⟩)) hU
  obtain ⟨β, hβ⟩ := exp_onto_SU (N := 2) (X := SO13.rm ⟨0, 1⟩) (rm_indep (r := ⟨0, 1⟩) le_rfl) (SO13.rm_skew ⟨0, 1⟩)
    (su2Mats_trace (SO13.su2Mats_rm ⟨0, 1⟩)) hV
  refine ⟨fun a => Fin.addCases (fun a => (α a + β a) / 2) (fun a => (α a - β a) / 2) (show Fin (3 + 3) from a), ?_, ?_⟩
  · rw [expMap_zero, sum_split ⟨1, 0⟩ α β]
    simp only [rm_zero, smul_zero, Finset.sum_const_zero, add_zero]
    exact congrArg _ hα
  · rw [expMap_zero, sum_split ⟨0, 1⟩ α β]
    simp only [lm_zero, smul_zero, Finset.sum_const_zero, zero_add]
    exact congrArg _ hβ

theorem rep_unitary (r : SL2C) : IsUnitaryRep (rep r) := ⟨fun a => a.elim0, skew r⟩

end SL2C

namespace SO13

/-- The parameters of a turn by `2π`. -/
noncomputable def turn : Fin 6 → ℝ := ![0, 2 * Real.pi, 0, 0, 0, 0]

theorem turn_sum {d : ℕ} (X : Fin 6 → Matrix (Fin d) (Fin d) ℂ) : ∑ a, (turn a : ℂ) • X a = ((2 * Real.pi : ℝ) : ℂ) • X 1 := by
  rw [Fin.sum_univ_six]
  simp [turn]

theorem turn_exp (r : SL2C) : (rep₀ r).expMap (fun a => (turn a : ℂ)) Fin.elim0 = .ok ((-1 : ℂ) ^ (r.l + r.k) • 1) := by
  set T : Matrix (Fin r.dim) (Fin r.dim) ℂ := (B r.l r.k).submatrix finProdFinEquiv.symm id with hT
  have h1 : Tᵀ * T = 1 := by
    rw [hT, transpose_submatrix, submatrix_mul_equiv, B_mul', submatrix_id_id]
  have h2 : T * Tᵀ = 1 := mul_eq_one_comm.1 h1
  set δ : Fin (r.l + 1) × Fin (r.k + 1) → ℂ := fun p => Complex.I * (((-(r.l / 2) + (p.1 : ℕ) : ℝ)) : ℂ) -
    Complex.I * (((-(r.k / 2) + (p.2 : ℕ) : ℝ)) : ℂ) with hδ
  have hz : phase 1 • Z r.l r.k 1 = diagonal δ := by
    have e1 : Z r.l r.k 1 = Zl r.l r.k 1 + Zr r.l r.k 1 := rfl
    rw [e1, show phase 1 = 1 from rfl, one_smul, hδ]
    ext ⟨i, i'⟩ ⟨j, j'⟩
    simp [Zl, Zr, SU2.gens, SU2.zGen, kroneckerMap_apply, diagonal_apply, Matrix.one_apply]
    rw [show (starRingEnd ℂ) 2 = 2 from map_ofNat _ 2]
    by_cases h : i = j <;> by_cases h' : i' = j' <;> simp [h, h']
    ring
  have e : ∑ a, (turn a : ℂ) • (rep₀ r).X a = Tᵀ * diagonal (fun p => ((2 * Real.pi : ℝ) : ℂ) * δ (finProdFinEquiv.symm p)) * (Tᵀ)⁻¹ := by
    rw [inv_eq_right_inv h1, turn_sum]
    change ((2 * Real.pi : ℝ) : ℂ) • X₀ r 1 = _
    rw [X₀_B, hz, hT, transpose_submatrix, show (diagonal fun p => ((2 * Real.pi : ℝ) : ℂ) * δ (finProdFinEquiv.symm p)) =
      (diagonal fun p => ((2 * Real.pi : ℝ) : ℂ) * δ p).submatrix finProdFinEquiv.symm finProdFinEquiv.symm from
      (submatrix_diagonal_equiv (fun p => ((2 * Real.pi : ℝ) : ℂ) * δ p) finProdFinEquiv.symm).symm,
      submatrix_mul_equiv, submatrix_mul_equiv, submatrix_id_id]
    rw [show (diagonal fun p => ((2 * Real.pi : ℝ) : ℂ) * δ p) = ((2 * Real.pi : ℝ) : ℂ) • diagonal δ from diagonal_smul (((2 * Real.pi : ℝ) : ℂ)) δ,
      Matrix.mul_smul, Matrix.smul_mul]
  rw [expMap_zero, e, Matrix.exp_conj _ _ ⟨⟨Tᵀ, T, h1, h2⟩, rfl⟩, Matrix.exp_diagonal, inv_eq_right_inv h1]
  have hv : exp (fun p => ((2 * Real.pi : ℝ) : ℂ) * δ (finProdFinEquiv.symm p)) = fun _ => (-1 : ℂ) ^ (r.l + r.k) := by
    funext p
    rw [Pi.coe_exp, ← Complex.exp_eq_exp_ℂ]
    obtain ⟨x, y⟩ := finProdFinEquiv.symm p
    rw [hδ]
    have : ((2 * Real.pi : ℝ) : ℂ) * (Complex.I * (((-(r.l / 2) + (x : ℕ) : ℝ)) : ℂ) - Complex.I * (((-(r.k / 2) + (y : ℕ) : ℝ)) : ℂ)) =
        ((r.l + r.k : ℕ) : ℂ) * (Real.pi * Complex.I) + ((x - y - r.l : ℤ) : ℂ) * (2 * Real.pi * Complex.I) := by
      push_cast
      ring
    rw [this, Complex.exp_add, Complex.exp_int_mul_two_pi_mul_I, mul_one, Complex.exp_nat_mul, Complex.exp_pi_mul_I]
  rw [hv, show (diagonal fun _ : Fin r.dim => (-1 : ℂ) ^ (r.l + r.k)) = (-1 : ℂ) ^ (r.l + r.k) • 1 from (smul_one_eq_diagonal _).symm,
    Matrix.mul_smul, Matrix.mul_one, Matrix.smul_mul, h1]

theorem vector_inv' : (((1 / 2 : ℂ) • sigmaTᴴ) * B 1 1) * ((B 1 1)ᵀ * sigmaT) = 1 := by
  have h := vector_inv
  exact mul_eq_one_comm.1 h

theorem turn_vector : fourVector.expMap (fun a => (turn a : ℂ)) Fin.elim0 = .ok 1 := by
  have h0 := expMap_zero fourVector (fun a => (turn a : ℂ)) Fin.elim0
  have := expMap_intertwine vector_inter (fun a => a.elim0) h0 (turn_exp ⟨1, 1⟩)
  rw [h0]
  congr 1
  have e := congrArg ((((1 / 2 : ℂ) • sigmaTᴴ) * B 1 1) * ·) this
  simp only [← Matrix.mul_assoc _ _ (exp _)] at e
  rw [vector_inv', Matrix.one_mul] at e
  rw [← e]
  rw [show ((-1 : ℂ) ^ (1 + 1)) = 1 by norm_num, one_smul, Matrix.one_mul, vector_inv']

end SO13

end LieNN
