import Verif.Model.Real
import Verif.Spec.Real
import Verif.Proofs.IntertwinerRep
import Mathlib.LinearAlgebra.Matrix.PosDef
/-!
# Real forms
-/
namespace LieNN

open Matrix Spec
open scoped ComplexOrder

variable {n h d m : ℕ}

/-- Entrywise conjugation of a square matrix. -/
noncomputable abbrev cj : Matrix (Fin d) (Fin d) ℂ →+* Matrix (Fin d) (Fin d) ℂ :=
  (starRingEnd ℂ).mapMatrix

theorem cj_cj (M : Matrix (Fin d) (Fin d) ℂ) : cj (cj M) = M := by
  ext i j; simp

theorem cj_smul (c : ℂ) (M : Matrix (Fin d) (Fin d) ℂ) :
    cj (c • M) = starRingEnd ℂ c • cj M := by
  ext i j
  exact map_mul (starRingEnd ℂ) c (M i j)

theorem cj_conjTranspose (M : Matrix (Fin d) (Fin d) ℂ) : (cj M)ᴴ = cj Mᴴ := by
  ext i j; simp

theorem cj_eq (M : Matrix (Fin d) (Fin d) ℂ) : cj M = Mᴴᵀ := by
  ext i j; simp

theorem cj_eq_self_iff {M : Matrix (Fin d) (Fin d) ℂ} : cj M = M ↔ ∀ i j, (M i j).im = 0 := by
  constructor
  · intro hM i j
    have := congrFun (congrFun hM i) j
    exact Complex.conj_eq_iff_im.1 this
  · intro hM
    ext i j
    exact Complex.conj_eq_iff_im.2 (hM i j)

theorem conjugate_allGens (r : Rep n h d) (a : Fin (n + h)) :
    r.conjugate.allGens a = cj (r.allGens a) := by
  refine Fin.addCases (fun a => ?_) (fun a => ?_) a
  · simp only [Rep.allGens, Fin.append_left]; rfl
  · simp only [Rep.allGens, Fin.append_right]; rfl

theorem changeBasis_allGens (r : Rep n h d) (Q P : Matrix (Fin d) (Fin d) ℂ) (a : Fin (n + h)) :
    (r.changeBasis Q P).allGens a = Q * r.allGens a * P := by
  refine Fin.addCases (fun a => ?_) (fun a => ?_) a
  · simp only [Rep.allGens, Fin.append_left]; rfl
  · simp only [Rep.allGens, Fin.append_right]; rfl

variable {Y : Fin m → Matrix (Fin d) (Fin d) ℂ} {S T : Matrix (Fin d) (Fin d) ℂ}

/-- A non-zero map out of an irreducible family of the same dimension is invertible. -/
theorem isUnit_of_intertwiner {Z : Fin m → Matrix (Fin d) (Fin d) ℂ} (hirr : IrreducibleFamily Y)
    (hS : ∀ a, Z a * S = S * Y a) (h0 : S ≠ 0) : IsUnit S := by
  have hk := hirr.2 (LinearMap.ker (Matrix.toLin' S)) (by
    intro a w hw
    rw [LinearMap.mem_ker, toLin'_apply] at hw ⊢
    rw [mulVec_mulVec, ← hS a, ← mulVec_mulVec, hw, mulVec_zero])
  rcases hk with hk | hk
  · rw [LinearMap.ker_eq_bot] at hk
    exact Matrix.mulVec_injective_iff_isUnit.1 fun x y hxy => hk (by simpa using hxy)
  · exfalso
    apply h0
    rw [LinearMap.ker_eq_top] at hk
    exact Matrix.toLin'.injective (by rw [hk, map_zero])

/-- Intertwiners out of an irreducible family are proportional to each other. -/
theorem intertwiner_proportional {Z : Fin m → Matrix (Fin d) (Fin d) ℂ} (hirr : IrreducibleFamily Y)
    (hS : ∀ a, Z a * S = S * Y a) (h0 : S ≠ 0) (hT : ∀ a, Z a * T = T * Y a) :
    ∃ c : ℂ, T = c • S := by
  have hu := isUnit_of_intertwiner hirr hS h0
  have hdet := (Matrix.isUnit_iff_isUnit_det S).1 hu
  obtain ⟨c, hc⟩ := schur hirr (S := S⁻¹ * T) (by
    intro a
    have e1 : Y a * S⁻¹ = S⁻¹ * Z a := by
      have := congrArg (fun M => S⁻¹ * M * S⁻¹) (hS a)
      simp only [Matrix.mul_assoc, Matrix.mul_nonsing_inv S hdet, Matrix.mul_one] at this
      rw [← Matrix.mul_assoc S⁻¹ S, Matrix.nonsing_inv_mul S hdet, Matrix.one_mul] at this
      exact this.symm
    rw [← Matrix.mul_assoc, e1, Matrix.mul_assoc, hT a, Matrix.mul_assoc])
  refine ⟨c, ?_⟩
  have : S * (S⁻¹ * T) = S * (c • 1) := by rw [hc]
  rw [← Matrix.mul_assoc, Matrix.mul_nonsing_inv S hdet, Matrix.one_mul] at this
  rw [this]
  simp

theorem finrank_conj_of_irreducible {Z : Fin m → Matrix (Fin d) (Fin d) ℂ}
    (hirr : IrreducibleFamily Y) (hS : ∀ a, Z a * S = S * Y a) (h0 : S ≠ 0) :
    Module.finrank ℂ (intertwiners Z Y) = 1 := by
  rw [finrank_eq_one_iff']
  refine ⟨⟨S, hS⟩, fun h => h0 (congrArg Subtype.val h), ?_⟩
  rintro ⟨T, hT⟩
  obtain ⟨c, hc⟩ := intertwiner_proportional hirr hS h0 hT
  exact ⟨c, Subtype.ext hc.symm⟩

/-- A real form gives an intertwiner to the conjugate. -/
theorem intertwiner_of_realForm {Q : Matrix (Fin d) (Fin d) ℂ} (hQ : IsUnit Q)
    (hr : RealEntries fun a => Q * Y a * Q⁻¹) :
    IsUnit ((cj Q)⁻¹ * Q) ∧ ∀ a, cj (Y a) * ((cj Q)⁻¹ * Q) = (cj Q)⁻¹ * Q * Y a := by
  have hdet := (Matrix.isUnit_iff_isUnit_det Q).1 hQ
  have hcQ : IsUnit (cj Q) := hQ.map cj
  have hcdet := (Matrix.isUnit_iff_isUnit_det _).1 hcQ
  have hcinv : cj Q⁻¹ = (cj Q)⁻¹ := by
    refine (Matrix.inv_eq_right_inv ?_).symm
    rw [← map_mul, Matrix.mul_nonsing_inv Q hdet, map_one]
  refine ⟨(Matrix.isUnit_nonsing_inv_iff.2 hcQ).mul hQ, fun a => ?_⟩
  have h1 : cj (Q * Y a * Q⁻¹) = Q * Y a * Q⁻¹ := cj_eq_self_iff.2 (hr a)
  rw [map_mul, map_mul, hcinv] at h1
  have h2 := congrArg (fun M => (cj Q)⁻¹ * M * Q) h1
  simp only [Matrix.mul_assoc, Matrix.nonsing_inv_mul Q hdet, Matrix.mul_one] at h2
  rw [← Matrix.mul_assoc (cj Q)⁻¹ (cj Q), Matrix.nonsing_inv_mul _ hcdet, Matrix.one_mul] at h2
  rw [h2, Matrix.mul_assoc]

/-- `cj(S) S` for `S = λ cj(Q)⁻¹ Q`. -/
theorem cj_mul_of_realForm {Q : Matrix (Fin d) (Fin d) ℂ} (hQ : IsUnit Q) (c : ℂ) :
    cj (c • ((cj Q)⁻¹ * Q)) * (c • ((cj Q)⁻¹ * Q)) = (((‖c‖ ^ 2 : ℝ)) : ℂ) • 1 := by
  have hdet := (Matrix.isUnit_iff_isUnit_det Q).1 hQ
  have hcQ : IsUnit (cj Q) := hQ.map cj
  have hcdet := (Matrix.isUnit_iff_isUnit_det _).1 hcQ
  have hcc : cj ((cj Q)⁻¹) = Q⁻¹ := by
    refine (Matrix.inv_eq_right_inv ?_).symm
    nth_rewrite 1 [← cj_cj Q]
    rw [← map_mul, Matrix.mul_nonsing_inv _ hcdet, map_one]
  have hs : cj (c • ((cj Q)⁻¹ * Q)) = starRingEnd ℂ c • (Q⁻¹ * cj Q) := by
    rw [← hcc, ← map_mul, cj_smul]
  rw [hs, Matrix.smul_mul, Matrix.mul_smul, smul_smul, Matrix.mul_assoc, ← Matrix.mul_assoc (cj Q),
    Matrix.mul_nonsing_inv _ hcdet, Matrix.one_mul, Matrix.nonsing_inv_mul Q hdet]
  congr 1
  rw [mul_comm, Complex.mul_conj, Complex.normSq_eq_norm_sq]

/-- For a unitary family the normalised intertwiner is unitary. -/
theorem intertwiner_unitary (hirr : IrreducibleFamily Y)
    (hY : ∀ a, (Y a)ᴴ = -Y a ∨ Y a * (Y a)ᴴ = 1)
    (hS : ∀ a, cj (Y a) * S = S * Y a) (htr : (Sᴴ * S).trace = d) : Sᴴ * S = 1 := by
  have key : ∀ a, Sᴴ * cj (Y a) = Y a * Sᴴ := by
    intro a
    have h1 := congrArg conjTranspose (hS a)
    rw [conjTranspose_mul, conjTranspose_mul] at h1
    rcases hY a with hy | hy
    · have hc : (cj (Y a))ᴴ = - cj (Y a) := by
        rw [cj_conjTranspose, hy, map_neg]
      rw [hc, hy, Matrix.mul_neg, Matrix.neg_mul, neg_inj] at h1
      exact h1
    · have hy' := mul_eq_one_comm.1 hy
      have hc : (cj (Y a))ᴴ * cj (Y a) = 1 := by
        rw [cj_conjTranspose, ← map_mul, hy', map_one]
      have := congrArg (fun M => Y a * M * cj (Y a)) h1
      simp only [Matrix.mul_assoc, hc, Matrix.mul_one] at this
      rw [← Matrix.mul_assoc (Y a) (Y a)ᴴ, hy, Matrix.one_mul] at this
      exact this.symm
  obtain ⟨c, hc⟩ := schur hirr (S := Sᴴ * S) (by
    intro a
    rw [← Matrix.mul_assoc, ← key, Matrix.mul_assoc, hS, Matrix.mul_assoc])
  rw [hc] at htr ⊢
  have hd : (d : ℂ) ≠ 0 := by exact_mod_cast hirr.1.ne'
  rw [Matrix.trace_smul, Matrix.trace_one, smul_eq_mul, Fintype.card_fin] at htr
  have : c = 1 := by
    apply mul_right_cancel₀ hd
    rw [htr, one_mul]
  rw [this, one_smul]

theorem aeval_comm {S B : Matrix (Fin d) (Fin d) ℂ} (hB : S * B = B * S) (p : Polynomial ℂ) :
    Polynomial.aeval S p * B = B * Polynomial.aeval S p := by
  induction p using Polynomial.induction_on' with
  | add p q hp hq => rw [map_add, Matrix.add_mul, Matrix.mul_add, hp, hq]
  | monomial k a =>
    rw [Polynomial.aeval_monomial, Algebra.algebraMap_eq_smul_one, Matrix.smul_mul, Matrix.one_mul,
      Matrix.smul_mul, Matrix.mul_smul]
    congr 1
    exact ((show Commute S B from hB).pow_left k).eq

theorem aeval_transpose {S : Matrix (Fin d) (Fin d) ℂ} (hS : Sᵀ = S) (p : Polynomial ℂ) :
    (Polynomial.aeval S p)ᵀ = Polynomial.aeval S p := by
  induction p using Polynomial.induction_on' with
  | add p q hp hq => rw [map_add, transpose_add, hp, hq]
  | monomial k a =>
    rw [Polynomial.aeval_monomial, Algebra.algebraMap_eq_smul_one, Matrix.smul_mul, Matrix.one_mul,
      transpose_smul, transpose_pow, hS]

/-- The square root of a unitary matrix that is a polynomial in it is unitary. -/
theorem sqrt_unitary {S R : Matrix (Fin d) (Fin d) ℂ} (hS : Sᴴ * S = 1) (hR : R * R = S)
    {p : Polynomial ℂ} (hp : R = Polynomial.aeval S p) : Rᴴ * R = 1 := by
  have hS' := mul_eq_one_comm.1 hS
  have hc1 : ∀ B : Matrix (Fin d) (Fin d) ℂ, S * B = B * S → R * B = B * R := by
    intro B hB
    rw [hp]
    exact aeval_comm hB p
  have hRS : R * Sᴴ = Sᴴ * R := hc1 _ (by rw [hS, hS'])
  have hRR : R * Rᴴ = Rᴴ * R := by
    apply hc1
    have := congrArg conjTranspose hRS
    simpa [conjTranspose_mul] using this
  have hsq : (Rᴴ * R) * (Rᴴ * R) = 1 := by
    rw [Matrix.mul_assoc, ← Matrix.mul_assoc R, hRR, Matrix.mul_assoc Rᴴ R R, hR, ← Matrix.mul_assoc,
      ← conjTranspose_mul, hR, hS]
  have hpd : (1 + Rᴴ * R).PosDef :=
    Matrix.PosDef.one.add_posSemidef (Matrix.posSemidef_conjTranspose_mul_self R)
  have hz : (1 + Rᴴ * R) * (1 - Rᴴ * R) = 0 := by
    rw [Matrix.add_mul, Matrix.mul_sub, Matrix.mul_sub, hsq]
    simp
  have hu := (Matrix.isUnit_iff_isUnit_det _).1 hpd.isUnit
  have h0 : 1 - Rᴴ * R = 0 := by
    have := congrArg ((1 + Rᴴ * R)⁻¹ * ·) hz
    simp only [← Matrix.mul_assoc, Matrix.nonsing_inv_mul _ hu, Matrix.one_mul, Matrix.mul_zero] at this
    exact this
  exact (sub_eq_zero.1 h0).symm

/-- The intertwiner of a unitary irreducible family with a real form is symmetric. -/
theorem intertwiner_symmetric (hS : Sᴴ * S = 1) (h0 : S ≠ 0) {x : ℝ} (hx : 0 ≤ x)
    (hc : cj S * S = (x : ℂ) • 1) : Sᵀ = S := by
  have h1 : Sᵀ * cj S = 1 := by
    rw [cj_eq, ← transpose_mul, hS, transpose_one]
  have h2 : S = (x : ℂ) • Sᵀ := by
    have := congrArg (Sᵀ * ·) hc
    simp only [← Matrix.mul_assoc, h1, Matrix.one_mul, Matrix.mul_smul, Matrix.mul_one] at this
    exact this
  have h3 : Sᵀ = (x : ℂ) • S := by
    have := congrArg transpose h2
    simpa using this
  have h4 : ((x : ℂ) * x - 1) • S = 0 := by
    rw [sub_smul, one_smul, mul_smul, ← h3, ← h2, sub_self]
  have h5 : (x : ℂ) * x = 1 := by
    rcases smul_eq_zero.1 h4 with h | h
    · exact sub_eq_zero.1 h
    · exact absurd h h0
  have h6 : x * x = 1 := by exact_mod_cast h5
  have h7 : x = 1 := by nlinarith
  rw [h3, h7]
  simp

/-- The transformed generators are real. -/
theorem sqrt_real {R M : Matrix (Fin d) (Fin d) ℂ} (hS : Sᴴ * S = 1) (hsym : Sᵀ = S)
    (hM : cj M * S = S * M) (hR : R * R = S) {p : Polynomial ℂ} (hp : R = Polynomial.aeval S p) :
    cj (R * M * R⁻¹) = R * M * R⁻¹ := by
  have hRR := sqrt_unitary hS hR hp
  have hRR' := mul_eq_one_comm.1 hRR
  have hRt : Rᵀ = R := by rw [hp]; exact aeval_transpose hsym p
  have hinv : R⁻¹ = Rᴴ := Matrix.inv_eq_left_inv hRR
  have hcR : cj R = Rᴴ := by
    rw [cj_eq, show Rᴴᵀ = Rᵀᴴ from rfl, hRt]
  have hcRh : cj Rᴴ = R := by
    rw [← hcR, cj_cj]
  rw [hinv, map_mul, map_mul, hcR, hcRh]
  have h1 : cj M = S * M * Sᴴ := by
    rw [← hM, Matrix.mul_assoc, mul_eq_one_comm.1 hS, Matrix.mul_one]
  have h2 : Rᴴ * S = R := by
    rw [← hR, ← Matrix.mul_assoc, hRR, Matrix.one_mul]
  have h3 : Sᴴ * R = Rᴴ := by
    rw [← hR, conjTranspose_mul, Matrix.mul_assoc, hRR, Matrix.mul_one]
  rw [h1, Matrix.mul_assoc, Matrix.mul_assoc, h3, ← Matrix.mul_assoc, ← Matrix.mul_assoc, h2]

end LieNN
