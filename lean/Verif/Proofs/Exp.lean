import Mathlib.Topology.Instances.Matrix
import Verif.Model.Rep
import Verif.Proofs.Mat
/-!
# The matrix exponential and `dsum`, `kron`, entrywise conjugation, intertwiners
-/
namespace LieNN

open Matrix NormedSpace
open scoped Matrix.Norms.Operator

variable {m n d d' d₁ d₂ : ℕ}

/-- `M ↦ kron M 1` as a ring homomorphism. -/
def kronLeftHom (d₁ d₂ : ℕ) :
    Matrix (Fin d₁) (Fin d₁) ℂ →+* Matrix (Fin (d₁ * d₂)) (Fin (d₁ * d₂)) ℂ where
  toFun M := kron M 1
  map_one' := kron_one
  map_mul' A B := by rw [kron_mul, one_mul]
  map_zero' := kron_zero_left _
  map_add' A B := kron_add_left _ _ _

/-- `M ↦ kron 1 M` as a ring homomorphism. -/
def kronRightHom (d₁ d₂ : ℕ) :
    Matrix (Fin d₂) (Fin d₂) ℂ →+* Matrix (Fin (d₁ * d₂)) (Fin (d₁ * d₂)) ℂ where
  toFun M := kron 1 M
  map_one' := kron_one
  map_mul' A B := by rw [kron_mul, one_mul]
  map_zero' := kron_zero_right _
  map_add' A B := kron_add_right _ _ _

theorem exp_kron_left (X : Matrix (Fin d₁) (Fin d₁) ℂ) :
    exp (kron X (1 : Matrix (Fin d₂) (Fin d₂) ℂ)) = kron (exp X) 1 := by
  have hc : Continuous (kronLeftHom d₁ d₂) := by
    refine continuous_matrix fun i j => ?_
    show Continuous fun M : Matrix (Fin d₁) (Fin d₁) ℂ => M i.divNat j.divNat * _
    exact (continuous_id.matrix_elem _ _).mul continuous_const
  exact (map_exp (kronLeftHom d₁ d₂) hc X).symm

theorem exp_kron_right (X : Matrix (Fin d₂) (Fin d₂) ℂ) :
    exp (kron (1 : Matrix (Fin d₁) (Fin d₁) ℂ) X) = kron 1 (exp X) := by
  have hc : Continuous (kronRightHom d₁ d₂) := by
    refine continuous_matrix fun i j => ?_
    show Continuous fun M : Matrix (Fin d₂) (Fin d₂) ℂ => _ * M i.modNat j.modNat
    exact continuous_const.mul (continuous_id.matrix_elem _ _)
  exact (map_exp (kronRightHom d₁ d₂) hc X).symm

theorem exp_kron_sum (X : Matrix (Fin d₁) (Fin d₁) ℂ) (Y : Matrix (Fin d₂) (Fin d₂) ℂ) :
    exp (kron X 1 + kron 1 Y) = kron (exp X) (exp Y) := by
  rw [Matrix.exp_add_of_commute, exp_kron_left, exp_kron_right, kron_mul, one_mul, mul_one]
  show _ * _ = _ * _
  rw [kron_mul, kron_mul]; simp

/-- `(M, N) ↦ dsum M N` as a ring homomorphism. -/
def dsumHom (d₁ d₂ : ℕ) :
    Matrix (Fin d₁) (Fin d₁) ℂ × Matrix (Fin d₂) (Fin d₂) ℂ →+*
      Matrix (Fin (d₁ + d₂)) (Fin (d₁ + d₂)) ℂ where
  toFun M := dsum M.1 M.2
  map_one' := dsum_one
  map_mul' _ _ := (dsum_mul _ _ _ _).symm
  map_zero' := dsum_zero
  map_add' _ _ := dsum_add _ _ _ _

theorem exp_dsum (X : Matrix (Fin d₁) (Fin d₁) ℂ) (Y : Matrix (Fin d₂) (Fin d₂) ℂ) :
    exp (dsum X Y) = dsum (exp X) (exp Y) := by
  have hc : Continuous (dsumHom d₁ d₂) := by
    refine continuous_matrix fun i j => ?_
    show Continuous fun M : Matrix (Fin d₁) (Fin d₁) ℂ × Matrix (Fin d₂) (Fin d₂) ℂ =>
      dsum M.1 M.2 i j
    refine Fin.addCases (fun i => ?_) (fun i => ?_) i <;>
      refine Fin.addCases (fun j => ?_) (fun j => ?_) j <;> simp only [dsum_ll, dsum_lr, dsum_rl, dsum_rr]
    · exact continuous_fst.matrix_elem _ _
    · exact continuous_const
    · exact continuous_const
    · exact continuous_snd.matrix_elem _ _
  have := map_exp (dsumHom d₁ d₂) hc (X, Y)
  refine this.symm.trans ?_
  show dsum (exp (X, Y)).1 (exp (X, Y)).2 = _
  exact congrArg₂ dsum (Prod.fst_exp (X, Y)) (Prod.snd_exp (X, Y))

theorem exp_map_conj (X : Matrix (Fin d) (Fin d) ℂ) :
    exp (X.map (starRingEnd ℂ)) = (exp X).map (starRingEnd ℂ) := by
  have hc : Continuous ((starRingEnd ℂ).mapMatrix (m := Fin d)) := by
    refine continuous_matrix fun i j => ?_
    show Continuous fun M : Matrix (Fin d) (Fin d) ℂ => (starRingEnd ℂ) (M i j)
    exact Complex.continuous_conj.comp (continuous_id.matrix_elem _ _)
  exact (map_exp ((starRingEnd ℂ).mapMatrix (m := Fin d)) hc X).symm

/-- An intertwiner of two matrices intertwines their exponentials. -/
theorem exp_intertwine {X : Matrix (Fin d) (Fin d) ℂ} {Y : Matrix (Fin d') (Fin d') ℂ}
    {Q : Matrix (Fin d') (Fin d) ℂ} (h : Y * Q = Q * X) : exp Y * Q = Q * exp X := by
  have hpow : ∀ k : ℕ, Y ^ k * Q = Q * X ^ k := by
    intro k
    induction k with
    | zero => simp
    | succ k ih => rw [pow_succ, Matrix.mul_assoc, h, ← Matrix.mul_assoc, ih, Matrix.mul_assoc, ← pow_succ]
  have hX := exp_series_hasSum_exp' (𝕂 := ℂ) X
  have hY := exp_series_hasSum_exp' (𝕂 := ℂ) Y
  have h1 := hX.map (⟨⟨fun M : Matrix (Fin d) (Fin d) ℂ => Q * M, by simp⟩, fun a b => Matrix.mul_add _ _ _⟩ :
    Matrix (Fin d) (Fin d) ℂ →+ Matrix (Fin d') (Fin d) ℂ)
    (show Continuous fun M : Matrix (Fin d) (Fin d) ℂ => Q * M from continuous_const.matrix_mul continuous_id)
  have h2 := hY.map (⟨⟨fun M : Matrix (Fin d') (Fin d') ℂ => M * Q, by simp⟩, fun a b => Matrix.add_mul _ _ _⟩ :
    Matrix (Fin d') (Fin d') ℂ →+ Matrix (Fin d') (Fin d) ℂ)
    (show Continuous fun M : Matrix (Fin d') (Fin d') ℂ => M * Q from continuous_id.matrix_mul continuous_const)
  refine h2.unique ?_
  have e : ((fun M : Matrix (Fin d') (Fin d') ℂ => M * Q) ∘ fun n : ℕ => ((n.factorial : ℂ)⁻¹ • Y ^ n)) =
      ((fun M : Matrix (Fin d) (Fin d) ℂ => Q * M) ∘ fun n : ℕ => ((n.factorial : ℂ)⁻¹ • X ^ n)) := by
    funext k
    simp [hpow]
  have h3 : HasSum ((fun M : Matrix (Fin d) (Fin d) ℂ => Q * M) ∘
    fun n : ℕ => ((n.factorial : ℂ)⁻¹ • X ^ n)) (Q * exp X) := h1
  rw [← e] at h3
  exact h3

end LieNN
