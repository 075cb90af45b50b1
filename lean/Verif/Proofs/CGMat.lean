import Verif.Spec.CG
import Mathlib.LinearAlgebra.Matrix.NonsingularInverse
import Mathlib.LinearAlgebra.Matrix.Kronecker
/-!
# Clebsch-Gordan arrays as matrices; change of basis
-/
namespace LieNN

open Finset Matrix

variable {d₁ d₂ d₃ : ℕ}

/-- The array `C[i, j, k]` as a matrix from the product space. -/
def cgM (C : Fin d₁ → Fin d₂ → Fin d₃ → ℂ) : Matrix (Fin d₃) (Fin d₁ × Fin d₂) ℂ :=
  Matrix.of fun l ij => C ij.1 ij.2 l

/-- Action on the product space. -/
def kronAdd (X₁ : Matrix (Fin d₁) (Fin d₁) ℂ) (X₂ : Matrix (Fin d₂) (Fin d₂) ℂ) :
    Matrix (Fin d₁ × Fin d₂) (Fin d₁ × Fin d₂) ℂ :=
  kroneckerMap (· * ·) X₁ 1 + kroneckerMap (· * ·) 1 X₂

theorem cgM_kronAdd (C : Fin d₁ → Fin d₂ → Fin d₃ → ℂ) (X₁ : Matrix (Fin d₁) (Fin d₁) ℂ)
    (X₂ : Matrix (Fin d₂) (Fin d₂) ℂ) (l : Fin d₃) (i : Fin d₁) (k : Fin d₂) :
    (cgM C * kronAdd X₁ X₂) l (i, k) =
      ∑ i', X₁ i' i * C i' k l + ∑ j', X₂ j' k * C i j' l := by
  rw [Matrix.mul_apply]
  unfold kronAdd
  simp only [Matrix.add_apply, mul_add, Finset.sum_add_distrib]
  congr 1
  · rw [Fintype.sum_prod_type]
    refine Finset.sum_congr rfl fun i' _ => ?_
    rw [Finset.sum_eq_single k]
    · rw [kroneckerMap_apply, Matrix.one_apply_eq, mul_one, mul_comm]; rfl
    · intro b _ hb
      rw [kroneckerMap_apply, Matrix.one_apply_ne hb]; simp
    · simp
  · rw [Fintype.sum_prod_type, Finset.sum_eq_single i]
    · refine Finset.sum_congr rfl fun k' _ => ?_
      rw [kroneckerMap_apply, Matrix.one_apply_eq, one_mul, mul_comm]; rfl
    · intro b _ hb
      refine Finset.sum_eq_zero fun k' _ => ?_
      rw [kroneckerMap_apply, Matrix.one_apply_ne hb]; simp
    · simp

theorem cgM_kron (C : Fin d₁ → Fin d₂ → Fin d₃ → ℂ) (X₁ : Matrix (Fin d₁) (Fin d₁) ℂ)
    (X₂ : Matrix (Fin d₂) (Fin d₂) ℂ) (l : Fin d₃) (i : Fin d₁) (k : Fin d₂) :
    (cgM C * kroneckerMap (· * ·) X₁ X₂) l (i, k) =
      ∑ i', ∑ j', X₁ i' i * X₂ j' k * C i' j' l := by
  rw [Matrix.mul_apply, Fintype.sum_prod_type]
  refine Finset.sum_congr rfl fun i' _ => Finset.sum_congr rfl fun j' _ => ?_
  rw [kroneckerMap_apply, mul_comm]; rfl

theorem mul_cgM (C : Fin d₁ → Fin d₂ → Fin d₃ → ℂ) (X₃ : Matrix (Fin d₃) (Fin d₃) ℂ) (l : Fin d₃)
    (i : Fin d₁) (k : Fin d₂) : (X₃ * cgM C) l (i, k) = ∑ m, C i k m * X₃ l m := by
  rw [Matrix.mul_apply]
  exact Finset.sum_congr rfl fun m _ => mul_comm _ _

/-- `Spec.IsCG` says that the matrix of the array intertwines. -/
theorem isCG_iff_cgM {n h : ℕ} (r₁ : Rep n h d₁) (r₂ : Rep n h d₂) (r₃ : Rep n h d₃)
    (C : Fin d₁ → Fin d₂ → Fin d₃ → ℂ) : Spec.IsCG r₁ r₂ r₃ C ↔
    (∀ a, r₃.X a * cgM C = cgM C * kronAdd (r₁.X a) (r₂.X a)) ∧
    (∀ a, r₃.H a * cgM C = cgM C * kroneckerMap (· * ·) (r₁.H a) (r₂.H a)) := by
  unfold Spec.IsCG
  refine and_congr ?_ ?_
  · constructor
    · intro hh a
      ext l ⟨i, k⟩
      rw [mul_cgM, cgM_kronAdd, hh a i k l]
    · intro hh a i k l
      rw [← mul_cgM, hh a, cgM_kronAdd]
  · constructor
    · intro hh a
      ext l ⟨i, k⟩
      rw [mul_cgM, cgM_kron, hh a i k l]
    · intro hh a i k l
      rw [← mul_cgM, hh a, cgM_kron]

theorem kronM_one : kroneckerMap (· * ·) (1 : Matrix (Fin d₁) (Fin d₁) ℂ)
    (1 : Matrix (Fin d₂) (Fin d₂) ℂ) = 1 := Matrix.one_kronecker_one

theorem kronM_mul {m₁ m₂ n₁ n₂ : ℕ} (A : Matrix (Fin m₁) (Fin d₁) ℂ) (B : Matrix (Fin d₁) (Fin n₁) ℂ)
    (A' : Matrix (Fin m₂) (Fin d₂) ℂ) (B' : Matrix (Fin d₂) (Fin n₂) ℂ) :
    kroneckerMap (· * ·) A A' * kroneckerMap (· * ·) B B' = kroneckerMap (· * ·) (A * B) (A' * B') :=
  (Matrix.mul_kronecker_mul A B A' B').symm

/-- Changing basis in both factors. -/
theorem kronAdd_conj {P₁ Q₁ : Matrix (Fin d₁) (Fin d₁) ℂ} {P₂ Q₂ : Matrix (Fin d₂) (Fin d₂) ℂ}
    (h₁ : P₁ * Q₁ = 1) (h₂ : P₂ * Q₂ = 1) (X₁ : Matrix (Fin d₁) (Fin d₁) ℂ)
    (X₂ : Matrix (Fin d₂) (Fin d₂) ℂ) :
    kronAdd (P₁ * X₁ * Q₁) (P₂ * X₂ * Q₂) =
      kroneckerMap (· * ·) P₁ P₂ * kronAdd X₁ X₂ * kroneckerMap (· * ·) Q₁ Q₂ := by
  unfold kronAdd
  rw [Matrix.mul_add, Matrix.add_mul, kronM_mul, kronM_mul, kronM_mul, kronM_mul, Matrix.mul_one,
    Matrix.mul_one, h₁, h₂]

/-- The array after a change of basis (`Q₁`, `Q₂` on the inputs, `P₃` on the output). -/
def cgChange (Q₁ : Matrix (Fin d₁) (Fin d₁) ℂ) (Q₂ : Matrix (Fin d₂) (Fin d₂) ℂ)
    (P₃ : Matrix (Fin d₃) (Fin d₃) ℂ) (C : Fin d₁ → Fin d₂ → Fin d₃ → ℂ) :
    Fin d₁ → Fin d₂ → Fin d₃ → ℂ := fun i j k =>
  (P₃ * cgM C * kroneckerMap (· * ·) Q₁ Q₂) k (i, j)

theorem cgM_cgChange (Q₁ : Matrix (Fin d₁) (Fin d₁) ℂ) (Q₂ : Matrix (Fin d₂) (Fin d₂) ℂ)
    (P₃ : Matrix (Fin d₃) (Fin d₃) ℂ) (C : Fin d₁ → Fin d₂ → Fin d₃ → ℂ) :
    cgM (cgChange Q₁ Q₂ P₃ C) = P₃ * cgM C * kroneckerMap (· * ·) Q₁ Q₂ := rfl

theorem cgChange_apply (Q₁ : Matrix (Fin d₁) (Fin d₁) ℂ) (Q₂ : Matrix (Fin d₂) (Fin d₂) ℂ)
    (P₃ : Matrix (Fin d₃) (Fin d₃) ℂ) (C : Fin d₁ → Fin d₂ → Fin d₃ → ℂ) (i j k) :
    cgChange Q₁ Q₂ P₃ C i j k = ∑ x, ∑ y, ∑ z, Q₁ x i * Q₂ y j * P₃ k z * C x y z := by
  unfold cgChange
  rw [Matrix.mul_apply, Fintype.sum_prod_type]
  refine Finset.sum_congr rfl fun x _ => Finset.sum_congr rfl fun y _ => ?_
  rw [Matrix.mul_apply, Finset.sum_mul]
  refine Finset.sum_congr rfl fun z _ => ?_
  rw [kroneckerMap_apply]
  change P₃ k z * C x y z * _ = _
  ring

/-- Clebsch-Gordan arrays stay equivariant after an invertible change of basis. -/
theorem isCG_change {n h : ℕ} {r₁ s₁ : Rep n h d₁} {r₂ s₂ : Rep n h d₂} {r₃ s₃ : Rep n h d₃}
    {P₁ Q₁ : Matrix (Fin d₁) (Fin d₁) ℂ} {P₂ Q₂ : Matrix (Fin d₂) (Fin d₂) ℂ}
    {P₃ Q₃ : Matrix (Fin d₃) (Fin d₃) ℂ}
    (h₁ : P₁ * Q₁ = 1) (h₂ : P₂ * Q₂ = 1) (h₃ : P₃ * Q₃ = 1)
    (x₁ : ∀ a, s₁.X a = P₁ * r₁.X a * Q₁) (x₂ : ∀ a, s₂.X a = P₂ * r₂.X a * Q₂)
    (x₃ : ∀ a, s₃.X a = P₃ * r₃.X a * Q₃)
    (y₁ : ∀ a, s₁.H a = P₁ * r₁.H a * Q₁) (y₂ : ∀ a, s₂.H a = P₂ * r₂.H a * Q₂)
    (y₃ : ∀ a, s₃.H a = P₃ * r₃.H a * Q₃)
    {C : Fin d₁ → Fin d₂ → Fin d₃ → ℂ} (hC : Spec.IsCG r₁ r₂ r₃ C) :
    Spec.IsCG s₁ s₂ s₃ (cgChange Q₁ Q₂ P₃ C) := by
  obtain ⟨hx, hh⟩ := (isCG_iff_cgM _ _ _ _).1 hC
  have g₁ := mul_eq_one_comm.1 h₁
  have g₂ := mul_eq_one_comm.1 h₂
  have g₃ := mul_eq_one_comm.1 h₃
  have gk : kroneckerMap (· * ·) Q₁ Q₂ * kroneckerMap (· * ·) P₁ P₂ = 1 := by
    rw [kronM_mul, g₁, g₂, kronM_one]
  refine (isCG_iff_cgM _ _ _ _).2 ⟨fun a => ?_, fun a => ?_⟩
  · rw [cgM_cgChange, x₁, x₂, x₃, kronAdd_conj h₁ h₂]
    calc _ = P₃ * (r₃.X a * (Q₃ * P₃) * cgM C) * kroneckerMap (· * ·) Q₁ Q₂ := by
          simp only [Matrix.mul_assoc]
      _ = P₃ * (cgM C * (kroneckerMap (· * ·) Q₁ Q₂ * kroneckerMap (· * ·) P₁ P₂) *
            kronAdd (r₁.X a) (r₂.X a)) * kroneckerMap (· * ·) Q₁ Q₂ := by
          rw [g₃, gk, Matrix.mul_one, Matrix.mul_one, hx]
      _ = _ := by simp only [Matrix.mul_assoc]
  · rw [cgM_cgChange, y₁, y₂, y₃, ← kronM_mul, ← kronM_mul]
    calc _ = P₃ * (r₃.H a * (Q₃ * P₃) * cgM C) * kroneckerMap (· * ·) Q₁ Q₂ := by
          simp only [Matrix.mul_assoc]
      _ = P₃ * (cgM C * (kroneckerMap (· * ·) Q₁ Q₂ * kroneckerMap (· * ·) P₁ P₂) *
            kroneckerMap (· * ·) (r₁.H a) (r₂.H a)) * kroneckerMap (· * ·) Q₁ Q₂ := by
          rw [g₃, gk, Matrix.mul_one, Matrix.mul_one, hh]
      _ = _ := by simp only [Matrix.mul_assoc]

end LieNN
