import Mathlib.Analysis.InnerProductSpace.PiL2
import Verif.Model.LinAlg
/-!
# Specifications for the linear algebra routines
-/
namespace LieNN.Spec

open Matrix

/-- The span of the elements of a list. -/
def lspan {E : Type*} [NormedAddCommGroup E] [InnerProductSpace ℂ E] (l : List E) :
    Submodule ℂ E :=
  Submodule.span ℂ {x | x ∈ l}

/-- The rows of a list are orthonormal (indexed by position, so repetitions are excluded). -/
def OrthonormalList {E : Type*} [NormedAddCommGroup E] [InnerProductSpace ℂ E] (l : List E) :
    Prop :=
  Orthonormal ℂ fun i : Fin l.length => l.get i

/-- The kernel `{x : A x = 0}`. -/
def kernel {m n : ℕ} (A : Matrix (Fin m) (Fin n) ℂ) : Submodule ℂ (Vec n) where
  carrier := {x | A *ᵥ x.ofLp = 0}
  zero_mem' := by simp
  add_mem' := by
    intro x y hx hy
    simp only [Set.mem_ofPred_eq] at *
    rw [WithLp.ofLp_add, mulVec_add, hx, hy, add_zero]
  smul_mem' := by
    intro c x hx
    simp only [Set.mem_ofPred_eq] at *
    rw [WithLp.ofLp_smul, mulVec_smul, hx, smul_zero]

/-- What `numpy.linalg.eigh` guarantees on Hermitian input: an orthonormal family of eigenvectors
with the returned eigenvalues. -/
def EighSpec (eigh : EighFn) : Prop :=
  ∀ (n : ℕ) (M : Matrix (Fin n) (Fin n) ℂ), M.IsHermitian →
    Orthonormal ℂ (eigh n M).2 ∧
    ∀ k, M *ᵥ ((eigh n M).2 k).ofLp = ((eigh n M).1 k : ℂ) • ((eigh n M).2 k).ofLp

/-- No eigenvalue of `Aᴴ A` lies strictly between `0` and `eps`. -/
def Gap (eps : ℝ) {m n : ℕ} (A : Matrix (Fin m) (Fin n) ℂ) : Prop :=
  ∀ (μ : ℝ) (x : Fin n → ℂ), x ≠ 0 → (Aᴴ * A) *ᵥ x = (μ : ℂ) • x → 0 < μ → eps ≤ μ

/-- `Gap` relative to a subspace `K`: the compression of `Aᴴ A` to `K` has no eigenvalue strictly
between `0` and `eps`.  `μ`, `x` is an eigenpair of the compression iff
`⟨A y, A x⟩ = μ ⟨y, x⟩` for every `y ∈ K`. -/
def GapOn (eps : ℝ) {m n : ℕ} (K : Submodule ℂ (Vec n)) (A : Matrix (Fin m) (Fin n) ℂ) : Prop :=
  ∀ (μ : ℝ) (x : Vec n), x ∈ K → x ≠ 0 →
    (∀ y ∈ K, star (A *ᵥ y.ofLp) ⬝ᵥ (A *ᵥ x.ofLp) = (μ : ℂ) * (star y.ofLp ⬝ᵥ x.ofLp)) →
    0 < μ → eps ≤ μ

/-- The common kernel of a list of matrices. -/
def commonKernel {n : ℕ} (gen : List (Constraint n)) : Submodule ℂ (Vec n) where
  carrier := {x | ∀ A ∈ gen, A.2 *ᵥ x.ofLp = 0}
  zero_mem' := by simp
  add_mem' := by
    intro x y hx hy A hA
    rw [WithLp.ofLp_add, mulVec_add, hx A hA, hy A hA, add_zero]
  smul_mem' := by
    intro c x hx A hA
    rw [WithLp.ofLp_smul, mulVec_smul, hx A hA, smul_zero]

/-- The matrices `S` with `X₁[a] S = S X₂[a]` for every `a`. -/
def intertwiners {n d₁ d₂ : ℕ} (X₁ : Fin n → Matrix (Fin d₁) (Fin d₁) ℂ)
    (X₂ : Fin n → Matrix (Fin d₂) (Fin d₂) ℂ) : Submodule ℂ (Matrix (Fin d₁) (Fin d₂) ℂ) where
  carrier := {S | ∀ a, X₁ a * S = S * X₂ a}
  zero_mem' := by simp
  add_mem' := by
    intro x y hx hy a
    rw [Matrix.mul_add, Matrix.add_mul, hx a, hy a]
  smul_mem' := by
    intro c x hx a
    rw [Matrix.mul_smul, Matrix.smul_mul, hx a]

/-- The span of a list of matrices. -/
def mspan {V : Type*} [AddCommGroup V] [Module ℂ V] (l : List V) : Submodule ℂ V :=
  Submodule.span ℂ {x | x ∈ l}

/-- A family of square matrices is irreducible: the space is not zero and the only subspaces
invariant under all of them are `0` and the whole space. -/
def IrreducibleFamily {n d : ℕ} (X : Fin n → Matrix (Fin d) (Fin d) ℂ) : Prop :=
  0 < d ∧ ∀ W : Submodule ℂ (Fin d → ℂ), (∀ a, ∀ w ∈ W, X a *ᵥ w ∈ W) → W = ⊥ ∨ W = ⊤

end LieNN.Spec
