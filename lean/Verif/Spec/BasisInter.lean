import Verif.Spec.LinAlg
/-!
# Specification vocabulary for `basis_intersection`
-/
namespace LieNN.Spec

open Matrix

/-- All entries are real. -/
def RealMat {m n : ℕ} (B : Matrix (Fin m) (Fin n) ℂ) : Prop := ∀ i j, (B i j).im = 0

/-- `numpy.linalg.eigh` of a real symmetric array returns real eigenvectors. -/
def EighReal (eigh : EighFn) : Prop :=
  ∀ (n : ℕ) (M : Matrix (Fin n) (Fin n) ℂ), RealMat M → ∀ k i, ((eigh n M).2 k i).im = 0

/-- The coefficients of the combinations of the rows of `B₁` that are combinations of the rows of
`B₂`. -/
def interCoeffs {n₁ n₂ D : ℕ} (B₁ : Matrix (Fin n₁) (Fin D) ℂ) (B₂ : Matrix (Fin n₂) (Fin D) ℂ) :
    Submodule ℂ (Vec n₁) where
  carrier := {x | ∃ y : Fin n₂ → ℂ, x.ofLp ᵥ* B₁ = y ᵥ* B₂}
  zero_mem' := ⟨0, by simp⟩
  add_mem' := by
    rintro x x' ⟨y, hy⟩ ⟨y', hy'⟩
    exact ⟨y + y', by rw [WithLp.ofLp_add, add_vecMul, hy, hy', add_vecMul]⟩
  smul_mem' := by
    rintro c x ⟨y, hy⟩
    exact ⟨c • y, by rw [WithLp.ofLp_smul, smul_vecMul, hy, smul_vecMul]⟩

/-- The row space. -/
def rowSpace {m n : ℕ} (B : Matrix (Fin m) (Fin n) ℂ) : Submodule ℂ (Fin n → ℂ) :=
  Submodule.span ℂ (Set.range fun i => B i)

/-- Every combination of the rows of `B₁` in the row space of `B₂` has coefficients on `B₂` not larger
than `K` times its coefficients on `B₁`. -/
def CoeffBound (K : ℝ) {n₁ n₂ D : ℕ} (B₁ : Matrix (Fin n₁) (Fin D) ℂ)
    (B₂ : Matrix (Fin n₂) (Fin D) ℂ) : Prop :=
  ∀ x ∈ interCoeffs B₁ B₂, ∃ y : Vec n₂, x.ofLp ᵥ* B₁ = y.ofLp ᵥ* B₂ ∧ ‖y‖ ≤ K * ‖x‖

/-- What `basis_intersection` is documented to return: orthonormal rows `P₁`, `P₂`, the coefficients of
the combinations of one basis that are combinations of the other; so `P₁ @ basis1` and `P₂ @ basis2`
span the intersection of the two row spaces. -/
structure IsIntersection {n₁ n₂ D : ℕ} (B₁ : Matrix (Fin n₁) (Fin D) ℂ) (B₂ : Matrix (Fin n₂) (Fin D) ℂ)
    (P₁ : List (Vec n₁)) (P₂ : List (Vec n₂)) : Prop where
  orth₁ : OrthonormalList P₁
  orth₂ : OrthonormalList P₂
  coeff₁ : ∀ x : Vec n₁, x ∈ lspan P₁ ↔ ∃ y : Fin n₂ → ℂ, x.ofLp ᵥ* B₁ = y ᵥ* B₂
  coeff₂ : ∀ y : Vec n₂, y ∈ lspan P₂ ↔ ∃ x : Fin n₁ → ℂ, y.ofLp ᵥ* B₂ = x ᵥ* B₁
  rows₁ : Submodule.span ℂ {r | ∃ x ∈ P₁, r = x.ofLp ᵥ* B₁} = rowSpace B₁ ⊓ rowSpace B₂
  rows₂ : Submodule.span ℂ {r | ∃ y ∈ P₂, r = y.ofLp ᵥ* B₂} = rowSpace B₁ ⊓ rowSpace B₂
  real₁ : ∀ x ∈ P₁, ∀ i, (x i).im = 0
  real₂ : ∀ y ∈ P₂, ∀ i, (y i).im = 0

end LieNN.Spec
