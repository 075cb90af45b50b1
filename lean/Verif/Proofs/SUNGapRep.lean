import Verif.Proofs.SUNGap
import Verif.Proofs.RecomputeGap
import Verif.Proofs.RepOps

/-!
# The gap of the generic `clebsch_gordan` for the irreps of `SU(N)`
-/
namespace LieNN.SUNGap

open LieNN.Spec LieNN.SUN Matrix
open scoped Kronecker

theorem phi_gl {S : List ℤ} (hS : IsWeight S) : GLRep (Phi S) where
  lie := Phi_lie hS
  conj x := (Phi_conj hS x).symm
  diag k hk := by
    refine ⟨fun a => sig S.length (pats S)[a] (k + 1) - sig S.length (pats S)[a] k, (Phi_unit S hk hk).trans ?_⟩
    unfold GG GL.G
    rw [if_neg (lt_irrefl k), if_neg (lt_irrefl k)]
    rfl

variable {n d₁ d₂ d₃ : ℕ}

/-- The representation on the tensor product. -/
noncomputable def tens (f : Matrix (Fin n) (Fin n) ℂ →ₗ[ℂ] Matrix (Fin d₁) (Fin d₁) ℂ)
    (g : Matrix (Fin n) (Fin n) ℂ →ₗ[ℂ] Matrix (Fin d₂) (Fin d₂) ℂ) :
    Matrix (Fin n) (Fin n) ℂ →ₗ[ℂ] Matrix (Fin (d₁ * d₂)) (Fin (d₁ * d₂)) ℂ where
  toFun x := kron (f x) 1 + kron 1 (g x)
  map_add' x y := by
    rw [map_add, map_add, kron_add_left, kron_add_right]
    abel
  map_smul' c x := by
    apply kron_ext
    intro i k j l
    simp only [map_smul, Matrix.add_apply, Matrix.smul_apply, kron_apply, RingHom.id_apply, smul_eq_mul]
    ring

theorem tens_gl {f : Matrix (Fin n) (Fin n) ℂ →ₗ[ℂ] Matrix (Fin d₁) (Fin d₁) ℂ}
    {g : Matrix (Fin n) (Fin n) ℂ →ₗ[ℂ] Matrix (Fin d₂) (Fin d₂) ℂ} (hf : GLRep f) (hg : GLRep g) :
    GLRep (tens f g) where
  lie x y := by
    change kron (f _) 1 + kron 1 (g _) = (kron (f x) 1 + kron 1 (g x)) * (kron (f y) 1 + kron 1 (g y)) -
      (kron (f y) 1 + kron 1 (g y)) * (kron (f x) 1 + kron 1 (g x))
    rw [hf.lie, hg.lie]
    simp only [mul_add, add_mul, kron_mul, Matrix.mul_one, Matrix.one_mul, sub_eq_add_neg, kron_add_left, kron_add_right,
      kron_neg_left, kron_neg_right]
    abel
  conj x := by
    change kron (f _) 1 + kron 1 (g _) = (kron (f x) 1 + kron 1 (g x))ᴴ
    rw [hf.conj, hg.conj, conjTranspose_add, kron_conjTranspose, kron_conjTranspose, conjTranspose_one, conjTranspose_one]
  diag k hk := by
    obtain ⟨z, hz⟩ := hf.diag k hk
    obtain ⟨w, hw⟩ := hg.diag k hk
    refine ⟨fun p => z (finProdFinEquiv.symm p).1 + w (finProdFinEquiv.symm p).2, ?_⟩
    change kron (f _) 1 + kron 1 (g _) = _
    rw [hz, hw]
    apply kron_ext
    intro a b c e
    rw [Matrix.add_apply, kron_apply, kron_apply]
    simp only [diagonal_apply, one_apply, EmbeddingLike.apply_eq_iff_eq, Prod.mk.injEq, Equiv.symm_apply_apply]
    by_cases c1 : a = c <;> by_cases c2 : b = e <;> simp [c1, c2]

theorem sub_kron {a b : ℕ} (A B : Matrix (Fin a) (Fin a) ℂ) (C : Matrix (Fin b) (Fin b) ℂ) :
    (A - B) ⊗ₖ C = A ⊗ₖ C - B ⊗ₖ C := by
  ext ⟨i, j⟩ ⟨k, l⟩
  simp only [kronecker_apply, Matrix.sub_apply]
  ring

theorem kron_sub {a b : ℕ} (A : Matrix (Fin a) (Fin a) ℂ) (B C : Matrix (Fin b) (Fin b) ℂ) :
    A ⊗ₖ (B - C) = A ⊗ₖ B - A ⊗ₖ C := by
  ext ⟨i, j⟩ ⟨k, l⟩
  simp only [kronecker_apply, Matrix.sub_apply]
  ring

/-- The representation on the matrices. -/
noncomputable def homs (f : Matrix (Fin n) (Fin n) ℂ →ₗ[ℂ] Matrix (Fin d₁) (Fin d₁) ℂ)
    (g : Matrix (Fin n) (Fin n) ℂ →ₗ[ℂ] Matrix (Fin d₂) (Fin d₂) ℂ) :
    Matrix (Fin n) (Fin n) ℂ →ₗ[ℂ] Matrix (Fin d₁ × Fin d₂) (Fin d₁ × Fin d₂) ℂ where
  toFun x := f x ⊗ₖ (1 : Matrix (Fin d₂) (Fin d₂) ℂ) - (1 : Matrix (Fin d₁) (Fin d₁) ℂ) ⊗ₖ (g x)ᵀ
  map_add' x y := by
    rw [map_add, map_add, transpose_add, add_kronecker, kronecker_add]
    abel
  map_smul' c x := by
    rw [map_smul, map_smul, transpose_smul, smul_kronecker, kronecker_smul, RingHom.id_apply, smul_sub]

theorem homs_gl {f : Matrix (Fin n) (Fin n) ℂ →ₗ[ℂ] Matrix (Fin d₁) (Fin d₁) ℂ}
    {g : Matrix (Fin n) (Fin n) ℂ →ₗ[ℂ] Matrix (Fin d₂) (Fin d₂) ℂ} (hf : GLRep f) (hg : GLRep g) :
    GLRep (homs f g) where
  lie x y := by
    change f _ ⊗ₖ _ - _ ⊗ₖ (g _)ᵀ = (f x ⊗ₖ _ - _ ⊗ₖ (g x)ᵀ) * (f y ⊗ₖ _ - _ ⊗ₖ (g y)ᵀ) -
      (f y ⊗ₖ _ - _ ⊗ₖ (g y)ᵀ) * (f x ⊗ₖ _ - _ ⊗ₖ (g x)ᵀ)
    rw [hf.lie, hg.lie, transpose_sub, transpose_mul, transpose_mul]
    simp only [mul_sub, sub_mul, ← mul_kronecker_mul, Matrix.mul_one, Matrix.one_mul, sub_kron, kron_sub]
    abel
  conj x := by
    change f _ ⊗ₖ _ - _ ⊗ₖ (g _)ᵀ = (f x ⊗ₖ _ - _ ⊗ₖ (g x)ᵀ)ᴴ
    rw [hf.conj, hg.conj, conjTranspose_sub, conjTranspose_kronecker, conjTranspose_kronecker, conjTranspose_one,
      conjTranspose_one]
    rfl
  diag k hk := by
    obtain ⟨z, hz⟩ := hf.diag k hk
    obtain ⟨w, hw⟩ := hg.diag k hk
    refine ⟨fun p => z p.1 - w p.2, ?_⟩
    change f _ ⊗ₖ _ - _ ⊗ₖ (g _)ᵀ = _
    rw [hz, hw, diagonal_transpose]
    ext ⟨a, b⟩ ⟨c, e⟩
    rw [Matrix.sub_apply, kronecker_apply, kronecker_apply]
    simp only [diagonal_apply, one_apply, Prod.mk.injEq]
    by_cases c1 : a = c <;> by_cases c2 : b = e <;> simp [c1, c2]

theorem homs_mulVec (f : Matrix (Fin n) (Fin n) ℂ →ₗ[ℂ] Matrix (Fin d₁) (Fin d₁) ℂ)
    (g : Matrix (Fin n) (Fin n) ℂ →ₗ[ℂ] Matrix (Fin d₂) (Fin d₂) ℂ) (x : Matrix (Fin n) (Fin n) ℂ)
    (S : Matrix (Fin d₁) (Fin d₂) ℂ) : homs f g x *ᵥ (fun p => S p.1 p.2) = fun p => (f x * S - S * g x) p.1 p.2 := by
  funext ⟨a, b⟩
  change ((f x ⊗ₖ (1 : Matrix (Fin d₂) (Fin d₂) ℂ) - (1 : Matrix (Fin d₁) (Fin d₁) ℂ) ⊗ₖ (g x)ᵀ) *ᵥ _) _ = _
  rw [sub_mulVec, Pi.sub_apply, Matrix.sub_apply, Matrix.mul_apply, Matrix.mul_apply]
  simp only [mulVec, dotProduct, kronecker_apply, Fintype.sum_prod_type, one_apply, transpose_apply]
  congr 1
  · refine Finset.sum_congr rfl fun c _ => ?_
    simp
  · rw [Finset.sum_comm]
    refine Finset.sum_congr rfl fun c _ => ?_
    simp [mul_comm]

/-- Sums over the positions of a list. -/
theorem sum_getD {M E : Type*} [AddCommMonoid M] (L : List E) (e : E) {m : ℕ} (hm : L.length = m) (G : E → M) :
    ∑ a : Fin m, G (L.getD a e) = (L.map G).sum := by
  subst hm
  rw [← List.sum_ofFn]
  congr 1
  apply List.ext_getElem
  · simp
  · intro i h1 h2
    simp

/-- The gap for the images of the basis under two representations. -/
theorem gap_gl {f : Matrix (Fin n) (Fin n) ℂ →ₗ[ℂ] Matrix (Fin d₁) (Fin d₁) ℂ}
    {g : Matrix (Fin n) (Fin n) ℂ →ₗ[ℂ] Matrix (Fin d₂) (Fin d₂) ℂ} (hf : GLRep f) (hg : GLRep g)
    {r₁ : Rep (n ^ 2 - 1) 0 d₁} {r₂ : Rep (n ^ 2 - 1) 0 d₂} (h₁ : ∀ a, r₁.X a = f ((suBasis n).getD a 0))
    (h₂ : ∀ a, r₂.X a = g ((suBasis n).getD a 0)) {eps : ℝ} (heps : eps ≤ 1) :
    Gap eps (icobMatrix r₁.allGens r₂.allGens) := by
  have hl := length_suBasis' n
  have s₁ : ∀ a, (r₁.X a)ᴴ = -r₁.X a := fun a => by
    rw [h₁, ← hf.conj, suBasis_skew (getD_mem (by rw [hl]; exact a.2)), map_neg]
  have s₂ : ∀ a, (r₂.X a)ᴴ = -r₂.X a := fun a => by
    rw [h₂, ← hg.conj, suBasis_skew (getD_mem (by rw [hl]; exact a.2)), map_neg]
  refine CGSpace.gap_allGens s₁ s₂ fun μ S hS hev hμ => heps.trans ?_
  refine (homs_gl hf hg).gap (v₀ := fun p => S p.1 p.2) ?_ hμ ?_
  · intro h0
    apply hS
    ext a b
    exact congrFun h0 (a, b)
  · rw [Finset.univ_eq_empty, Finset.sum_empty, zero_sub] at hev
    have hs : ∀ x ∈ suBasis n, (homs f g x)ᴴ = -homs f g x := fun x hx => by
      rw [← (homs_gl hf hg).conj, suBasis_skew hx, map_neg]
    have e1 : ((suBasis n).map fun x => (homs f g x)ᴴ * homs f g x).sum =
        ∑ a : Fin (n ^ 2 - 1), -(homs f g ((suBasis n).getD a 0) * homs f g ((suBasis n).getD a 0)) := by
      rw [sum_getD (suBasis n) 0 hl fun x => -(homs f g x * homs f g x)]
      refine congrArg List.sum (List.map_congr_left fun x hx => ?_)
      rw [hs x hx, neg_mul]
    rw [e1, sum_mulVec]
    have e2 : ∀ a : Fin (n ^ 2 - 1), (-(homs f g ((suBasis n).getD a 0) * homs f g ((suBasis n).getD a 0))) *ᵥ
        (fun p : Fin d₁ × Fin d₂ => S p.1 p.2) =
        fun p => (-(adOp (r₁.X a) (r₂.X a) * adOp (r₁.X a) (r₂.X a)) S) p.1 p.2 := by
      intro a
      rw [neg_mulVec, ← mulVec_mulVec, homs_mulVec, homs_mulVec, h₁, h₂]
      rfl
    rw [Finset.sum_congr rfl fun a _ => e2 a]
    funext p
    have e3 := congrFun (congrFun hev p.1) p.2
    rw [Pi.smul_apply]
    refine Eq.trans ?_ e3
    rw [Finset.sum_apply, Matrix.neg_apply, LinearMap.sum_apply, Matrix.sum_apply, ← Finset.sum_neg_distrib]
    rfl

end LieNN.SUNGap
