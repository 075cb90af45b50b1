import Verif.Proofs.RecomputeGap
import Verif.Proofs.IrProduct
import Mathlib.Analysis.Matrix.Spectrum
import Mathlib.Analysis.Matrix.PosDef
/-!
# The gap of the generic `clebsch_gordan` for a product of groups
-/
namespace LieNN.ProductGap

open LieNN.Spec Matrix Module
open scoped ComplexOrder

/-- A sum of two positive operators on the two factors of a tensor product has no small eigenvalue when the
two operators have none. -/
theorem kron_sum_gap {α β : Type} [Fintype α] [DecidableEq α] [Fintype β] [DecidableEq β] {M : Matrix α α ℂ}
    {N : Matrix β β ℂ} (hM : M.PosSemidef) (hN : N.PosSemidef) {eps : ℝ}
    (gM : ∀ (μ : ℝ) (x : α → ℂ), x ≠ 0 → M *ᵥ x = (μ : ℂ) • x → 0 < μ → eps ≤ μ)
    (gN : ∀ (μ : ℝ) (x : β → ℂ), x ≠ 0 → N *ᵥ x = (μ : ℂ) • x → 0 < μ → eps ≤ μ)
    (μ : ℝ) (Y : Matrix α β ℂ) (hY : Y ≠ 0) (hev : M * Y + Y * Nᵀ = (μ : ℂ) • Y) (hμ : 0 < μ) : eps ≤ μ := by
  set v := hN.isHermitian.eigenvectorBasis with hv
  set ν := hN.isHermitian.eigenvalues with hν
  have hvv : ∀ j, N *ᵥ (v j).ofLp = (ν j : ℂ) • (v j).ofLp := fun j => by
    have := hN.isHermitian.mulVec_eigenvectorBasis j
    rw [this]
    rfl
  obtain ⟨j, hj⟩ : ∃ j, Y *ᵥ star (v j).ofLp ≠ 0 := by
    by_contra hcon
    push Not at hcon
    apply hY
    ext a b
    have h0 : (WithLp.toLp 2 (Y a) : EuclideanSpace ℂ β) = 0 := by
      apply v.repr.injective
      ext j
      rw [v.repr_apply_apply, map_zero, EuclideanSpace.inner_eq_star_dotProduct]
      exact congrFun (hcon j) a
    exact congrFun (congrArg WithLp.ofLp h0) b
  have hNt : Nᵀ *ᵥ star (v j).ofLp = (ν j : ℂ) • star (v j).ofLp := by
    have h1 := congrArg star (hvv j)
    rw [star_mulVec, hN.isHermitian.eq, star_smul] at h1
    rw [mulVec_transpose, h1]
    simp
  set z := Y *ᵥ star (v j).ofLp with hz
  have hMz : M *ᵥ z = ((μ - ν j : ℝ) : ℂ) • z := by
    have h1 := congrArg (fun A => A *ᵥ star (v j).ofLp) hev
    simp only [add_mulVec, ← mulVec_mulVec, hNt, mulVec_smul, smul_mulVec] at h1
    rw [← hz] at h1
    rw [Complex.ofReal_sub, sub_smul, ← h1, add_sub_cancel_right]
  have hν0 : 0 ≤ ν j := hN.eigenvalues_nonneg j
  have h0 : 0 ≤ μ - ν j := by
    have h1 := hM.dotProduct_mulVec_nonneg z
    rw [hMz, dotProduct_smul, smul_eq_mul] at h1
    have h2 : 0 < star z ⬝ᵥ z := dotProduct_star_self_pos_iff.2 hj
    by_contra hneg
    push Not at hneg
    have h3 : ((μ - ν j : ℝ) : ℂ) < 0 := by exact_mod_cast hneg
    exact absurd h1 (mul_neg_of_neg_of_pos h3 h2).not_ge
  rcases h0.eq_or_lt with h1 | h1
  · have h2 : μ = ν j := by linarith
    rw [h2]
    refine gN (ν j) _ ?_ (hvv j) (by linarith)
    intro h3
    apply hj
    rw [hz, h3, star_zero, mulVec_zero]
  · have := gM _ z hj hMz h1
    linarith

/-- Sorting the indices of the two factors. -/
def shuffle (A B C A' B' C' : Type) : (A × B × C) × (A' × B' × C') ≃ (A × A') × (B × B') × (C × C') where
  toFun x := ((x.1.1, x.2.1), (x.1.2.1, x.2.2.1), (x.1.2.2, x.2.2.2))
  invFun y := ((y.1.1, y.2.1.1, y.2.2.1), (y.1.2, y.2.1.2, y.2.2.2))

/-- Flattening three indices. -/
def flat3 (a b c : ℕ) : Fin a × Fin b × Fin c ≃ Fin (a * (b * c)) :=
  (Equiv.prodCongr (Equiv.refl _) finProdFinEquiv).trans finProdFinEquiv

variable {d₁ d₂ d₃ e₁ e₂ e₃ : ℕ}

/-- The index of the product in terms of the indices of the factors. -/
def sig (d₁ d₂ d₃ e₁ e₂ e₃ : ℕ) : Fin (d₃ * (d₁ * d₂)) × Fin (e₃ * (e₁ * e₂)) ≃ Fin (d₃ * e₃ * (d₁ * e₁ * (d₂ * e₂))) :=
  (((Equiv.prodCongr (flat3 d₃ d₁ d₂) (flat3 e₃ e₁ e₂)).symm.trans (shuffle _ _ _ _ _ _)).trans
    (Equiv.prodCongr finProdFinEquiv (Equiv.prodCongr finProdFinEquiv finProdFinEquiv))).trans (flat3 _ _ _)

theorem sig_apply (k i j k' i' j') : sig d₁ d₂ d₃ e₁ e₂ e₃
      (finProdFinEquiv (k, finProdFinEquiv (i, j)), finProdFinEquiv (k', finProdFinEquiv (i', j'))) =
    finProdFinEquiv (finProdFinEquiv (k, k'), finProdFinEquiv (finProdFinEquiv (i, i'), finProdFinEquiv (j, j'))) := by
  simp [sig, flat3, shuffle]

theorem one_prod {a b : ℕ} (i i' : Fin a) (j j' : Fin b) :
    (1 : Matrix (Fin (a * b)) (Fin (a * b)) ℂ) (finProdFinEquiv (i, j)) (finProdFinEquiv (i', j')) =
      (1 : Matrix _ _ ℂ) i i' * (1 : Matrix _ _ ℂ) j j' := by
  rw [← kron_one, kron_prod]

theorem ext_sig {A B : Matrix (Fin (d₃ * (d₁ * d₂)) × Fin (e₃ * (e₁ * e₂))) (Fin (d₃ * (d₁ * d₂)) × Fin (e₃ * (e₁ * e₂))) ℂ}
    (h : ∀ k i j k' i' j' l m n l' m' n', A (finProdFinEquiv (k, finProdFinEquiv (i, j)), finProdFinEquiv (k', finProdFinEquiv (i', j')))
      (finProdFinEquiv (l, finProdFinEquiv (m, n)), finProdFinEquiv (l', finProdFinEquiv (m', n'))) =
      B (finProdFinEquiv (k, finProdFinEquiv (i, j)), finProdFinEquiv (k', finProdFinEquiv (i', j')))
      (finProdFinEquiv (l, finProdFinEquiv (m, n)), finProdFinEquiv (l', finProdFinEquiv (m', n')))) : A = B := by
  ext ⟨p, q⟩ ⟨p', q'⟩
  obtain ⟨⟨k, ij⟩, rfl⟩ := finProdFinEquiv.surjective p
  obtain ⟨⟨i, j⟩, rfl⟩ := finProdFinEquiv.surjective ij
  obtain ⟨⟨k', ij'⟩, rfl⟩ := finProdFinEquiv.surjective q
  obtain ⟨⟨i', j'⟩, rfl⟩ := finProdFinEquiv.surjective ij'
  obtain ⟨⟨l, mn⟩, rfl⟩ := finProdFinEquiv.surjective p'
  obtain ⟨⟨m, n⟩, rfl⟩ := finProdFinEquiv.surjective mn
  obtain ⟨⟨l', mn'⟩, rfl⟩ := finProdFinEquiv.surjective q'
  obtain ⟨⟨m', n'⟩, rfl⟩ := finProdFinEquiv.surjective mn'
  exact h _ _ _ _ _ _ _ _ _ _ _ _

open scoped Kronecker

theorem kronI {α β : Type} (A : Matrix α α ℂ) (B : Matrix β β ℂ) (p p' : α) (q q' : β) :
    (A ⊗ₖ B) (p, q) (p', q') = A p p' * B q q' := rfl

set_option linter.unusedSimpArgs false

section blocks
variable (x₁ : Matrix (Fin d₁) (Fin d₁) ℂ) (x₂ : Matrix (Fin d₂) (Fin d₂) ℂ) (x₃ : Matrix (Fin d₃) (Fin d₃) ℂ)
  (y₁ : Matrix (Fin e₁) (Fin e₁) ℂ) (y₂ : Matrix (Fin e₂) (Fin e₂) ℂ) (y₃ : Matrix (Fin e₃) (Fin e₃) ℂ)

theorem block_X₁ : (icobBlock (kron x₃ (1 : Matrix (Fin e₃) (Fin e₃) ℂ)) (kron (kron x₁ (1 : Matrix (Fin e₁) (Fin e₁) ℂ)) 1 +
      kron 1 (kron x₂ (1 : Matrix (Fin e₂) (Fin e₂) ℂ)))).submatrix (sig d₁ d₂ d₃ e₁ e₂ e₃) (sig d₁ d₂ d₃ e₁ e₂ e₃) =
    icobBlock x₃ (kron x₁ 1 + kron 1 x₂) ⊗ₖ (1 : Matrix (Fin (e₃ * (e₁ * e₂))) (Fin (e₃ * (e₁ * e₂))) ℂ) := by
  refine ext_sig fun k i j k' i' j' l m n l' m' n' => ?_
  simp only [submatrix_apply, sig_apply, kronI, icobBlock, Matrix.sub_apply, Matrix.add_apply, kron_prod, one_prod,
    transpose_apply]
  simp only [Matrix.one_apply, eq_comm (a := m), eq_comm (a := n), eq_comm (a := m'), eq_comm (a := n')]
  ring

theorem block_X₂ : (icobBlock (kron (1 : Matrix (Fin d₃) (Fin d₃) ℂ) y₃) (kron (kron (1 : Matrix (Fin d₁) (Fin d₁) ℂ) y₁) 1 +
      kron 1 (kron (1 : Matrix (Fin d₂) (Fin d₂) ℂ) y₂))).submatrix (sig d₁ d₂ d₃ e₁ e₂ e₃) (sig d₁ d₂ d₃ e₁ e₂ e₃) =
    (1 : Matrix (Fin (d₃ * (d₁ * d₂))) (Fin (d₃ * (d₁ * d₂))) ℂ) ⊗ₖ icobBlock y₃ (kron y₁ 1 + kron 1 y₂) := by
  refine ext_sig fun k i j k' i' j' l m n l' m' n' => ?_
  simp only [submatrix_apply, sig_apply, kronI, icobBlock, Matrix.sub_apply, Matrix.add_apply, kron_prod, one_prod,
    transpose_apply]
  simp only [Matrix.one_apply, eq_comm (a := m), eq_comm (a := n), eq_comm (a := m'), eq_comm (a := n')]
  ring

theorem block_H₁ : (icobBlock (kron x₃ (1 : Matrix (Fin e₃) (Fin e₃) ℂ)) (kron (kron x₁ (1 : Matrix (Fin e₁) (Fin e₁) ℂ))
      (kron x₂ (1 : Matrix (Fin e₂) (Fin e₂) ℂ)))).submatrix (sig d₁ d₂ d₃ e₁ e₂ e₃) (sig d₁ d₂ d₃ e₁ e₂ e₃) =
    icobBlock x₃ (kron x₁ x₂) ⊗ₖ (1 : Matrix (Fin (e₃ * (e₁ * e₂))) (Fin (e₃ * (e₁ * e₂))) ℂ) := by
  refine ext_sig fun k i j k' i' j' l m n l' m' n' => ?_
  simp only [submatrix_apply, sig_apply, kronI, icobBlock, Matrix.sub_apply, kron_prod, one_prod,
    transpose_apply]
  simp only [Matrix.one_apply, eq_comm (a := m), eq_comm (a := n), eq_comm (a := m'), eq_comm (a := n')]
  ring

theorem block_H₂ : (icobBlock (kron (1 : Matrix (Fin d₃) (Fin d₃) ℂ) y₃) (kron (kron (1 : Matrix (Fin d₁) (Fin d₁) ℂ) y₁)
      (kron (1 : Matrix (Fin d₂) (Fin d₂) ℂ) y₂))).submatrix (sig d₁ d₂ d₃ e₁ e₂ e₃) (sig d₁ d₂ d₃ e₁ e₂ e₃) =
    (1 : Matrix (Fin (d₃ * (d₁ * d₂))) (Fin (d₃ * (d₁ * d₂))) ℂ) ⊗ₖ icobBlock y₃ (kron y₁ y₂) := by
  refine ext_sig fun k i j k' i' j' l m n l' m' n' => ?_
  simp only [submatrix_apply, sig_apply, kronI, icobBlock, Matrix.sub_apply, kron_prod, one_prod,
    transpose_apply]
  simp only [Matrix.one_apply, eq_comm (a := m), eq_comm (a := n), eq_comm (a := m'), eq_comm (a := n')]
  ring

end blocks

theorem icob_normal_sum {n a b : ℕ} (X₁ : Fin n → Matrix (Fin a) (Fin a) ℂ) (X₂ : Fin n → Matrix (Fin b) (Fin b) ℂ) :
    (icobMatrix X₁ X₂)ᴴ * icobMatrix X₁ X₂ = ∑ a, (icobBlock (X₁ a) (X₂ a))ᴴ * icobBlock (X₁ a) (X₂ a) := by
  ext p q
  rw [Matrix.sum_apply, Matrix.mul_apply, ← finProdFinEquiv.sum_comp, Fintype.sum_prod_type]
  refine Finset.sum_congr rfl fun a _ => ?_
  rw [Matrix.mul_apply]
  refine Finset.sum_congr rfl fun x _ => ?_
  simp only [icobMatrix, conjTranspose_apply, divNat_prod, modNat_prod]

theorem sub_left {α β γ : Type} [Fintype α] [Fintype β] [DecidableEq β] [Fintype γ] (s : α × β ≃ γ) {B : Matrix γ γ ℂ} {b : Matrix α α ℂ}
    (h : B.submatrix s s = b ⊗ₖ (1 : Matrix β β ℂ)) : (Bᴴ * B).submatrix s s = (bᴴ * b) ⊗ₖ (1 : Matrix β β ℂ) := by
  rw [← submatrix_mul_equiv _ _ _ s, ← conjTranspose_submatrix, h, conjTranspose_kronecker, ← mul_kronecker_mul]
  simp

theorem sub_right {α β γ : Type} [Fintype α] [DecidableEq α] [Fintype β] [Fintype γ] (s : α × β ≃ γ) {B : Matrix γ γ ℂ} {b : Matrix β β ℂ}
    (h : B.submatrix s s = (1 : Matrix α α ℂ) ⊗ₖ b) : (Bᴴ * B).submatrix s s = (1 : Matrix α α ℂ) ⊗ₖ (bᴴ * b) := by
  rw [← submatrix_mul_equiv _ _ _ s, ← conjTranspose_submatrix, h, conjTranspose_kronecker, ← mul_kronecker_mul]
  simp

variable {n₁ h₁ n₂ h₂ : ℕ}

section
variable (r : Rep n₁ h₁ d₁) (s : Rep n₂ h₂ e₁) (r' : Rep n₁ h₁ d₂)

theorem tpX (a) : (r.tensorProduct r').X a = kron (r.X a) 1 + kron 1 (r'.X a) := rfl
theorem tpH (a) : (r.tensorProduct r').H a = kron (r.H a) (r'.H a) := rfl
theorem tabX₁ (a : Fin n₁) : (r.tabulatedProduct s).X (Fin.castAdd n₂ a) = kron (r.X a) 1 := by simp [Rep.tabulatedProduct]
theorem tabX₂ (a : Fin n₂) : (r.tabulatedProduct s).X (Fin.natAdd n₁ a) = kron 1 (s.X a) := by simp [Rep.tabulatedProduct]
theorem tabH₁ (a : Fin h₁) : (r.tabulatedProduct s).H (Fin.castAdd h₂ a) = kron (r.H a) 1 := by simp [Rep.tabulatedProduct]
theorem tabH₂ (a : Fin h₂) : (r.tabulatedProduct s).H (Fin.natAdd h₁ a) = kron 1 (s.H a) := by simp [Rep.tabulatedProduct]

end

/-- The normal matrix of a product of groups is the sum of those of the factors. -/
theorem normal_product (r₁ : Rep n₁ h₁ d₁) (r₂ : Rep n₁ h₁ d₂) (r₃ : Rep n₁ h₁ d₃) (s₁ : Rep n₂ h₂ e₁) (s₂ : Rep n₂ h₂ e₂)
    (s₃ : Rep n₂ h₂ e₃) :
    ((icobMatrix (r₃.tabulatedProduct s₃).allGens ((r₁.tabulatedProduct s₁).tensorProduct (r₂.tabulatedProduct s₂)).allGens)ᴴ *
      icobMatrix (r₃.tabulatedProduct s₃).allGens
        ((r₁.tabulatedProduct s₁).tensorProduct (r₂.tabulatedProduct s₂)).allGens).submatrix
          (sig d₁ d₂ d₃ e₁ e₂ e₃) (sig d₁ d₂ d₃ e₁ e₂ e₃) =
    ((icobMatrix r₃.allGens (r₁.tensorProduct r₂).allGens)ᴴ * icobMatrix r₃.allGens (r₁.tensorProduct r₂).allGens) ⊗ₖ 1 +
      1 ⊗ₖ ((icobMatrix s₃.allGens (s₁.tensorProduct s₂).allGens)ᴴ * icobMatrix s₃.allGens (s₁.tensorProduct s₂).allGens) := by
  have hs : ∀ {ι : Type} (t : Finset ι) (f : ι → Matrix (Fin (d₃ * e₃ * (d₁ * e₁ * (d₂ * e₂)))) (Fin (d₃ * e₃ * (d₁ * e₁ * (d₂ * e₂)))) ℂ),
      (∑ a ∈ t, f a).submatrix (sig d₁ d₂ d₃ e₁ e₂ e₃) (sig d₁ d₂ d₃ e₁ e₂ e₃) =
        ∑ a ∈ t, (f a).submatrix (sig d₁ d₂ d₃ e₁ e₂ e₃) (sig d₁ d₂ d₃ e₁ e₂ e₃) := by
    intro ι t f
    ext p q
    simp [Matrix.sum_apply]
  have hl : ∀ {ι : Type} (t : Finset ι) (f : ι → Matrix (Fin (d₃ * (d₁ * d₂))) (Fin (d₃ * (d₁ * d₂))) ℂ),
      (∑ a ∈ t, f a) ⊗ₖ (1 : Matrix (Fin (e₃ * (e₁ * e₂))) (Fin (e₃ * (e₁ * e₂))) ℂ) =
        ∑ a ∈ t, f a ⊗ₖ (1 : Matrix (Fin (e₃ * (e₁ * e₂))) (Fin (e₃ * (e₁ * e₂))) ℂ) := by
    intro ι t f
    ext p q
    simp [Matrix.sum_apply, Finset.sum_mul]
  have hr : ∀ {ι : Type} (t : Finset ι) (f : ι → Matrix (Fin (e₃ * (e₁ * e₂))) (Fin (e₃ * (e₁ * e₂))) ℂ),
      (1 : Matrix (Fin (d₃ * (d₁ * d₂))) (Fin (d₃ * (d₁ * d₂))) ℂ) ⊗ₖ (∑ a ∈ t, f a) =
        ∑ a ∈ t, (1 : Matrix (Fin (d₃ * (d₁ * d₂))) (Fin (d₃ * (d₁ * d₂))) ℂ) ⊗ₖ f a := by
    intro ι t f
    ext p q
    simp [Matrix.sum_apply, Finset.mul_sum]
  rw [icob_normal_sum, icob_normal_sum, icob_normal_sum, hs, hl, hr, Fin.sum_univ_add, Fin.sum_univ_add, Fin.sum_univ_add,
    Fin.sum_univ_add, Fin.sum_univ_add]
  simp only [Rep.allGens, Fin.append_left, Fin.append_right]
  have eX₁ : ∀ a : Fin n₁, _ := fun a => sub_left _ (block_X₁ (e₁ := e₁) (e₂ := e₂) (e₃ := e₃) (r₁.X a) (r₂.X a) (r₃.X a))
  have eX₂ : ∀ a : Fin n₂, _ := fun a => sub_right _ (block_X₂ (d₁ := d₁) (d₂ := d₂) (d₃ := d₃) (s₁.X a) (s₂.X a) (s₃.X a))
  have eH₁ : ∀ a : Fin h₁, _ := fun a => sub_left _ (block_H₁ (e₁ := e₁) (e₂ := e₂) (e₃ := e₃) (r₁.H a) (r₂.H a) (r₃.H a))
  have eH₂ : ∀ a : Fin h₂, _ := fun a => sub_right _ (block_H₂ (d₁ := d₁) (d₂ := d₂) (d₃ := d₃) (s₁.H a) (s₂.H a) (s₃.H a))
  simp only [tpX, tpH, tabX₁, tabX₂, tabH₁, tabH₂, eX₁, eX₂, eH₁, eH₂]
  abel

/-- C84, the gap. -/
theorem gap_product {r₁ : Rep n₁ h₁ d₁} {r₂ : Rep n₁ h₁ d₂} {r₃ : Rep n₁ h₁ d₃} {s₁ : Rep n₂ h₂ e₁} {s₂ : Rep n₂ h₂ e₂}
    {s₃ : Rep n₂ h₂ e₃} {eps : ℝ} (hr : Gap eps (icobMatrix r₃.allGens (r₁.tensorProduct r₂).allGens))
    (hs : Gap eps (icobMatrix s₃.allGens (s₁.tensorProduct s₂).allGens)) :
    Gap eps (icobMatrix (r₃.tabulatedProduct s₃).allGens
      ((r₁.tabulatedProduct s₁).tensorProduct (r₂.tabulatedProduct s₂)).allGens) := by
  intro μ x hx hev hμ
  have hn := normal_product r₁ r₂ r₃ s₁ s₂ s₃
  refine kron_sum_gap (posSemidef_conjTranspose_mul_self _) (posSemidef_conjTranspose_mul_self _) hr hs μ
    (Matrix.of fun p q => x (sig d₁ d₂ d₃ e₁ e₂ e₃ (p, q))) ?_ ?_ hμ
  · intro h0
    apply hx
    funext y
    obtain ⟨⟨p, q⟩, rfl⟩ := (sig d₁ d₂ d₃ e₁ e₂ e₃).surjective y
    exact congrFun₂ h0 p q
  · generalize hB : (icobMatrix (r₃.tabulatedProduct s₃).allGens
      ((r₁.tabulatedProduct s₁).tensorProduct (r₂.tabulatedProduct s₂)).allGens)ᴴ * _ = B at hev hn
    generalize (icobMatrix r₃.allGens (r₁.tensorProduct r₂).allGens)ᴴ * _ = M at hn ⊢
    generalize (icobMatrix s₃.allGens (s₁.tensorProduct s₂).allGens)ᴴ * _ = N at hn ⊢
    ext p q
    have h1 := congrFun hev (sig d₁ d₂ d₃ e₁ e₂ e₃ (p, q))
    have h2 : ∀ p' q', B (sig d₁ d₂ d₃ e₁ e₂ e₃ (p, q)) (sig d₁ d₂ d₃ e₁ e₂ e₃ (p', q')) =
        M p p' * (1 : Matrix _ _ ℂ) q q' + (1 : Matrix _ _ ℂ) p p' * N q q' := fun p' q' => congrFun₂ hn (p, q) (p', q')
    rw [mulVec, dotProduct, ← (sig d₁ d₂ d₃ e₁ e₂ e₃).sum_comp, Fintype.sum_prod_type] at h1
    simp only [h2, add_mul, Finset.sum_add_distrib] at h1
    rw [Matrix.add_apply, Matrix.mul_apply, Matrix.mul_apply, Matrix.smul_apply]
    refine Eq.trans ?_ h1
    congr 1
    · refine Finset.sum_congr rfl fun p' _ => ?_
      simp [Matrix.one_apply]
    · rw [Finset.sum_comm]
      refine Finset.sum_congr rfl fun q' _ => ?_
      simp [Matrix.one_apply, mul_comm]

end LieNN.ProductGap
