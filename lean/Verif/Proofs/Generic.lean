import Verif.Proofs.Intertwiner
import Mathlib.LinearAlgebra.Matrix.Charpoly.Eigs
import Mathlib.LinearAlgebra.Eigenspace.Triangularizable
/-!
# Elements of a commutant with the largest number of distinct eigenvalues

Helper lemmas: for a family closed under invariant orthogonal complements, every eigenspace of such an
element is irreducible and the eigenspaces span.
-/
namespace LieNN

open Matrix Spec

variable {n d : ℕ}

/-- The distinct eigenvalues of a matrix. -/
noncomputable def eigSet (M : Matrix (Fin d) (Fin d) ℂ) : Finset ℂ := M.charpoly.roots.toFinset

theorem mem_eigSet_iff_det {M : Matrix (Fin d) (Fin d) ℂ} {μ : ℂ} :
    μ ∈ eigSet M ↔ (M - scalar (Fin d) μ).det = 0 := by
  have h0 : M.charpoly ≠ 0 := M.charpoly_monic.ne_zero
  unfold eigSet
  rw [Multiset.mem_toFinset, Polynomial.mem_roots h0, Polynomial.IsRoot, eval_charpoly,
    ← neg_sub M, Matrix.det_neg]
  simp

theorem mem_eigSet {M : Matrix (Fin d) (Fin d) ℂ} {μ : ℂ} :
    μ ∈ eigSet M ↔ ∃ v, v ≠ 0 ∧ M *ᵥ v = μ • v := by
  rw [mem_eigSet_iff_det, ← exists_mulVec_eq_zero_iff]
  simp only [sub_mulVec, scalar_apply, sub_eq_zero, ← smul_one_eq_diagonal, smul_mulVec, one_mulVec]

theorem mem_eigSet_left {M : Matrix (Fin d) (Fin d) ℂ} {μ : ℂ} :
    μ ∈ eigSet M ↔ ∃ v, v ≠ 0 ∧ v ᵥ* M = μ • v := by
  rw [mem_eigSet_iff_det, ← exists_vecMul_eq_zero_iff]
  simp only [vecMul_sub, scalar_apply, sub_eq_zero, ← smul_one_eq_diagonal, vecMul_smul, vecMul_one]

theorem card_eigSet_le (M : Matrix (Fin d) (Fin d) ℂ) : (eigSet M).card ≤ d := by
  unfold eigSet
  calc _ ≤ M.charpoly.roots.card := Multiset.toFinset_card_le _
    _ ≤ M.charpoly.natDegree := Polynomial.card_roots' _
    _ = d := by simp

/-- The orthogonal projection on an invariant subspace commutes with the family. -/
theorem exists_projection {X : Fin n → Matrix (Fin d) (Fin d) ℂ}
    (hX : ∀ a, (X a)ᴴ = -X a ∨ (X a)ᴴ * X a = 1) (W₀ : Submodule ℂ (Fin d → ℂ))
    (hW₀ : ∀ a, ∀ w ∈ W₀, X a *ᵥ w ∈ W₀) :
    ∃ P ∈ intertwiners X X, (∀ w ∈ W₀, P *ᵥ w = w) ∧ ∀ v, P *ᵥ v ∈ W₀ := by
  let e : Vec d ≃ₗ[ℂ] (Fin d → ℂ) := WithLp.linearEquiv 2 ℂ (Fin d → ℂ)
  let W : Submodule ℂ (Vec d) := W₀.comap e.toLinearMap
  have hW : ∀ a, ∀ w ∈ W, (WithLp.toLp 2 (X a *ᵥ w.ofLp) : Vec d) ∈ W := fun a w hw => hW₀ a _ hw
  have hW' : ∀ a, ∀ w ∈ Wᗮ, (WithLp.toLp 2 (X a *ᵥ w.ofLp) : Vec d) ∈ Wᗮ :=
    fun a => invariant_orthogonal (hX a) (hW a)
  let P : Matrix (Fin d) (Fin d) ℂ :=
    LinearMap.toMatrix' (e.toLinearMap ∘ₗ (W.starProjection : Vec d →L[ℂ] Vec d).toLinearMap ∘ₗ
      e.symm.toLinearMap)
  have hP : ∀ v : Vec d, P *ᵥ v.ofLp = (W.starProjection v).ofLp := by
    intro v
    show (LinearMap.toMatrix' _) *ᵥ v.ofLp = _
    rw [← toLin'_apply, toLin'_toMatrix']
    rfl
  refine ⟨P, ?_, ?_, ?_⟩
  · intro a
    apply Matrix.toLin'.injective
    refine LinearMap.ext fun v => ?_
    rw [toLin'_apply, toLin'_apply, ← mulVec_mulVec, ← mulVec_mulVec]
    have h1 := hP (WithLp.toLp 2 v)
    have h2 := hP (WithLp.toLp 2 (X a *ᵥ v))
    simp only at h1 h2
    rw [h1, h2]
    have hdec : (WithLp.toLp 2 (X a *ᵥ v) : Vec d) =
        WithLp.toLp 2 (X a *ᵥ (W.starProjection (WithLp.toLp 2 v)).ofLp) +
        WithLp.toLp 2 (X a *ᵥ ((WithLp.toLp 2 v : Vec d) - W.starProjection (WithLp.toLp 2 v)).ofLp) := by
      rw [← WithLp.toLp_add, ← mulVec_add]
      simp
    rw [hdec, map_add, Submodule.starProjection_eq_self_iff.2
        (hW a _ (Submodule.starProjection_apply_mem _ _)),
      (Submodule.starProjection_apply_eq_zero_iff _).2
        (hW' a _ (Submodule.sub_starProjection_mem_orthogonal _)), add_zero]
  · intro w hw
    have := hP (WithLp.toLp 2 w)
    rw [Submodule.starProjection_eq_self_iff.2 (show (WithLp.toLp 2 w : Vec d) ∈ W from hw)] at this
    exact this
  · intro v
    have h1 := hP (WithLp.toLp 2 v)
    simp only at h1
    rw [h1]
    exact Submodule.starProjection_apply_mem W (WithLp.toLp 2 v)

/-- The key step: if no element of the commutant has more distinct eigenvalues than `M`, an invariant
non-zero subspace of an eigenspace is a complement of the range of `M - μ`. -/
theorem range_sup_of_max {X : Fin n → Matrix (Fin d) (Fin d) ℂ}
    (hX : ∀ a, (X a)ᴴ = -X a ∨ (X a)ᴴ * X a = 1) {M : Matrix (Fin d) (Fin d) ℂ}
    (hM : M ∈ intertwiners X X)
    (hmax : ∀ N ∈ intertwiners X X, (eigSet N).card ≤ (eigSet M).card) {μ : ℂ}
    (U : Submodule ℂ (Fin d → ℂ)) (hU : ∀ a, ∀ w ∈ U, X a *ᵥ w ∈ U) (hne : U ≠ ⊥)
    (hE : ∀ w ∈ U, M *ᵥ w = μ • w) :
    LinearMap.range (M - scalar (Fin d) μ).mulVecLin ⊔ U = ⊤ := by
  by_contra hlt
  obtain ⟨f, hf0, hf⟩ := Submodule.exists_le_ker_of_lt_top _ (lt_top_iff_ne_top.2 hlt)
  -- the functional as a row vector
  set y : Fin d → ℂ := fun i => f (Pi.single i 1) with hy
  have hfy : ∀ v, f v = y ⬝ᵥ v := by
    intro v
    conv_lhs => rw [← Finset.univ_sum_single v]
    rw [map_sum, dotProduct]
    refine Finset.sum_congr rfl fun i _ => ?_
    have : (Pi.single i (v i) : Fin d → ℂ) = v i • Pi.single i 1 := by
      rw [← Pi.single_smul, smul_eq_mul, mul_one]
    rw [this, map_smul, smul_eq_mul, mul_comm]
  have hy0 : y ≠ 0 := by
    intro h0
    apply hf0
    ext v
    simp [hfy, h0]
  have hyU : ∀ w ∈ U, y ⬝ᵥ w = 0 := by
    intro w hw
    rw [← hfy]
    exact hf (Submodule.mem_sup_right hw)
  have hyM : y ᵥ* M = μ • y := by
    have h1 : y ᵥ* (M - scalar (Fin d) μ) = 0 := by
      refine dotProduct_eq _ _ fun v => ?_
      rw [← dotProduct_mulVec, ← hfy, zero_dotProduct]
      exact hf (Submodule.mem_sup_left ⟨v, rfl⟩)
    rwa [vecMul_sub, sub_eq_zero, scalar_apply, ← smul_one_eq_diagonal, vecMul_smul, vecMul_one] at h1
  obtain ⟨P, hP, hPU, hPr⟩ := exists_projection hX U hU
  -- a shift that gives a new eigenvalue
  obtain ⟨ν, hν⟩ := Infinite.exists_notMem_finset (eigSet M)
  set t : ℂ := ν - μ with ht
  have hN : M + t • P ∈ intertwiners X X :=
    Submodule.add_mem _ hM (Submodule.smul_mem _ _ hP)
  have hyP : ∀ z : Fin d → ℂ, (∀ w ∈ U, z ⬝ᵥ w = 0) → z ᵥ* P = 0 := by
    intro z hz
    refine dotProduct_eq _ _ fun v => ?_
    rw [← dotProduct_mulVec, hz _ (hPr v), zero_dotProduct]
  have hsub : insert ν (eigSet M) ⊆ eigSet (M + t • P) := by
    intro lam hlam
    rcases Finset.mem_insert.1 hlam with rfl | hlam
    · obtain ⟨u, hu, hu0⟩ := (Submodule.ne_bot_iff _).1 hne
      refine mem_eigSet.2 ⟨u, hu0, ?_⟩
      rw [add_mulVec, smul_mulVec, hPU u hu, hE u hu, ← add_smul, ht]
      congr 1; ring
    · by_cases hl : lam = μ
      · subst hl
        refine mem_eigSet_left.2 ⟨y, hy0, ?_⟩
        rw [vecMul_add, vecMul_smul, hyP y hyU, smul_zero, add_zero, hyM]
      · obtain ⟨z, hz0, hz⟩ := mem_eigSet_left.1 hlam
        refine mem_eigSet_left.2 ⟨z, hz0, ?_⟩
        rw [vecMul_add, vecMul_smul, hyP z, smul_zero, add_zero, hz]
        intro w hw
        have h1 : (z ᵥ* M) ⬝ᵥ w = z ⬝ᵥ (M *ᵥ w) := (dotProduct_mulVec _ _ _).symm
        rw [hz, hE w hw, smul_dotProduct, dotProduct_smul, smul_eq_mul, smul_eq_mul] at h1
        have h2 : (lam - μ) * (z ⬝ᵥ w) = 0 := by rw [sub_mul, h1, sub_self]
        exact (mul_eq_zero.1 h2).resolve_left (sub_ne_zero.2 hl)
  have hc := Finset.card_le_card hsub
  rw [Finset.card_insert_of_notMem hν] at hc
  have := hmax _ hN
  omega

/-- The eigenspace of a matrix. -/
def eigSpace (M : Matrix (Fin d) (Fin d) ℂ) (μ : ℂ) : Submodule ℂ (Fin d → ℂ) :=
  LinearMap.ker (M - scalar (Fin d) μ).mulVecLin

theorem mem_eigSpace {M : Matrix (Fin d) (Fin d) ℂ} {μ : ℂ} {v : Fin d → ℂ} :
    v ∈ eigSpace M μ ↔ M *ᵥ v = μ • v := by
  unfold eigSpace
  rw [LinearMap.mem_ker, mulVecLin_apply, sub_mulVec, sub_eq_zero, scalar_apply,
    ← smul_one_eq_diagonal, smul_mulVec, one_mulVec]

theorem eigSpace_invariant {X : Fin n → Matrix (Fin d) (Fin d) ℂ} {M : Matrix (Fin d) (Fin d) ℂ}
    (hM : M ∈ intertwiners X X) (μ : ℂ) : ∀ a, ∀ w ∈ eigSpace M μ, X a *ᵥ w ∈ eigSpace M μ := by
  intro a w hw
  rw [mem_eigSpace] at hw ⊢
  rw [mulVec_mulVec, ← hM a, ← mulVec_mulVec, hw, mulVec_smul]

/-- Eigenspaces of such an element contain no smaller invariant subspace. -/
theorem eigSpace_minimal {X : Fin n → Matrix (Fin d) (Fin d) ℂ}
    (hX : ∀ a, (X a)ᴴ = -X a ∨ (X a)ᴴ * X a = 1) {M : Matrix (Fin d) (Fin d) ℂ}
    (hM : M ∈ intertwiners X X)
    (hmax : ∀ N ∈ intertwiners X X, (eigSet N).card ≤ (eigSet M).card) {μ : ℂ}
    (U : Submodule ℂ (Fin d → ℂ)) (hU : ∀ a, ∀ w ∈ U, X a *ᵥ w ∈ U) (hne : U ≠ ⊥)
    (hle : U ≤ eigSpace M μ) : U = eigSpace M μ := by
  have h1 := range_sup_of_max hX hM hmax U hU hne fun w hw => mem_eigSpace.1 (hle hw)
  apply Submodule.eq_of_le_of_finrank_le hle
  have h2 := LinearMap.finrank_range_add_finrank_ker (M - scalar (Fin d) μ).mulVecLin
  have h3 := Submodule.finrank_add_le_finrank_add_finrank
    (LinearMap.range (M - scalar (Fin d) μ).mulVecLin) U
  rw [h1, finrank_top] at h3
  unfold eigSpace
  omega

/-- Such an element is diagonalisable. -/
theorem eigSpace_span {X : Fin n → Matrix (Fin d) (Fin d) ℂ}
    (hX : ∀ a, (X a)ᴴ = -X a ∨ (X a)ᴴ * X a = 1) {M : Matrix (Fin d) (Fin d) ℂ}
    (hM : M ∈ intertwiners X X)
    (hmax : ∀ N ∈ intertwiners X X, (eigSet N).card ≤ (eigSet M).card) :
    ⨆ μ, eigSpace M μ = ⊤ := by
  have hsq : ∀ μ, ∀ v, (M - scalar (Fin d) μ) *ᵥ ((M - scalar (Fin d) μ) *ᵥ v) = 0 →
      (M - scalar (Fin d) μ) *ᵥ v = 0 := by
    intro μ v hv
    by_contra h0
    have hne : eigSpace M μ ≠ ⊥ := (Submodule.ne_bot_iff _).2 ⟨_, hv, h0⟩
    have h1 := range_sup_of_max hX hM hmax (eigSpace M μ) (eigSpace_invariant hM μ) hne
      fun w hw => mem_eigSpace.1 hw
    have h2 := LinearMap.finrank_range_add_finrank_ker (M - scalar (Fin d) μ).mulVecLin
    have h3 := Submodule.finrank_sup_add_finrank_inf_eq
      (LinearMap.range (M - scalar (Fin d) μ).mulVecLin) (eigSpace M μ)
    rw [h1, finrank_top] at h3
    have h4 : LinearMap.range (M - scalar (Fin d) μ).mulVecLin ⊓ eigSpace M μ = ⊥ := by
      rw [← Submodule.finrank_eq_zero (R := ℂ)]
      unfold eigSpace at h3 ⊢
      omega
    exact h0 ((Submodule.mem_bot ℂ).1 (h4 ▸ ⟨⟨v, rfl⟩, hv⟩))
  have hgen : ∀ μ (k : ℕ) v, ((M - scalar (Fin d) μ) ^ k) *ᵥ v = 0 → v ∈ eigSpace M μ := by
    intro μ k
    induction k with
    | zero => intro v hv; simp at hv; simp [hv]
    | succ k ih =>
      intro v hv
      rw [pow_succ, ← mulVec_mulVec] at hv
      exact hsq μ v (ih _ hv)
  rw [eq_top_iff, ← Module.End.iSup_maxGenEigenspace_eq_top M.mulVecLin]
  refine iSup_mono fun μ => ?_
  intro v hv
  obtain ⟨k, hk⟩ := Module.End.mem_maxGenEigenspace _ _ _ |>.1 hv
  apply hgen μ k
  have e : M.mulVecLin - μ • (1 : Module.End ℂ (Fin d → ℂ)) = toLin' (M - scalar (Fin d) μ) := by
    rw [map_sub, scalar_apply, ← smul_one_eq_diagonal, map_smul, toLin'_one]; rfl
  rw [e, ← toLin'_pow, toLin'_apply] at hk
  exact hk

end LieNN
