import Mathlib.LinearAlgebra.Matrix.DotProduct
import Mathlib.LinearAlgebra.Matrix.PosDef
import Verif.Proofs.GramSchmidt
/-!
# `nullspace`
-/
namespace LieNN

open Matrix Spec

variable {m n : ℕ}

theorem inner_mulVec (M : Matrix (Fin m) (Fin n) ℂ) (x : Vec m) (y : Vec n) :
    inner ℂ x (WithLp.toLp 2 (M *ᵥ y.ofLp) : Vec m) =
      inner ℂ (WithLp.toLp 2 (Mᴴ *ᵥ x.ofLp) : Vec n) y := by
  rw [EuclideanSpace.inner_eq_star_dotProduct, EuclideanSpace.inner_eq_star_dotProduct]
  simp only
  rw [star_mulVec, conjTranspose_conjTranspose, dotProduct_comm, dotProduct_mulVec, dotProduct_comm]

/-- `‖A x‖²`. -/
noncomputable def sqNormMul (A : Matrix (Fin m) (Fin n) ℂ) (x : Vec n) : ℝ :=
  ‖(WithLp.toLp 2 (A *ᵥ x.ofLp) : Vec m)‖ ^ 2

theorem sqNormMul_eq_zero {A : Matrix (Fin m) (Fin n) ℂ} {x : Vec n} :
    sqNormMul A x = 0 ↔ A *ᵥ x.ofLp = 0 := by
  unfold sqNormMul
  rw [sq_eq_zero_iff, norm_eq_zero]
  constructor
  · intro h
    have := congrArg WithLp.ofLp h
    simpa using this
  · intro h; rw [h]; rfl

/-- The orthonormal basis given by `eigh`. -/
noncomputable def eigBasis {vec : Fin n → Vec n} (h : Orthonormal ℂ vec) :
    OrthonormalBasis (Fin n) ℂ (Vec n) :=
  OrthonormalBasis.mk h (by
    have := h.linearIndependent.span_eq_top_of_card_eq_finrank' (by simp)
    rw [this])

theorem eigBasis_apply {vec : Fin n → Vec n} (h : Orthonormal ℂ vec) (k : Fin n) :
    eigBasis h k = vec k := by
  simp [eigBasis]

section spectral

variable {A : Matrix (Fin m) (Fin n) ℂ} {val : Fin n → ℝ} {vec : Fin n → Vec n}

theorem sqNormMul_spectral (ho : Orthonormal ℂ vec)
    (hev : ∀ k, (Aᴴ * A) *ᵥ (vec k).ofLp = (val k : ℂ) • (vec k).ofLp) (x : Vec n) :
    sqNormMul A x = ∑ k, val k * ‖inner ℂ (vec k) x‖ ^ 2 := by
  have h1 : ((sqNormMul A x : ℝ) : ℂ) =
      inner ℂ x (WithLp.toLp 2 ((Aᴴ * A) *ᵥ x.ofLp) : Vec n) := by
    have e1 := inner_mulVec Aᴴ x (WithLp.toLp 2 (A *ᵥ x.ofLp) : Vec m)
    simp only [mulVec_mulVec, conjTranspose_conjTranspose] at e1
    rw [e1, inner_self_eq_norm_sq_to_K]
    simp [sqNormMul]
  have h2 : ∀ k, inner ℂ (vec k) (WithLp.toLp 2 ((Aᴴ * A) *ᵥ x.ofLp) : Vec n) =
      (val k : ℂ) * inner ℂ (vec k) x := by
    intro k
    rw [inner_mulVec]
    have : (Aᴴ * A)ᴴ = Aᴴ * A := by simp
    rw [this, hev k]
    have e : (WithLp.toLp 2 ((val k : ℂ) • (vec k).ofLp) : Vec n) = (val k : ℂ) • vec k := rfl
    rw [e, inner_smul_left]
    simp
  have h3 := (eigBasis ho).sum_inner_mul_inner x (WithLp.toLp 2 ((Aᴴ * A) *ᵥ x.ofLp) : Vec n)
  rw [← h1] at h3
  simp only [eigBasis_apply, h2] at h3
  have h4 : ((sqNormMul A x : ℝ) : ℂ) = ((∑ k, val k * ‖inner ℂ (vec k) x‖ ^ 2 : ℝ) : ℂ) := by
    rw [← h3]
    push_cast
    refine Finset.sum_congr rfl fun k _ => ?_
    rw [← inner_conj_symm x (vec k), mul_left_comm, ← Complex.mul_conj', mul_comm (inner ℂ (vec k) x)]
  exact_mod_cast h4

theorem sqNorm_spectral (ho : Orthonormal ℂ vec) (x : Vec n) :
    ‖x‖ ^ 2 = ∑ k, ‖inner ℂ (vec k) x‖ ^ 2 := by
  have := (eigBasis ho).sum_sq_norm_inner_right x
  simp only [eigBasis_apply] at this
  exact this.symm

theorem val_nonneg (ho : Orthonormal ℂ vec)
    (hev : ∀ k, (Aᴴ * A) *ᵥ (vec k).ofLp = (val k : ℂ) • (vec k).ofLp) (k : Fin n) : 0 ≤ val k := by
  have h := sqNormMul_spectral ho hev (vec k)
  rw [Finset.sum_eq_single k] at h
  · rw [inner_self_eq_norm_sq_to_K, ho.1 k] at h
    simp at h
    rw [← h]
    exact sq_nonneg _
  · intro j _ hj
    rw [ho.2 hj]; simp
  · simp

variable (eps : ℝ)

/-- The span of the eigenvectors selected by `nullspace`. -/
def selSpan (val : Fin n → ℝ) (vec : Fin n → Vec n) : Submodule ℂ (Vec n) :=
  Submodule.span ℂ {x | ∃ k, |val k| < eps ∧ vec k = x}

open Classical in
theorem nullProj_eq (i : Fin n) :
    nullProj eps val vec i =
      ∑ k ∈ Finset.univ.filter (fun k => |val k| < eps), starRingEnd ℂ (vec k i) • vec k := by
  ext j
  simp [nullProj]

theorem nullProj_mem (i : Fin n) : nullProj eps val vec i ∈ selSpan eps val vec := by
  classical
  rw [nullProj_eq]
  refine Submodule.sum_mem _ fun k hk => Submodule.smul_mem _ _ (Submodule.subset_span ⟨k, ?_, rfl⟩)
  simpa using hk

theorem nullProj_inner (ho : Orthonormal ℂ vec) (i : Fin n) (u : Vec n)
    (hu : u ∈ selSpan eps val vec) :
    inner ℂ u (EuclideanSpace.single i (1 : ℂ)) = inner ℂ u (nullProj eps val vec i) := by
  classical
  induction hu using Submodule.span_induction with
  | mem x hx =>
    obtain ⟨k, hk, rfl⟩ := hx
    rw [nullProj_eq, inner_sum, Finset.sum_eq_single k]
    · rw [inner_smul_right, inner_self_eq_norm_sq_to_K, ho.1 k, EuclideanSpace.inner_single_right]
      simp
    · intro j _ hj
      rw [inner_smul_right, ho.2 (Ne.symm hj), mul_zero]
    · intro h; exact absurd (by simpa using hk) h
  | zero => simp
  | add x y _ _ hx hy => rw [inner_add_left, hx, hy, inner_add_left]
  | smul c x _ hx => rw [inner_smul_left, hx, inner_smul_left]

theorem selSpan_inner (ho : Orthonormal ℂ vec) {k : Fin n} (hk : ¬ |val k| < eps) {x : Vec n}
    (hx : x ∈ selSpan eps val vec) : inner ℂ (vec k) x = 0 := by
  induction hx using Submodule.span_induction with
  | mem x hx =>
    obtain ⟨j, hj, rfl⟩ := hx
    apply ho.2
    rintro rfl
    exact hk hj
  | zero => simp
  | add x y _ _ hx hy => rw [inner_add_right, hx, hy, add_zero]
  | smul c x _ hx => rw [inner_smul_right, hx, mul_zero]

theorem mem_selSpan_of_inner (ho : Orthonormal ℂ vec) {x : Vec n}
    (h : ∀ k, ¬ |val k| < eps → inner ℂ (vec k) x = 0) : x ∈ selSpan eps val vec := by
  have := (eigBasis ho).sum_repr' x
  rw [← this]
  refine Submodule.sum_mem _ fun k _ => ?_
  rw [eigBasis_apply]
  by_cases hk : |val k| < eps
  · exact Submodule.smul_mem _ _ (Submodule.subset_span ⟨k, hk, rfl⟩)
  · rw [h k hk, zero_smul]
    exact Submodule.zero_mem _

theorem selSpan_eq_kernel_of (heps : 0 < eps) (ho : Orthonormal ℂ vec)
    (hev : ∀ k, (Aᴴ * A) *ᵥ (vec k).ofLp = (val k : ℂ) • (vec k).ofLp)
    (hsel : ∀ k, |val k| < eps → val k = 0) : selSpan eps val vec = kernel A := by
  ext x
  constructor
  · intro hx
    show A *ᵥ x.ofLp = 0
    rw [← sqNormMul_eq_zero, sqNormMul_spectral ho hev]
    apply Finset.sum_eq_zero
    intro k _
    by_cases hk : |val k| < eps
    · rw [hsel k hk, zero_mul]
    · rw [selSpan_inner eps ho hk hx]; simp
  · intro hx
    have h0 : sqNormMul A x = 0 := sqNormMul_eq_zero.2 hx
    rw [sqNormMul_spectral ho hev] at h0
    apply mem_selSpan_of_inner eps ho
    intro k hk
    have h1 := (Finset.sum_eq_zero_iff_of_nonneg
      (fun k _ => mul_nonneg (val_nonneg ho hev k) (sq_nonneg _))).1 h0 k (Finset.mem_univ k)
    rcases mul_eq_zero.1 h1 with h2 | h2
    · rw [h2, abs_zero] at hk; exact absurd heps hk
    · rw [sq_eq_zero_iff, norm_eq_zero] at h2; exact h2

theorem sel_of_gap (ho : Orthonormal ℂ vec)
    (hev : ∀ k, (Aᴴ * A) *ᵥ (vec k).ofLp = (val k : ℂ) • (vec k).ofLp) (hgap : Gap eps A) (k : Fin n)
    (hk : |val k| < eps) : val k = 0 := by
  rcases (val_nonneg ho hev k).eq_or_lt with h | h
  · exact h.symm
  · have hx : (vec k).ofLp ≠ 0 := by
      intro h0
      have : vec k = 0 := by ext i; rw [h0]; rfl
      have := ho.1 k
      simp_all
    have := hgap (val k) _ hx (hev k) h
    rw [abs_of_pos h] at hk
    linarith

theorem selSpan_eq_kernel (heps : 0 < eps) (ho : Orthonormal ℂ vec)
    (hev : ∀ k, (Aᴴ * A) *ᵥ (vec k).ofLp = (val k : ℂ) • (vec k).ofLp) (hgap : Gap eps A) :
    selSpan eps val vec = kernel A :=
  selSpan_eq_kernel_of eps heps ho hev (sel_of_gap eps ho hev hgap)

theorem sqNormMul_lt (ho : Orthonormal ℂ vec)
    (hev : ∀ k, (Aᴴ * A) *ᵥ (vec k).ofLp = (val k : ℂ) • (vec k).ofLp) {x : Vec n}
    (hx : x ∈ selSpan eps val vec) (hx1 : ‖x‖ = 1) : sqNormMul A x < eps := by
  have h1 := sqNorm_spectral ho x
  rw [hx1, one_pow] at h1
  rw [sqNormMul_spectral ho hev]
  have hex : ∃ k, ‖inner ℂ (vec k) x‖ ^ 2 ≠ 0 := by
    by_contra hne
    push Not at hne
    rw [Finset.sum_eq_zero (fun k _ => hne k)] at h1
    exact one_ne_zero h1
  obtain ⟨k₀, hk₀⟩ := hex
  have hle : ∀ k, val k * ‖inner ℂ (vec k) x‖ ^ 2 ≤ eps * ‖inner ℂ (vec k) x‖ ^ 2 := by
    intro k
    by_cases hk : |val k| < eps
    · gcongr
      exact (le_abs_self _).trans hk.le
    · rw [selSpan_inner eps ho hk hx]; simp
  have hlt : val k₀ * ‖inner ℂ (vec k₀) x‖ ^ 2 < eps * ‖inner ℂ (vec k₀) x‖ ^ 2 := by
    by_cases hk : |val k₀| < eps
    · have : 0 < ‖inner ℂ (vec k₀) x‖ ^ 2 := lt_of_le_of_ne (sq_nonneg _) (Ne.symm hk₀)
      have h2 := (le_abs_self _).trans_lt hk
      gcongr
    · rw [selSpan_inner eps ho hk hx] at hk₀; simp at hk₀
  calc ∑ k, val k * ‖inner ℂ (vec k) x‖ ^ 2 < ∑ k, eps * ‖inner ℂ (vec k) x‖ ^ 2 :=
        Finset.sum_lt_sum (fun k _ => hle k) ⟨k₀, Finset.mem_univ _, hlt⟩
    _ = eps := by rw [← Finset.mul_sum, ← h1, mul_one]

end spectral

variable {eigh : EighFn} {eps : ℝ}

theorem eigh_spec_mul (he : EighSpec eigh) (A : Matrix (Fin m) (Fin n) ℂ) :
    Orthonormal ℂ (eigh n (Aᴴ * A)).2 ∧ ∀ k, (Aᴴ * A) *ᵥ ((eigh n (Aᴴ * A)).2 k).ofLp =
      ((eigh n (Aᴴ * A)).1 k : ℂ) • ((eigh n (Aᴴ * A)).2 k).ofLp :=
  he n _ (isHermitian_conjTranspose_mul_self A)

theorem nullspace_oList (heps : 0 < eps) (A : Matrix (Fin m) (Fin n) ℂ) :
    OList (nullspace eigh eps A) :=
  gsLoop_oList heps.le _ _ ⟨by simp, List.Pairwise.nil⟩

theorem nullspace_span (he : EighSpec eigh) (heps : 0 < eps) (A : Matrix (Fin m) (Fin n) ℂ)
    (hn : n * eps ^ 2 < 1) :
    lspan (nullspace eigh eps A) = selSpan eps (eigh n (Aᴴ * A)).1 (eigh n (Aᴴ * A)).2 := by
  obtain ⟨ho, hev⟩ := eigh_spec_mul he A
  refine gsLoop_full heps.le hn _ (fun i => EuclideanSpace.single i (1 : ℂ))
    (nullProj eps (eigh n (Aᴴ * A)).1 (eigh n (Aᴴ * A)).2) pars_single
    (fun i u hu => nullProj_inner eps ho i u hu) _ _ ?_ ?_ (by simp)
  · intro a ha
    obtain ⟨i, rfl⟩ := (List.mem_ofFn' _ _).1 ha
    exact nullProj_mem eps i
  · intro i
    exact (List.mem_ofFn' _ _).2 ⟨i, rfl⟩

theorem nullspace_kernel (he : EighSpec eigh) (heps : 0 < eps) (A : Matrix (Fin m) (Fin n) ℂ)
    (hn : n * eps ^ 2 < 1) (hgap : Gap eps A) : lspan (nullspace eigh eps A) = kernel A := by
  obtain ⟨ho, hev⟩ := eigh_spec_mul he A
  rw [nullspace_span he heps A hn, selSpan_eq_kernel eps heps ho hev hgap]

end LieNN
