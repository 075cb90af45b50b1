import Verif.Proofs.Nullspace
import Verif.Model.BasisInter
import Verif.Spec.BasisInter
import Mathlib.Analysis.InnerProductSpace.PiL2
import Mathlib.LinearAlgebra.Basis.VectorSpace
import Mathlib.Data.Matrix.ColumnRowPartitioned
import Mathlib.Topology.Algebra.Module.FiniteDimension

/-!
# `basis_intersection`
-/
namespace LieNN

open Matrix Spec

section gs
variable {E : Type*} [NormedAddCommGroup E] [InnerProductSpace ℂ E]

/-- The result of Gram-Schmidt spans `K` when every vector of `K` has a component along some input
that is large compared to `eps`. -/
theorem gsLoop_full_of {eps : ℝ} (heps : 0 ≤ eps) {n : ℕ} {C : ℝ} (hn : n * (eps * C) ^ 2 < 1)
    (K : Submodule ℂ E) [FiniteDimensional ℂ E] (p : Fin n → E)
    (hp : ∀ u ∈ K, ‖u‖ ^ 2 ≤ C ^ 2 * ∑ i, ‖inner ℂ u (p i)‖ ^ 2) (A Q : List E)
    (hA : ∀ a ∈ A, a ∈ K) (hpA : ∀ i, p i ∈ A) (hQK : ∀ q ∈ Q, q ∈ K) :
    lspan (gsLoop eps A Q) = K := by
  apply le_antisymm (lspan_le.2 (gsLoop_mem A Q hA hQK))
  set L := lspan (gsLoop eps A Q) with hL
  have hLK : L ≤ K := lspan_le.2 (gsLoop_mem A Q hA hQK)
  by_contra hne
  obtain ⟨x, hxK, hxL⟩ := Set.not_subset.1 hne
  set y : E := x - L.starProjection x with hy
  have hyK : y ∈ K := K.sub_mem hxK (hLK (Submodule.starProjection_apply_mem _ _))
  have hy0 : y ≠ 0 := by
    intro h0
    apply hxL
    have : x = L.starProjection x := sub_eq_zero.1 h0
    show x ∈ L
    rw [this]; exact Submodule.starProjection_apply_mem _ _
  have hyL : ∀ z ∈ L, inner ℂ y z = 0 := by
    intro z hz
    exact inner_eq_zero_symm.1 (Submodule.starProjection_inner_eq_zero (K := L) x z hz |> fun h => by
      rw [inner_eq_zero_symm]; exact h)
  have hbound : ∀ i, ‖inner ℂ y (p i)‖ ≤ eps * ‖y‖ := by
    intro i
    obtain ⟨z, hz, hze⟩ := gsLoop_close heps A Q (p i) (hpA i)
    have : inner ℂ y (p i) = inner ℂ y (p i - z) := by rw [inner_sub_right, hyL z hz, sub_zero]
    rw [this]
    calc ‖inner ℂ y (p i - z)‖ ≤ ‖y‖ * ‖p i - z‖ := norm_inner_le_norm _ _
      _ ≤ ‖y‖ * eps := by gcongr
      _ = eps * ‖y‖ := mul_comm _ _
  have hsum := hp y hyK
  have hypos : 0 < ‖y‖ := norm_pos_iff.2 hy0
  have : ∑ i, ‖inner ℂ y (p i)‖ ^ 2 ≤ ∑ _i : Fin n, (eps * ‖y‖) ^ 2 := by
    apply Finset.sum_le_sum
    intro i _
    gcongr
    exact hbound i
  rw [Finset.sum_const, Finset.card_univ, Fintype.card_fin, nsmul_eq_mul, mul_pow] at this
  have h2 : C ^ 2 * ∑ i, ‖inner ℂ y (p i)‖ ^ 2 ≤ C ^ 2 * (n * (eps ^ 2 * ‖y‖ ^ 2)) := by gcongr
  have h3 := hsum.trans h2
  have h4 : C ^ 2 * (n * (eps ^ 2 * ‖y‖ ^ 2)) = n * (eps * C) ^ 2 * ‖y‖ ^ 2 := by ring
  rw [h4] at h3
  nlinarith [pow_pos hypos 2]

end gs

/-! ### The rows of `x @ x.T` -/

section gram
variable {n N : ℕ}

/-- Restriction of a vector to some of its entries. -/
def restr (f : Fin n → Fin N) : Vec N →ₗ[ℂ] Vec n where
  toFun := fun z => WithLp.toLp 2 fun i => z (f i)
  map_add' := fun _ _ => rfl
  map_smul' := fun _ _ => rfl

theorem restr_apply (f : Fin n → Fin N) (z : Vec N) (i : Fin n) : restr f z i = z (f i) := rfl

/-- The span of the selected vectors. -/
def selS (sel : Finset (Fin N)) (v : Fin N → Vec N) : Submodule ℂ (Vec N) :=
  Submodule.span ℂ {x | ∃ k ∈ sel, v k = x}

theorem interRows_eq (f : Fin n → Fin N) (sel : Finset (Fin N)) (v : Fin N → Vec N) (i : Fin n) :
    interRows f sel v i = ∑ k ∈ sel, v k (f i) • restr f (v k) := by
  ext j
  simp [interRows, restr_apply]

theorem interRows_mem (f : Fin n → Fin N) (sel : Finset (Fin N)) (v : Fin N → Vec N) (i : Fin n) :
    interRows f sel v i ∈ (selS sel v).map (restr f) := by
  rw [interRows_eq]
  exact Submodule.sum_mem _ fun k hk => Submodule.smul_mem _ _
    (Submodule.mem_map_of_mem (Submodule.subset_span ⟨k, hk, rfl⟩))

theorem selS_expand {sel : Finset (Fin N)} {v : Fin N → Vec N} (ho : Orthonormal ℂ v) {z : Vec N}
    (hz : z ∈ selS sel v) :
    z = ∑ k ∈ sel, inner ℂ (v k) z • v k := by
  induction hz using Submodule.span_induction with
  | mem x hx =>
    obtain ⟨k, hk, rfl⟩ := hx
    rw [Finset.sum_eq_single k]
    · rw [inner_self_eq_norm_sq_to_K, ho.1 k]; simp
    · intro j _ hj; rw [ho.2 hj, zero_smul]
    · intro h; exact absurd hk h
  | zero => simp
  | add x y _ _ hx hy =>
    simp only [inner_add_right, add_smul, Finset.sum_add_distrib]
    rw [← hx, ← hy]
  | smul c x _ hx =>
    simp only [inner_smul_right, mul_smul, ← Finset.smul_sum]
    rw [← hx]

theorem selS_normSq {sel : Finset (Fin N)} {v : Fin N → Vec N} (ho : Orthonormal ℂ v) {z : Vec N}
    (hz : z ∈ selS sel v) : ‖z‖ ^ 2 = ∑ k ∈ sel, ‖inner ℂ (v k) z‖ ^ 2 := by
  have h1 : inner ℂ z z = ∑ k ∈ sel, inner ℂ (v k) z * inner ℂ z (v k) := by
    conv_lhs => rw [selS_expand ho hz]
    rw [sum_inner]
    conv_lhs => enter [2, k]; rw [← selS_expand ho hz]
    refine Finset.sum_congr rfl fun k _ => ?_
    rw [inner_smul_left, inner_conj_symm, mul_comm]
  have h2 : ((‖z‖ ^ 2 : ℝ) : ℂ) = ((∑ k ∈ sel, ‖inner ℂ (v k) z‖ ^ 2 : ℝ) : ℂ) := by
    have := inner_self_eq_norm_sq_to_K (𝕜 := ℂ) z
    rw [h1] at this
    rw [Complex.ofReal_pow]
    refine this.symm.trans ?_
    rw [Complex.ofReal_sum]
    refine Finset.sum_congr rfl fun k _ => ?_
    rw [← inner_conj_symm z (v k), Complex.mul_conj, Complex.normSq_eq_norm_sq]
  exact_mod_cast h2

theorem interRows_bound {f : Fin n → Fin N} {sel : Finset (Fin N)} {v : Fin N → Vec N}
    (ho : Orthonormal ℂ v) (hre : ∀ k i, (v k i).im = 0) {C : ℝ} {u : Vec n} {z : Vec N}
    (hz : z ∈ selS sel v) (hu : restr f z = u) (hC : ‖z‖ ^ 2 ≤ C * ‖u‖ ^ 2) :
    ‖u‖ ^ 2 ≤ C ^ 2 * ∑ i, ‖inner ℂ u (interRows f sel v i)‖ ^ 2 := by
  by_cases hu0 : u = 0
  · rw [hu0]; simp
  have hupos : 0 < ‖u‖ := norm_pos_iff.2 hu0
  set a : Fin N → ℂ := fun k => inner ℂ u (restr f (v k)) with ha
  set w : Vec n := ∑ k ∈ sel, starRingEnd ℂ (a k) • restr f (v k) with hw
  set S : ℝ := ∑ k ∈ sel, ‖a k‖ ^ 2 with hS
  -- the inner products with the rows are the entries of `w`
  have h1 : ∑ i, ‖inner ℂ u (interRows f sel v i)‖ ^ 2 = ‖w‖ ^ 2 := by
    rw [EuclideanSpace.norm_sq_eq]
    refine Finset.sum_congr rfl fun i _ => ?_
    congr 1
    rw [interRows_eq, inner_sum]
    have : w i = starRingEnd ℂ (∑ k ∈ sel, inner ℂ u (v k (f i) • restr f (v k))) := by
      rw [map_sum]
      simp only [hw, WithLp.ofLp_sum, Finset.sum_apply, WithLp.ofLp_smul, Pi.smul_apply, smul_eq_mul]
      refine Finset.sum_congr rfl fun k _ => ?_
      rw [inner_smul_right, map_mul, Complex.conj_eq_iff_im.2 (hre k (f i)), restr_apply, mul_comm]
    rw [this, RCLike.norm_conj]
  have h2 : inner ℂ u w = (S : ℂ) := by
    rw [hw, inner_sum, hS, Complex.ofReal_sum]
    refine Finset.sum_congr rfl fun k _ => ?_
    rw [inner_smul_right, ← Complex.normSq_eq_norm_sq, Complex.normSq_eq_conj_mul_self]
  have h3 : S ≤ ‖u‖ * ‖w‖ := by
    have := norm_inner_le_norm (𝕜 := ℂ) u w
    rw [h2] at this
    refine le_trans (le_abs_self S) ?_
    simpa using this
  have h4 : (‖u‖ ^ 2) ^ 2 ≤ ‖z‖ ^ 2 * S := by
    have e1 : inner ℂ u u = ∑ k ∈ sel, inner ℂ (v k) z * a k := by
      have e0 : u = ∑ k ∈ sel, inner ℂ (v k) z • restr f (v k) := by
        rw [← hu]
        conv_lhs => rw [selS_expand ho hz, map_sum]
        exact Finset.sum_congr rfl fun k _ => map_smul _ _ _
      calc inner ℂ u u = inner ℂ u (∑ k ∈ sel, inner ℂ (v k) z • restr f (v k)) := by rw [← e0]
        _ = _ := by
          rw [inner_sum]
          exact Finset.sum_congr rfl fun k _ => inner_smul_right _ _ _
    have e2 : ‖u‖ ^ 2 ≤ ∑ k ∈ sel, ‖inner ℂ (v k) z‖ * ‖a k‖ := by
      have e3 : ‖(inner ℂ u u : ℂ)‖ = ‖u‖ ^ 2 := by
        rw [inner_self_eq_norm_sq_to_K]
        simp
      rw [← e3, e1]
      refine (norm_sum_le _ _).trans ?_
      simp
    calc (‖u‖ ^ 2) ^ 2 ≤ (∑ k ∈ sel, ‖inner ℂ (v k) z‖ * ‖a k‖) ^ 2 := by gcongr
      _ ≤ (∑ k ∈ sel, ‖inner ℂ (v k) z‖ ^ 2) * ∑ k ∈ sel, ‖a k‖ ^ 2 := Finset.sum_mul_sq_le_sq_mul_sq _ _ _
      _ = ‖z‖ ^ 2 * S := by rw [selS_normSq ho hz]
  have hC0 : 0 ≤ C := by
    by_contra hneg
    push Not at hneg
    have : C * ‖u‖ ^ 2 < 0 := mul_neg_of_neg_of_pos hneg (by positivity)
    nlinarith [sq_nonneg ‖z‖]
  have hS0 : 0 ≤ S := Finset.sum_nonneg fun k _ => sq_nonneg _
  have h5 : (‖u‖ ^ 2) ^ 2 ≤ C * ‖u‖ ^ 2 * (‖u‖ * ‖w‖) :=
    h4.trans (mul_le_mul hC h3 hS0 (by positivity))
  have h6 : ‖u‖ ≤ C * ‖w‖ := by
    have : ‖u‖ ^ 3 * ‖u‖ ≤ ‖u‖ ^ 3 * (C * ‖w‖) := by nlinarith
    exact le_of_mul_le_mul_left this (by positivity)
  rw [h1]
  calc ‖u‖ ^ 2 ≤ (C * ‖w‖) ^ 2 := by gcongr
    _ = C ^ 2 * ‖w‖ ^ 2 := by ring

end gram

/-! ### `interMatrix` as a Gram matrix -/

section main
variable {n₁ n₂ D : ℕ} {B₁ : Matrix (Fin n₁) (Fin D) ℂ} {B₂ : Matrix (Fin n₂) (Fin D) ℂ}

/-- The rows of `B₁` over the rows of `-B₂`. -/
def stack (B₁ : Matrix (Fin n₁) (Fin D) ℂ) (B₂ : Matrix (Fin n₂) (Fin D) ℂ) :
    Matrix (Fin (n₁ + n₂)) (Fin D) ℂ :=
  (fromRows B₁ (-B₂)).submatrix finSumFinEquiv.symm id

theorem conjTranspose_real {m n : ℕ} {B : Matrix (Fin m) (Fin n) ℂ} (h : RealMat B) : Bᴴ = Bᵀ := by
  ext i j
  exact Complex.conj_eq_iff_im.2 (h j i)

theorem interMatrix_eq (h₁ : RealMat B₁) (h₂ : RealMat B₂) :
    interMatrix B₁ B₂ = ((stack B₁ B₂)ᴴ)ᴴ * (stack B₁ B₂)ᴴ := by
  have e : (stack B₁ B₂)ᴴ = (fromRows B₁ (-B₂))ᵀ.submatrix id finSumFinEquiv.symm := by
    rw [conjTranspose_real]
    · rfl
    · intro i j
      refine Fin.addCases (fun i => ?_) (fun i => ?_) i
      · simpa [stack] using h₁ i j
      · simpa [stack] using h₂ i j
  rw [conjTranspose_conjTranspose, e, stack, interMatrix, transpose_fromRows]
  refine Eq.trans ?_ (submatrix_mul_equiv (fromRows B₁ (-B₂)) (fromCols B₁ᵀ (-B₂)ᵀ)
    finSumFinEquiv.symm (Equiv.refl _) finSumFinEquiv.symm).symm
  rw [fromRows_mul_fromCols]
  congr 2 <;> simp

theorem interMatrix_real (h₁ : RealMat B₁) (h₂ : RealMat B₂) :
    RealMat (interMatrix B₁ B₂) := by
  have key : ∀ {a b c : ℕ} (X : Matrix (Fin a) (Fin b) ℂ) (Y : Matrix (Fin b) (Fin c) ℂ),
      RealMat X → RealMat Y → RealMat (X * Y) := by
    intro a b c X Y hX hY i j
    rw [mul_apply, Complex.im_sum]
    exact Finset.sum_eq_zero fun k _ => by rw [Complex.mul_im, hX, hY]; ring
  have ht : ∀ {a b : ℕ} (X : Matrix (Fin a) (Fin b) ℂ), RealMat X → RealMat Xᵀ :=
    fun X hX i j => hX j i
  have hn : ∀ {a b : ℕ} (X : Matrix (Fin a) (Fin b) ℂ), RealMat X → RealMat (-X) :=
    fun X hX i j => by rw [Matrix.neg_apply, Complex.neg_im, hX, neg_zero]
  intro i j
  refine Fin.addCases (fun i => ?_) (fun i => ?_) i <;>
    refine Fin.addCases (fun j => ?_) (fun j => ?_) j
  · simpa [interMatrix] using key _ _ h₁ (ht _ h₁) i j
  · simpa [interMatrix] using key _ _ h₁ (ht _ h₂) i j
  · simpa [interMatrix] using key _ _ h₂ (ht _ h₁) i j
  · simpa [interMatrix] using key _ _ h₂ (ht _ h₂) i j

theorem mem_kernel_stack (h₁ : RealMat B₁) (h₂ : RealMat B₂) (z : Vec (n₁ + n₂)) :
    z ∈ kernel (stack B₁ B₂)ᴴ ↔
      (restr (Fin.castAdd n₂) z).ofLp ᵥ* B₁ = (restr (Fin.natAdd n₁) z).ofLp ᵥ* B₂ := by
  show (stack B₁ B₂)ᴴ *ᵥ z.ofLp = 0 ↔ _
  rw [funext_iff, funext_iff]
  refine forall_congr' fun d => ?_
  have : ((stack B₁ B₂)ᴴ *ᵥ z.ofLp) d = ((restr (Fin.castAdd n₂) z).ofLp ᵥ* B₁) d -
      ((restr (Fin.natAdd n₁) z).ofLp ᵥ* B₂) d := by
    simp only [mulVec, vecMul, dotProduct, Fin.sum_univ_add, restr_apply]
    rw [sub_eq_add_neg, ← Finset.sum_neg_distrib]
    congr 1
    · refine Finset.sum_congr rfl fun i _ => ?_
      simp only [stack, conjTranspose_apply, submatrix_apply, finSumFinEquiv_symm_apply_castAdd,
        fromRows_apply_inl, id]
      rw [show star (B₁ i d) = B₁ i d from Complex.conj_eq_iff_im.2 (h₁ i d), mul_comm]
    · refine Finset.sum_congr rfl fun i _ => ?_
      simp only [stack, conjTranspose_apply, submatrix_apply, finSumFinEquiv_symm_apply_natAdd,
        fromRows_apply_inr, id, Matrix.neg_apply, star_neg]
      rw [show star (B₂ i d) = B₂ i d from Complex.conj_eq_iff_im.2 (h₂ i d)]
      ring
  rw [this, Pi.zero_apply, sub_eq_zero]

/-- Two vectors, one after the other. -/
noncomputable def icat (x : Vec n₁) (y : Vec n₂) : Vec (n₁ + n₂) :=
  WithLp.toLp 2 (Fin.append x.ofLp y.ofLp)

theorem restr_vcat_left (x : Vec n₁) (y : Vec n₂) : restr (Fin.castAdd n₂) (icat x y) = x := by
  ext i; simp [restr_apply, icat]

theorem restr_vcat_right (x : Vec n₁) (y : Vec n₂) : restr (Fin.natAdd n₁) (icat x y) = y := by
  ext i; simp [restr_apply, icat]

theorem norm_vcat (x : Vec n₁) (y : Vec n₂) : ‖icat x y‖ ^ 2 = ‖x‖ ^ 2 + ‖y‖ ^ 2 := by
  rw [EuclideanSpace.norm_sq_eq, EuclideanSpace.norm_sq_eq, EuclideanSpace.norm_sq_eq,
    Fin.sum_univ_add]
  simp [icat]

theorem map_kernel_left (h₁ : RealMat B₁) (h₂ : RealMat B₂) :
    (kernel (stack B₁ B₂)ᴴ).map (restr (Fin.castAdd n₂)) = interCoeffs B₁ B₂ := by
  ext x
  constructor
  · rintro ⟨z, hz, rfl⟩
    exact ⟨_, (mem_kernel_stack h₁ h₂ z).1 hz⟩
  · rintro ⟨y, hy⟩
    refine ⟨icat x (WithLp.toLp 2 y), (mem_kernel_stack h₁ h₂ _).2 ?_, restr_vcat_left _ _⟩
    rw [restr_vcat_left, restr_vcat_right]
    exact hy

theorem map_kernel_right (h₁ : RealMat B₁) (h₂ : RealMat B₂) :
    (kernel (stack B₁ B₂)ᴴ).map (restr (Fin.natAdd n₁)) = interCoeffs B₂ B₁ := by
  ext y
  constructor
  · rintro ⟨z, hz, rfl⟩
    exact ⟨_, ((mem_kernel_stack h₁ h₂ z).1 hz).symm⟩
  · rintro ⟨x, hx⟩
    refine ⟨icat (WithLp.toLp 2 x) y, (mem_kernel_stack h₁ h₂ _).2 ?_, restr_vcat_right _ _⟩
    rw [restr_vcat_left, restr_vcat_right]
    exact hx.symm

variable {eigh : EighFn} {eps : ℝ}

open Classical in
/-- The eigenvectors selected by `w < epsilon` span the kernel. -/
theorem selS_eq_kernel (he : EighSpec eigh) (heps : 0 < eps) (h₁ : RealMat B₁)
    (h₂ : RealMat B₂)
    (hsel : ∀ k, (eigh _ (interMatrix B₁ B₂)).1 k < eps → (eigh _ (interMatrix B₁ B₂)).1 k = 0) :
    selS (Finset.univ.filter fun k => (eigh _ (interMatrix B₁ B₂)).1 k < eps)
      (eigh _ (interMatrix B₁ B₂)).2 = kernel (stack B₁ B₂)ᴴ := by
  rw [interMatrix_eq h₁ h₂] at hsel ⊢
  obtain ⟨ho, hev⟩ := eigh_spec_mul he (stack B₁ B₂)ᴴ
  rw [← selSpan_eq_kernel_of eps heps ho hev fun k hk => hsel k (lt_of_abs_lt hk)]
  unfold selS selSpan
  congr 1
  ext x
  simp only [Set.mem_ofPred_eq]
  refine exists_congr fun k => and_congr_left fun _ => ?_
  simp only [Finset.mem_filter, Finset.mem_univ, true_and]
  rw [abs_of_nonneg (val_nonneg ho hev k)]

theorem eigh_inter (he : EighSpec eigh) (h₁ : RealMat B₁) (h₂ : RealMat B₂) :
    Orthonormal ℂ (eigh _ (interMatrix B₁ B₂)).2 := by
  rw [interMatrix_eq h₁ h₂]
  exact (eigh_spec_mul he _).1

open Classical in
/-- One of the two results. -/
theorem inter_side (he : EighSpec eigh) (hr : EighReal eigh) (heps : 0 < eps) (h₁ : RealMat B₁)
    (h₂ : RealMat B₂)
    (hsel : ∀ k, (eigh _ (interMatrix B₁ B₂)).1 k < eps → (eigh _ (interMatrix B₁ B₂)).1 k = 0)
    {n : ℕ} (f : Fin n → Fin (n₁ + n₂)) {C : ℝ} (hn : n * (eps * C) ^ 2 < 1)
    (hC : ∀ u ∈ (kernel (stack B₁ B₂)ᴴ).map (restr f), ∃ z ∈ kernel (stack B₁ B₂)ᴴ,
      restr f z = u ∧ ‖z‖ ^ 2 ≤ C * ‖u‖ ^ 2) :
    lspan (gramSchmidt eps (List.ofFn (interRows f (Finset.univ.filter fun k =>
      (eigh _ (interMatrix B₁ B₂)).1 k < eps) (eigh _ (interMatrix B₁ B₂)).2))) =
      (kernel (stack B₁ B₂)ᴴ).map (restr f) := by
  have hk := selS_eq_kernel he heps h₁ h₂ hsel
  have ho := eigh_inter he h₁ h₂
  have hre := hr _ _ (interMatrix_real h₁ h₂)
  refine gsLoop_full_of heps.le hn _ (interRows f (Finset.univ.filter fun k =>
      (eigh _ (interMatrix B₁ B₂)).1 k < eps) (eigh _ (interMatrix B₁ B₂)).2) ?_ _ _ ?_ ?_ (by simp)
  · intro u hu
    obtain ⟨z, hz, hzu, hzC⟩ := hC u hu
    rw [← hk] at hz
    exact interRows_bound ho hre hz hzu hzC
  · intro a ha
    obtain ⟨i, rfl⟩ := (List.mem_ofFn' _ _).1 ha
    rw [← hk]
    exact interRows_mem _ _ _ i
  · intro i
    exact (List.mem_ofFn' _ _).2 ⟨i, rfl⟩

theorem bound_left (h₁ : RealMat B₁) (h₂ : RealMat B₂) {K : ℝ}
    (hb : CoeffBound K B₁ B₂) :
    ∀ u ∈ (kernel (stack B₁ B₂)ᴴ).map (restr (Fin.castAdd n₂)), ∃ z ∈ kernel (stack B₁ B₂)ᴴ,
      restr (Fin.castAdd n₂) z = u ∧ ‖z‖ ^ 2 ≤ (1 + K ^ 2) * ‖u‖ ^ 2 := by
  intro u hu
  rw [map_kernel_left h₁ h₂] at hu
  obtain ⟨y, hy, hn⟩ := hb u hu
  refine ⟨icat u y, (mem_kernel_stack h₁ h₂ _).2 ?_, restr_vcat_left _ _, ?_⟩
  · rw [restr_vcat_left, restr_vcat_right]; exact hy
  · rw [norm_vcat]
    have : ‖y‖ ^ 2 ≤ (K * ‖u‖) ^ 2 := by gcongr
    nlinarith

theorem bound_right (h₁ : RealMat B₁) (h₂ : RealMat B₂) {K : ℝ}
    (hb : CoeffBound K B₂ B₁) :
    ∀ u ∈ (kernel (stack B₁ B₂)ᴴ).map (restr (Fin.natAdd n₁)), ∃ z ∈ kernel (stack B₁ B₂)ᴴ,
      restr (Fin.natAdd n₁) z = u ∧ ‖z‖ ^ 2 ≤ (1 + K ^ 2) * ‖u‖ ^ 2 := by
  intro u hu
  rw [map_kernel_right h₁ h₂] at hu
  obtain ⟨x, hx, hn⟩ := hb u hu
  refine ⟨icat x u, (mem_kernel_stack h₁ h₂ _).2 ?_, restr_vcat_right _ _, ?_⟩
  · rw [restr_vcat_left, restr_vcat_right]; exact hx.symm
  · rw [norm_vcat]
    have : ‖x‖ ^ 2 ≤ (K * ‖u‖) ^ 2 := by gcongr
    nlinarith

end main

/-! ### Small tolerance -/

section small

/-- In finite dimension some bound on the coefficients exists. -/
theorem exists_coeffBound {n₁ n₂ D : ℕ} (B₁ : Matrix (Fin n₁) (Fin D) ℂ)
    (B₂ : Matrix (Fin n₂) (Fin D) ℂ) : ∃ K, 0 ≤ K ∧ CoeffBound K B₁ B₂ := by
  -- the pairs of coefficients
  let Z : Submodule ℂ (Vec n₁ × Vec n₂) :=
    { carrier := {p | p.1.ofLp ᵥ* B₁ = p.2.ofLp ᵥ* B₂}
      zero_mem' := by simp
      add_mem' := by
        intro p q hp hq
        simp only [Set.mem_ofPred_eq, Prod.fst_add, Prod.snd_add, WithLp.ofLp_add, add_vecMul] at *
        rw [hp, hq]
      smul_mem' := by
        intro c p hp
        simp only [Set.mem_ofPred_eq, Prod.smul_fst, Prod.smul_snd, WithLp.ofLp_smul,
          smul_vecMul] at *
        rw [hp] }
  let φ : Z →ₗ[ℂ] interCoeffs B₁ B₂ :=
    { toFun := fun p => ⟨p.1.1, p.1.2.ofLp, p.2⟩
      map_add' := fun _ _ => rfl
      map_smul' := fun _ _ => rfl }
  have hφ : LinearMap.range φ = ⊤ := by
    rw [LinearMap.range_eq_top]
    rintro ⟨x, y, hy⟩
    exact ⟨⟨(x, WithLp.toLp 2 y), hy⟩, rfl⟩
  obtain ⟨g, hg⟩ := φ.exists_rightInverse_of_surjective hφ
  let ψ : interCoeffs B₁ B₂ →ₗ[ℂ] Vec n₂ := (LinearMap.snd ℂ _ _) ∘ₗ Z.subtype ∘ₗ g
  obtain ⟨C, hC, hb⟩ := (LinearMap.toContinuousLinearMap ψ).bound
  refine ⟨C, hC.le, fun x hx => ⟨ψ ⟨x, hx⟩, ?_, ?_⟩⟩
  · have h1 : φ (g ⟨x, hx⟩) = ⟨x, hx⟩ := LinearMap.congr_fun hg _
    have h2 := (g ⟨x, hx⟩).2
    have h3 : (g ⟨x, hx⟩).1.1 = x := congrArg Subtype.val h1
    have h4 : (g ⟨x, hx⟩).1.1.ofLp ᵥ* B₁ = (g ⟨x, hx⟩).1.2.ofLp ᵥ* B₂ := h2
    rw [h3] at h4
    exact h4
  · exact hb ⟨x, hx⟩

theorem gsLoop_small {E : Type*} [NormedAddCommGroup E] [InnerProductSpace ℂ E] (A Q : List E) :
    ∃ e : ℝ, 0 < e ∧ ∀ eps, 0 < eps → eps < e → gsLoop eps A Q = gsLoop 0 A Q := by
  induction A generalizing Q with
  | nil => exact ⟨1, one_pos, fun _ _ _ => rfl⟩
  | cons a A ih =>
    by_cases h0 : 0 < ‖gsReduce Q a‖
    · obtain ⟨e, he, h⟩ := ih (Q ++ [((‖gsReduce Q a‖⁻¹ : ℝ) : ℂ) • gsReduce Q a])
      refine ⟨min e ‖gsReduce Q a‖, lt_min he h0, fun eps h1 h2 => ?_⟩
      rw [gsLoop_cons, gsLoop_cons, if_pos (h2.trans_le (min_le_right _ _)), if_pos h0]
      exact h eps h1 (h2.trans_le (min_le_left _ _))
    · obtain ⟨e, he, h⟩ := ih Q
      refine ⟨e, he, fun eps h1 h2 => ?_⟩
      rw [gsLoop_cons, gsLoop_cons, if_neg h0, if_neg fun h3 => h0 (h1.trans h3)]
      exact h eps h1 h2

theorem exists_pos_lt {ι : Type*} [Finite ι] (w : ι → ℝ) :
    ∃ e : ℝ, 0 < e ∧ ∀ k, w k < e → w k ≤ 0 := by
  have := Fintype.ofFinite ι
  by_cases h : (Finset.univ.filter fun k => 0 < w k).Nonempty
  · obtain ⟨k₀, hk₀, hmin⟩ := Finset.exists_min_image _ w h
    refine ⟨w k₀, (Finset.mem_filter.1 hk₀).2, fun k hk => ?_⟩
    by_contra hc
    push Not at hc
    exact absurd (hmin k (by simpa using hc)) (not_le.2 hk)
  · refine ⟨1, one_pos, fun k _ => ?_⟩
    by_contra hc
    push Not at hc
    exact h ⟨k, by simpa using hc⟩

variable {n₁ n₂ D : ℕ} {eigh : EighFn}

open Classical in
/-- The value of `basis_intersection` for all small enough tolerances. -/
noncomputable def interLim (eigh : EighFn) (B₁ : Matrix (Fin n₁) (Fin D) ℂ)
    (B₂ : Matrix (Fin n₂) (Fin D) ℂ) : Py (List (Vec n₁) × List (Vec n₂)) :=
  if n₁ = 0 ∨ n₂ = 0 then .error .valueError
  else
    let wv := eigh (n₁ + n₂) (interMatrix B₁ B₂)
    let sel := Finset.univ.filter fun k => wv.1 k ≤ 0
    .ok (gramSchmidt 0 (List.ofFn (interRows (Fin.castAdd n₂) sel wv.2)),
      gramSchmidt 0 (List.ofFn (interRows (Fin.natAdd n₁) sel wv.2)))

theorem inter_small (B₁ : Matrix (Fin n₁) (Fin D) ℂ) (B₂ : Matrix (Fin n₂) (Fin D) ℂ) :
    ∃ e : ℝ, 0 < e ∧ ∀ eps, 0 < eps → eps < e →
      basisIntersection eigh eps B₁ B₂ = interLim eigh B₁ B₂ := by
  classical
  obtain ⟨e, he, h⟩ := exists_pos_lt (eigh (n₁ + n₂) (interMatrix B₁ B₂)).1
  obtain ⟨e1, he1, h1⟩ := gsLoop_small (List.ofFn (interRows (Fin.castAdd n₂)
    (Finset.univ.filter fun k => (eigh (n₁ + n₂) (interMatrix B₁ B₂)).1 k ≤ 0)
    (eigh (n₁ + n₂) (interMatrix B₁ B₂)).2)) []
  obtain ⟨e2, he2, h2⟩ := gsLoop_small (List.ofFn (interRows (Fin.natAdd n₁)
    (Finset.univ.filter fun k => (eigh (n₁ + n₂) (interMatrix B₁ B₂)).1 k ≤ 0)
    (eigh (n₁ + n₂) (interMatrix B₁ B₂)).2)) []
  refine ⟨min e (min e1 e2), lt_min he (lt_min he1 he2), fun eps hp hl => ?_⟩
  have l0 := hl.trans_le (min_le_left _ _)
  have l1 := hl.trans_le ((min_le_right _ _).trans (min_le_left _ _))
  have l2 := hl.trans_le ((min_le_right _ _).trans (min_le_right _ _))
  have hsel : (Finset.univ.filter fun k => (eigh (n₁ + n₂) (interMatrix B₁ B₂)).1 k < eps) =
      Finset.univ.filter fun k => (eigh (n₁ + n₂) (interMatrix B₁ B₂)).1 k ≤ 0 := by
    ext k
    simp only [Finset.mem_filter, Finset.mem_univ, true_and]
    exact ⟨fun hk => h k (hk.trans l0), fun hk => hk.trans_lt hp⟩
  unfold basisIntersection interLim
  split_ifs with h0
  · rfl
  · simp only
    have e1' := h1 eps hp l1
    have e2' := h2 eps hp l2
    unfold gramSchmidt
    rw [← e1', ← e2', ← hsel]

/-- Real vectors form a set stable under the operations of Gram-Schmidt. -/
theorem gsLoop_real {N : ℕ} {eps : ℝ} (A Q : List (Vec N)) (hA : ∀ a ∈ A, ∀ i, (a i).im = 0)
    (hQ : ∀ q ∈ Q, ∀ i, (q i).im = 0) : ∀ q ∈ gsLoop eps A Q, ∀ i, (q i).im = 0 := by
  have hin : ∀ a b : Vec N, (∀ i, (a i).im = 0) → (∀ i, (b i).im = 0) → (inner ℂ a b : ℂ).im = 0 := by
    intro a b ha hb
    rw [PiLp.inner_apply, Complex.im_sum]
    refine Finset.sum_eq_zero fun i _ => ?_
    simp [ha i, hb i]
  have hred : ∀ (Q : List (Vec N)), (∀ q ∈ Q, ∀ i, (q i).im = 0) → ∀ v : Vec N, (∀ i, (v i).im = 0) →
      ∀ i, (gsReduce Q v i).im = 0 := by
    intro Q
    induction Q with
    | nil => intro _ v hv; exact hv
    | cons w Q ih =>
      intro hQ v hv
      rw [gsReduce_cons]
      apply ih fun q hq => hQ q (by simp [hq])
      intro i
      simp [hv i, hQ w (by simp) i, hin w v (hQ w (by simp)) hv]
  induction A generalizing Q with
  | nil => exact hQ
  | cons a A ih =>
    rw [gsLoop_cons]
    have ha := hred Q hQ a (hA a (by simp))
    split_ifs with h
    · apply ih _ (fun a ha => hA a (by simp [ha]))
      intro q hq
      rcases List.mem_append.1 hq with hq | hq
      · exact hQ q hq
      · rw [List.mem_singleton] at hq
        subst hq
        intro i
        simp [ha i]
    · exact ih _ (fun a ha => hA a (by simp [ha])) hQ

theorem interRows_real {n N : ℕ} (f : Fin n → Fin N) (sel : Finset (Fin N)) (v : Fin N → Vec N)
    (hre : ∀ k i, (v k i).im = 0) (i j : Fin n) : (interRows f sel v i j).im = 0 := by
  simp only [interRows, Complex.im_sum]
  exact Finset.sum_eq_zero fun k _ => by rw [Complex.mul_im, hre, hre]; ring

end small

end LieNN
