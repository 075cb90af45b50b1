import Verif.Proofs.RoundingGS
import Verif.Proofs.Nullspace
import Verif.Proofs.IntertwinerRep
/-!
# Null spaces with rounding errors
-/
namespace LieNN

open Matrix Spec

namespace Rounding

section full

variable {E : Type*} [NormedAddCommGroup E] [InnerProductSpace ℂ E] [FiniteDimensional ℂ E]

/-- A family whose span is close to all the projections of a basis spans the whole space. -/
theorem full_of_close {W : Submodule ℂ E} {n : ℕ} {β : ℝ} (hn : n * β ^ 2 < 1)
    (e p : Fin n → E) (hpars : ∀ u : E, ‖u‖ ^ 2 = ∑ i, ‖inner ℂ u (e i)‖ ^ 2)
    (hp : ∀ i, ∀ u ∈ W, inner ℂ u (e i) = inner ℂ u (p i)) {L : Submodule ℂ E} (hLW : L ≤ W)
    (hclose : ∀ i, ∃ z ∈ L, ‖p i - z‖ ≤ β) : L = W := by
  apply le_antisymm hLW
  by_contra hne
  obtain ⟨x, hxK, hxL⟩ := Set.not_subset.1 hne
  set y : E := x - L.starProjection x with hy
  have hyK : y ∈ W := W.sub_mem hxK (hLW (Submodule.starProjection_apply_mem _ _))
  have hy0 : y ≠ 0 := by
    intro h0
    apply hxL
    have : x = L.starProjection x := sub_eq_zero.1 h0
    show x ∈ L
    rw [this]; exact Submodule.starProjection_apply_mem _ _
  have hyL : ∀ z ∈ L, inner ℂ y z = 0 := by
    intro z hz
    exact inner_eq_zero_symm.1 (Submodule.starProjection_inner_eq_zero (K := L) x z hz |> fun h => by
      rw [inner_eq_zero_symm]; exact h)
  have hbound : ∀ i, ‖inner ℂ y (e i)‖ ≤ β * ‖y‖ := by
    intro i
    rw [hp i y hyK]
    obtain ⟨z, hz, hze⟩ := hclose i
    have : inner ℂ y (p i) = inner ℂ y (p i - z) := by rw [inner_sub_right, hyL z hz, sub_zero]
    rw [this]
    calc ‖inner ℂ y (p i - z)‖ ≤ ‖y‖ * ‖p i - z‖ := norm_inner_le_norm _ _
      _ ≤ ‖y‖ * β := by gcongr
      _ = β * ‖y‖ := mul_comm _ _
  have hsum := hpars y
  have hypos : 0 < ‖y‖ := norm_pos_iff.2 hy0
  have : ‖y‖ ^ 2 ≤ ∑ _i : Fin n, (β * ‖y‖) ^ 2 := by
    rw [hsum]
    apply Finset.sum_le_sum
    intro i _
    gcongr
    exact hbound i
  rw [Finset.sum_const, Finset.card_univ, Fintype.card_fin, nsmul_eq_mul, mul_pow] at this
  nlinarith [pow_pos hypos 2]

end full

section spectral

variable {E : Type*} [NormedAddCommGroup E] [InnerProductSpace ℂ E] {n : ℕ}
  (b : OrthonormalBasis (Fin n) ℂ E)

/-- The orthogonal projection on the span of the basis vectors with index in `S`. -/
noncomputable def proj (S : Finset (Fin n)) (x : E) : E := ∑ i ∈ S, inner ℂ (b i) x • b i

theorem inner_proj (S : Finset (Fin n)) (x : E) (j : Fin n) :
    inner ℂ (b j) (proj b S x) = if j ∈ S then inner ℂ (b j) x else 0 := by
  classical
  unfold proj
  rw [inner_sum]
  simp only [inner_smul_right, orthonormal_iff_ite.1 b.orthonormal, mul_ite, mul_one, mul_zero]
  rw [Finset.sum_ite_eq]

theorem norm_sq_eq (x : E) : ‖x‖ ^ 2 = ∑ i, ‖inner ℂ (b i) x‖ ^ 2 := (b.sum_sq_norm_inner_right x).symm

theorem norm_proj_sq (S : Finset (Fin n)) (x : E) :
    ‖proj b S x‖ ^ 2 = ∑ i ∈ S, ‖inner ℂ (b i) x‖ ^ 2 := by
  classical
  rw [norm_sq_eq b, ← Finset.sum_filter_add_sum_filter_not Finset.univ (· ∈ S)]
  rw [Finset.filter_mem_eq_inter, Finset.univ_inter,
    Finset.sum_congr rfl fun i hi => by rw [inner_proj, if_pos hi]]
  rw [Finset.sum_eq_zero (s := Finset.filter _ _), add_zero]
  intro i hi
  rw [inner_proj, if_neg (Finset.mem_filter.1 hi).2]; simp

theorem norm_sub_proj_sq (S : Finset (Fin n)) (x : E) :
    ‖x - proj b S x‖ ^ 2 = ∑ i ∈ Sᶜ, ‖inner ℂ (b i) x‖ ^ 2 := by
  classical
  have : x - proj b S x = proj b Sᶜ x := by
    rw [sub_eq_iff_eq_add, proj, proj, Finset.sum_compl_add_sum]
    exact (b.sum_repr' x).symm
  rw [this, norm_proj_sq]

theorem norm_proj_le (S : Finset (Fin n)) (x : E) : ‖proj b S x‖ ≤ ‖x‖ := by
  refine (sq_le_sq₀ (norm_nonneg _) (norm_nonneg _)).1 ?_
  rw [norm_proj_sq, norm_sq_eq b]
  exact Finset.sum_le_sum_of_subset_of_nonneg (Finset.subset_univ _) fun _ _ _ => by positivity

theorem inner_proj_symm (S : Finset (Fin n)) (x y : E) :
    inner ℂ (proj b S x) y = inner ℂ x (proj b S y) := by
  unfold proj
  rw [sum_inner, inner_sum]
  refine Finset.sum_congr rfl fun i _ => ?_
  rw [inner_smul_left, inner_smul_right, inner_conj_symm, mul_comm]

theorem proj_proj (S : Finset (Fin n)) (x : E) : proj b S (proj b S x) = proj b S x := by
  unfold proj
  refine Finset.sum_congr rfl fun i hi => ?_
  have := inner_proj b S x i
  unfold proj at this
  rw [this, if_pos hi]

theorem proj_add (S : Finset (Fin n)) (x y : E) : proj b S (x + y) = proj b S x + proj b S y := by
  unfold proj
  rw [← Finset.sum_add_distrib]
  exact Finset.sum_congr rfl fun i _ => by rw [inner_add_right, add_smul]

theorem proj_sub (S : Finset (Fin n)) (x y : E) : proj b S (x - y) = proj b S x - proj b S y := by
  unfold proj
  rw [← Finset.sum_sub_distrib]
  exact Finset.sum_congr rfl fun i _ => by rw [inner_sub_right, sub_smul]

/-- A matrix that is diagonal in the basis `b`. -/
noncomputable def diag (lam : Fin n → ℝ) (x : E) : E := ∑ i, ((lam i : ℂ) * inner ℂ (b i) x) • b i

theorem inner_diag (lam : Fin n → ℝ) (x : E) (j : Fin n) :
    inner ℂ (b j) (diag b lam x) = lam j * inner ℂ (b j) x := by
  classical
  unfold diag
  rw [inner_sum]
  simp only [inner_smul_right, orthonormal_iff_ite.1 b.orthonormal, mul_ite, mul_one, mul_zero]
  rw [Finset.sum_ite_eq, if_pos (Finset.mem_univ _)]

theorem norm_diag_sq (lam : Fin n → ℝ) (x : E) :
    ‖diag b lam x‖ ^ 2 = ∑ i, lam i ^ 2 * ‖inner ℂ (b i) x‖ ^ 2 := by
  rw [norm_sq_eq b]
  refine Finset.sum_congr rfl fun i _ => ?_
  rw [inner_diag, norm_mul, mul_pow, Complex.norm_real, Real.norm_eq_abs, sq_abs]

/-- Eigenvalues outside `S` at least `g` in absolute value. -/
theorem norm_sub_proj_le {lam : Fin n → ℝ} {S : Finset (Fin n)} {g : ℝ} (hg : 0 < g)
    (hS : ∀ i, i ∉ S → g ≤ |lam i|) (x : E) : g * ‖x - proj b S x‖ ≤ ‖diag b lam x‖ := by
  classical
  refine (sq_le_sq₀ (by positivity) (norm_nonneg _)).1 ?_
  rw [mul_pow, norm_sub_proj_sq, norm_diag_sq, Finset.mul_sum]
  refine le_trans ?_ (Finset.sum_le_sum_of_subset_of_nonneg (Finset.subset_univ Sᶜ)
    fun _ _ _ => by positivity)
  refine Finset.sum_le_sum fun i hi => ?_
  have h1 := hS i (Finset.mem_compl.1 hi)
  have : g ^ 2 ≤ lam i ^ 2 := by rw [← sq_abs (lam i)]; gcongr
  gcongr

/-- Eigenvalues inside `S` at most `e` in absolute value. -/
theorem norm_diag_le {lam : Fin n → ℝ} {S : Finset (Fin n)} {e : ℝ} (he : 0 ≤ e)
    (hS : ∀ i ∈ S, |lam i| ≤ e) {x : E} (hx : proj b S x = x) : ‖diag b lam x‖ ≤ e * ‖x‖ := by
  classical
  refine (sq_le_sq₀ (norm_nonneg _) (by positivity)).1 ?_
  rw [mul_pow, norm_diag_sq, norm_sq_eq b, Finset.mul_sum]
  refine Finset.sum_le_sum fun i _ => ?_
  by_cases hi : i ∈ S
  · have : lam i ^ 2 ≤ e ^ 2 := by rw [← sq_abs (lam i)]; gcongr; exact hS i hi
    gcongr
  · have : inner ℂ (b i) x = 0 := by rw [← hx, inner_proj, if_neg hi]
    rw [this]; simp

variable {b} (f u : OrthonormalBasis (Fin n) ℂ E) {lam μ : Fin n → ℝ} {δ γ eps : ℝ}

/-- Eigenvalues of two close matrices: every eigenvalue of the second is close to one of the first. -/
theorem near_eigenvalue (h : ∀ x, ‖diag f lam x - diag u μ x‖ ≤ δ * ‖x‖) (r : Fin n) :
    ∃ i, |lam i - μ r| ≤ δ := by
  by_contra hne
  push Not at hne
  have h1 := h (u r)
  have hu1 : ‖u r‖ = 1 := u.orthonormal.1 r
  rw [hu1, mul_one] at h1
  have hdu : diag u μ (u r) = (μ r : ℂ) • u r := by
    classical
    unfold diag
    simp only [orthonormal_iff_ite.1 u.orthonormal, mul_ite, mul_one, mul_zero, ite_smul, zero_smul]
    rw [Finset.sum_ite_eq' , if_pos (Finset.mem_univ _)]
  have h2 : ‖diag f lam (u r) - diag u μ (u r)‖ ^ 2 =
      ∑ i, (lam i - μ r) ^ 2 * ‖inner ℂ (f i) (u r)‖ ^ 2 := by
    rw [norm_sq_eq f]
    refine Finset.sum_congr rfl fun i _ => ?_
    rw [inner_sub_right, inner_diag, hdu, inner_smul_right, ← sub_mul, norm_mul, mul_pow,
      ← Complex.ofReal_sub, Complex.norm_real, Real.norm_eq_abs, sq_abs]
  have hδ : 0 ≤ δ := (norm_nonneg _).trans h1
  have h3 : ∑ i, ‖inner ℂ (f i) (u r)‖ ^ 2 = 1 := by rw [← norm_sq_eq f, hu1, one_pow]
  have hex : ∃ i, ‖inner ℂ (f i) (u r)‖ ^ 2 ≠ 0 := by
    by_contra hall
    push Not at hall
    rw [Finset.sum_eq_zero fun i _ => hall i] at h3
    norm_num at h3
  obtain ⟨i₀, hi₀⟩ := hex
  have h4 : δ ^ 2 < ∑ i, (lam i - μ r) ^ 2 * ‖inner ℂ (f i) (u r)‖ ^ 2 := by
    calc δ ^ 2 = ∑ i, δ ^ 2 * ‖inner ℂ (f i) (u r)‖ ^ 2 := by rw [← Finset.mul_sum, h3, mul_one]
      _ < _ := by
        have hsq : ∀ i, δ ^ 2 < (lam i - μ r) ^ 2 := fun i => by
          rw [← sq_abs (lam i - μ r)]
          exact pow_lt_pow_left₀ (hne i) hδ (by norm_num)
        refine Finset.sum_lt_sum (fun i _ => by
          have := (hsq i).le
          gcongr) ⟨i₀, Finset.mem_univ _, ?_⟩
        have : 0 < ‖inner ℂ (f i₀) (u r)‖ ^ 2 := lt_of_le_of_ne (by positivity) (Ne.symm hi₀)
        exact mul_lt_mul_of_pos_right (hsq i₀) this
  rw [← h2] at h4
  have := pow_le_pow_left₀ (norm_nonneg _) h1 2
  linarith

/-- The selection `|μ| < eps` finds exactly the eigenvalues near `0`. -/
theorem selection (hγ : ∀ i, lam i = 0 ∨ γ ≤ lam i) (hδe : δ < eps) (heγ : eps ≤ γ - δ)
    (h : ∀ x, ‖diag f lam x - diag u μ x‖ ≤ δ * ‖x‖) (r : Fin n) :
    (|μ r| < eps → |μ r| ≤ δ) ∧ (¬ |μ r| < eps → γ - δ ≤ |μ r|) := by
  obtain ⟨i, hi⟩ := near_eigenvalue f u h r
  rcases hγ i with h0 | h0
  · rw [h0, zero_sub, abs_neg] at hi
    exact ⟨fun _ => hi, fun hr => absurd (hi.trans_lt hδe) hr⟩
  · have h1 : γ - δ ≤ μ r := by linarith [(abs_le.1 hi).2]
    have h2 : γ - δ ≤ |μ r| := h1.trans (le_abs_self _)
    exact ⟨fun hr => absurd (h2.trans_lt hr) (by linarith), fun _ => h2⟩

/-- The two projections are close. -/
theorem proj_close (hγ0 : 0 < γ) (hδ : 0 ≤ δ) (hδγ : δ ≤ γ / 2) {Z S : Finset (Fin n)}
    (hZ0 : ∀ i ∈ Z, lam i = 0) (hZ : ∀ i, i ∉ Z → γ ≤ |lam i|) (hS0 : ∀ r ∈ S, |μ r| ≤ δ)
    (hS : ∀ r, r ∉ S → γ - δ ≤ |μ r|)
    (h : ∀ x, ‖diag f lam x - diag u μ x‖ ≤ δ * ‖x‖) (x : E) :
    ‖proj u S x - proj f Z x‖ ≤ 4 * δ / γ * ‖x‖ := by
  -- vectors of the second space
  have hA : ∀ y, proj u S y = y → ‖y - proj f Z y‖ ≤ 2 * δ / γ * ‖y‖ := by
    intro y hy
    have h1 := norm_sub_proj_le f hγ0 hZ y
    have h2 := norm_diag_le u hδ hS0 hy
    have h3 := h y
    have h4 : ‖diag f lam y‖ ≤ ‖diag f lam y - diag u μ y‖ + ‖diag u μ y‖ := by
      have := norm_add_le (diag f lam y - diag u μ y) (diag u μ y)
      rwa [sub_add_cancel] at this
    rw [div_mul_eq_mul_div, le_div_iff₀ hγ0]
    linarith
  have hB : ∀ y, proj f Z y = y → ‖y - proj u S y‖ ≤ 2 * δ / γ * ‖y‖ := by
    intro y hy
    have h1 := norm_sub_proj_le u (lam := μ) (S := S) (g := γ / 2) (by linarith) (fun r hr => by linarith [hS r hr]) y
    have h2 : ‖diag f lam y‖ ≤ 0 * ‖y‖ :=
      norm_diag_le f le_rfl (fun i hi => by rw [hZ0 i hi, abs_zero]) hy
    have h3 := h y
    have h4 : ‖diag u μ y‖ ≤ ‖diag f lam y - diag u μ y‖ + ‖diag f lam y‖ := by
      have := norm_add_le (diag u μ y - diag f lam y) (diag f lam y)
      rwa [sub_add_cancel, norm_sub_rev] at this
    rw [div_mul_eq_mul_div, le_div_iff₀ hγ0]
    nlinarith [norm_nonneg y]
  set z := x - proj f Z x with hz
  have e : proj u S x - proj f Z x = proj u S z - (proj f Z x - proj u S (proj f Z x)) := by
    rw [hz, proj_sub]; abel
  have hz0 : proj f Z z = 0 := by rw [hz, proj_sub, proj_proj, sub_self]
  have hzn : ‖z‖ ≤ ‖x‖ := by
    refine (sq_le_sq₀ (norm_nonneg _) (norm_nonneg _)).1 ?_
    classical
    rw [hz, norm_sub_proj_sq, norm_sq_eq f]
    exact Finset.sum_le_sum_of_subset_of_nonneg (Finset.subset_univ _) fun _ _ _ => by positivity
  have h1 : ‖proj u S z‖ ≤ 2 * δ / γ * ‖x‖ := by
    have g1 : ‖proj u S z‖ ^ 2 ≤ 2 * δ / γ * ‖proj u S z‖ * ‖z‖ := by
      have g2 : ((‖proj u S z‖ ^ 2 : ℝ) : ℂ) =
          inner ℂ (proj u S z - proj f Z (proj u S z)) z := by
        rw [inner_sub_left, inner_proj_symm f, hz0, inner_zero_right, sub_zero]
        have := inner_self_eq_norm_sq_to_K (𝕜 := ℂ) (proj u S z)
        rw [inner_proj_symm u, proj_proj u, ← inner_proj_symm u] at this
        rw [this]; push_cast; rfl
      have g3 := norm_inner_le_norm (𝕜 := ℂ) (proj u S z - proj f Z (proj u S z)) z
      rw [← g2, Complex.norm_real, Real.norm_of_nonneg (by positivity)] at g3
      refine g3.trans ?_
      gcongr
      exact hA _ (proj_proj u S z)
    have hc : 0 ≤ 2 * δ / γ := by positivity
    rcases (norm_nonneg (proj u S z)).eq_or_lt with g | g
    · rw [← g]; positivity
    · have : ‖proj u S z‖ ≤ 2 * δ / γ * ‖z‖ := by
        by_contra hlt
        push Not at hlt
        nlinarith
      exact this.trans (by gcongr)
  have h2 : ‖proj f Z x - proj u S (proj f Z x)‖ ≤ 2 * δ / γ * ‖x‖ := by
    refine (hB _ (proj_proj f Z x)).trans ?_
    have hc : 0 ≤ 2 * δ / γ := by positivity
    have := norm_proj_le f Z x
    gcongr
  rw [e]
  refine (norm_sub_le _ _).trans ?_
  have : 4 * δ / γ * ‖x‖ = 2 * δ / γ * ‖x‖ + 2 * δ / γ * ‖x‖ := by ring
  linarith

end spectral

section null

variable {m n : ℕ} {δ eps γ : ℝ}

theorem inner_single_eq (v : Vec n) (i : Fin n) :
    inner ℂ v (EuclideanSpace.single i (1 : ℂ)) = starRingEnd ℂ (v i) := by
  rw [EuclideanSpace.inner_single_right]; simp

/-- The rows of `conj(X.T) @ X` for columns close to an orthonormal basis. -/
theorem nullProj_close {val : Fin n → ℝ} {vec : Fin n → Vec n} (hδ : 0 ≤ δ) (hδ1 : δ ≤ 1)
    (U : OrthonormalBasis (Fin n) ℂ (Vec n))
    (hD : ∀ c : Vec n, ‖∑ r, c r • (vec r - U r)‖ ≤ δ * ‖c‖) (i : Fin n) :
    ‖nullProj eps val vec i - proj U (Finset.univ.filter fun k => |val k| < eps)
      (EuclideanSpace.single i (1 : ℂ))‖ ≤ 3 * δ := by
  classical
  set S := Finset.univ.filter fun k => |val k| < eps with hS
  set d : Vec n := WithLp.toLp 2 fun k => if k ∈ S then starRingEnd ℂ ((vec k - U k) i) else 0 with hd
  set a : Vec n := WithLp.toLp 2 fun k => if k ∈ S then starRingEnd ℂ ((U k) i) else 0 with ha
  have hdn : ‖d‖ ≤ δ := by
    have h1 : ((‖d‖ ^ 2 : ℝ) : ℂ) = (∑ r, d r • (vec r - U r)) i := by
      rw [EuclideanSpace.norm_sq_eq]
      push_cast
      rw [show (∑ r, d r • (vec r - U r)) i = ∑ r, d r * (vec r - U r) i by
        simp [WithLp.ofLp_sum, Finset.sum_apply]]
      refine Finset.sum_congr rfl fun k _ => ?_
      by_cases hk : k ∈ S
      · have : d k = starRingEnd ℂ ((vec k - U k) i) := by simp only [hd, if_pos hk]
        rw [this, RCLike.norm_conj, ← Complex.conj_mul']
      · have : d k = 0 := by simp only [hd, if_neg hk]
        rw [this]; simp
    have h2 : ‖(∑ r, d r • (vec r - U r)) i‖ ≤ ‖∑ r, d r • (vec r - U r)‖ :=
      PiLp.norm_apply_le _ i
    rw [← h1, Complex.norm_real, Real.norm_of_nonneg (by positivity)] at h2
    have h3 := h2.trans (hD d)
    rcases (norm_nonneg d).eq_or_lt with g | g
    · rw [← g]; exact hδ
    · by_contra hlt
      push Not at hlt
      nlinarith
  have han : ‖a‖ ≤ 1 := by
    refine (sq_le_sq₀ (norm_nonneg _) zero_le_one).1 ?_
    have h1 : ‖(EuclideanSpace.single i (1 : ℂ) : Vec n)‖ ^ 2 = 1 := by simp
    rw [one_pow, ← h1, norm_sq_eq U (EuclideanSpace.single i (1 : ℂ)), EuclideanSpace.norm_sq_eq]
    refine Finset.sum_le_sum fun k _ => ?_
    rw [inner_single_eq]
    by_cases hk : k ∈ S
    · have : a k = starRingEnd ℂ ((U k) i) := by simp only [ha, if_pos hk]
      rw [this]
    · have : a k = 0 := by simp only [ha, if_neg hk]
      rw [this]; simp
  have e : nullProj eps val vec i - proj U S (EuclideanSpace.single i (1 : ℂ)) =
      ∑ r, (a + d) r • (vec r - U r) + ∑ r, d r • U r := by
    rw [nullProj_eq, proj, ← Finset.sum_add_distrib, ← Finset.sum_sub_distrib]
    rw [← Finset.sum_subset (Finset.subset_univ S)]
    · refine Finset.sum_congr rfl fun k hk => ?_
      have h1 : d k = starRingEnd ℂ ((vec k - U k) i) := by simp only [hd, if_pos hk]
      have h2 : a k = starRingEnd ℂ ((U k) i) := by simp only [ha, if_pos hk]
      have h3 : (a + d) k = starRingEnd ℂ (vec k i) := by
        rw [PiLp.add_apply, h1, h2, PiLp.sub_apply, map_sub]; ring
      rw [h3, h1, inner_single_eq, PiLp.sub_apply, map_sub, smul_sub, sub_smul]
      abel
    · intro k _ hk
      have h1 : d k = 0 := by simp only [hd, if_neg hk]
      have h2 : a k = 0 := by simp only [ha, if_neg hk]
      rw [PiLp.add_apply, h1, h2]; simp
  have h1 : ‖∑ r, d r • U r‖ = ‖d‖ := by
    have h2 : ‖∑ r, d r • U r‖ ^ 2 = ‖d‖ ^ 2 := by
      rw [norm_sq_eq U, EuclideanSpace.norm_sq_eq]
      refine Finset.sum_congr rfl fun k _ => ?_
      rw [inner_sum]
      simp only [inner_smul_right, orthonormal_iff_ite.1 U.orthonormal, mul_ite, mul_one, mul_zero]
      rw [Finset.sum_ite_eq, if_pos (Finset.mem_univ _)]
    exact (sq_eq_sq₀ (norm_nonneg _) (norm_nonneg _)).1 h2
  have h2 := hD (a + d)
  have h3 : ‖a + d‖ ≤ 2 := (norm_add_le _ _).trans (by linarith)
  rw [e]
  refine (norm_add_le _ _).trans ?_
  have h4 : δ * ‖a + d‖ ≤ δ * 2 := by gcongr
  rw [h1]
  linarith

/-- The exact eigenbasis of `Aᴴ A`. -/
theorem exists_exact (A : Matrix (Fin m) (Fin n) ℂ) (hγ : 0 < γ) (hgap : Gap γ A) :
    ∃ (f : OrthonormalBasis (Fin n) ℂ (Vec n)) (lam : Fin n → ℝ),
      (∀ i, lam i = 0 ∨ γ ≤ lam i) ∧
      (∀ x : Vec n, (WithLp.toLp 2 ((Aᴴ * A) *ᵥ x.ofLp) : Vec n) = diag f lam x) ∧
      ∀ x, (x ∈ kernel A ↔ proj f (Finset.univ.filter fun i => lam i = 0) x = x) := by
  classical
  obtain ⟨ho, hev⟩ := eigh_spec_mul exactEigh_spec A
  set val := (exactEigh n (Aᴴ * A)).1
  set vec := (exactEigh n (Aᴴ * A)).2
  have hb : ∀ k, eigBasis ho k = vec k := eigBasis_apply ho
  have hlam : ∀ i, val i = 0 ∨ γ ≤ val i := by
    intro i
    by_cases h : |val i| < γ
    · exact Or.inl (sel_of_gap γ ho hev hgap i h)
    · right
      rw [abs_of_nonneg (val_nonneg ho hev i)] at h
      exact not_lt.1 h
  refine ⟨eigBasis ho, val, hlam, fun x => ?_, fun x => ?_⟩
  · refine InnerProductSpace.ext_inner_left_basis (𝕜 := ℂ) (eigBasis ho).toBasis fun j => ?_
    rw [OrthonormalBasis.coe_toBasis, inner_diag, hb, inner_mulVec,
      (isHermitian_conjTranspose_mul_self A).eq, hev j, WithLp.toLp_smul, inner_smul_left]
    simp
  · rw [← selSpan_eq_kernel γ hγ ho hev hgap]
    constructor
    · intro hx
      refine InnerProductSpace.ext_inner_left_basis (𝕜 := ℂ) (eigBasis ho).toBasis fun j => ?_
      rw [OrthonormalBasis.coe_toBasis, inner_proj]
      split_ifs with hj
      · rfl
      · rw [hb]
        refine (selSpan_inner γ ho (k := j) ?_ hx).symm
        have hj' : val j ≠ 0 := by simpa using hj
        rcases hlam j with h | h
        · exact absurd h hj'
        · rw [abs_of_nonneg (hγ.le.trans h)]; exact not_lt.2 h
    · intro hx
      refine mem_selSpan_of_inner γ ho fun k hk => ?_
      have hk' : val k ≠ 0 := fun h => hk (by rw [h, abs_zero]; exact hγ)
      rw [← hb, ← hx, inner_proj, if_neg (by simpa using hk')]

/-- The rows of a run, compared with the exact projections. -/
theorem rows_close {A : Matrix (Fin m) (Fin n) ℂ} (hγ : 0 < γ) (hgap : Gap γ A) (hδ : 0 ≤ δ)
    (hδe : δ < eps) (heγ : eps ≤ γ - δ) (hδ1 : δ ≤ 1) {R : List (Vec n)} (h : NullRun δ eps A R) :
    ∃ (rows p : Fin n → Vec n), LoopRun δ eps (List.ofFn rows) [] R ∧
      (∀ i, p i ∈ kernel A ∧ ‖p i‖ ≤ 1) ∧
      (∀ i, ∀ x ∈ kernel A, inner ℂ x (EuclideanSpace.single i (1 : ℂ)) = inner ℂ x (p i)) ∧
      ∀ i, ‖rows i - p i‖ ≤ 4 * δ + 4 * δ / γ := by
  classical
  obtain ⟨val, vec, ⟨U, hU, hD⟩, rows, hrows, hrun⟩ := h
  obtain ⟨f, lam, hlam, hdiag, hker⟩ := exists_exact A hγ hgap
  have hclose : ∀ x, ‖diag f lam x - diag U val x‖ ≤ δ * ‖x‖ := fun x => by
    rw [← hdiag]; exact hU x
  have hsel := selection f U hlam hδe heγ hclose
  have h1 : ∀ i : Fin n, ‖(EuclideanSpace.single i (1 : ℂ) : Vec n)‖ = 1 := fun i => by simp
  refine ⟨rows, fun i => proj f (Finset.univ.filter fun i => lam i = 0)
    (EuclideanSpace.single i (1 : ℂ)), hrun, fun i => ⟨?_, ?_⟩, fun i x hx => ?_, fun i => ?_⟩
  · exact (hker _).2 (proj_proj f _ _)
  · exact (norm_proj_le f _ _).trans (h1 i).le
  · rw [← inner_proj_symm, (hker x).1 hx]
  · have g1 := hrows i
    have g2 := nullProj_close (eps := eps) (val := val) hδ hδ1 U hD i
    have g3 := proj_close f U (lam := lam) (μ := val) hγ hδ (by linarith)
      (Z := Finset.univ.filter fun i => lam i = 0)
      (S := Finset.univ.filter fun k => |val k| < eps)
      (fun i hi => by simpa using hi)
      (fun i hi => by
        have hi' : lam i ≠ 0 := by simpa using hi
        rcases hlam i with g | g
        · exact absurd g hi'
        · exact g.trans (le_abs_self _))
      (fun r hr => (hsel r).1 (by simpa using hr))
      (fun r hr => (hsel r).2 (by simpa using hr)) hclose (EuclideanSpace.single i (1 : ℂ))
    rw [h1 i, mul_one] at g3
    have e : rows i - proj f (Finset.univ.filter fun i => lam i = 0)
        (EuclideanSpace.single i (1 : ℂ)) = (rows i - nullProj eps val vec i) +
        (nullProj eps val vec i - proj U (Finset.univ.filter fun k => |val k| < eps)
          (EuclideanSpace.single i (1 : ℂ))) +
        (proj U (Finset.univ.filter fun k => |val k| < eps) (EuclideanSpace.single i (1 : ℂ)) -
          proj f (Finset.univ.filter fun i => lam i = 0) (EuclideanSpace.single i (1 : ℂ))) := by
      abel
    rw [e]
    refine (norm_add_le _ _).trans ?_
    have g4 := norm_add_le (rows i - nullProj eps val vec i)
      (nullProj eps val vec i - proj U (Finset.univ.filter fun k => |val k| < eps)
          (EuclideanSpace.single i (1 : ℂ)))
    linarith

theorem forall₂_ofFn {α β : Type*} {r : α → β → Prop} {f : Fin n → α} {g : Fin n → β}
    (h : ∀ i, r (f i) (g i)) : List.Forall₂ r (List.ofFn f) (List.ofFn g) := by
  rw [List.forall₂_iff_get]
  refine ⟨by simp, fun i h1 h2 => ?_⟩
  simpa using h ⟨i, by simpa using h1⟩

/-- **All runs of `nullspace`.**  `mm` bounds the stages at which a vector is accepted, `M` the number of
vectors. -/
theorem null_close {A : Matrix (Fin m) (Fin n) ℂ} (hγ : 0 < γ) (hgap : Gap γ A) (hδ : 0 ≤ δ)
    (hδe : δ < eps) (heγ : eps ≤ γ - δ) (hδ1 : δ ≤ 1) {ρ : ℕ → ℝ} (hρ0 : ∀ t, 0 < ρ t)
    {mm M : ℕ} (hacc : sig (4 * δ + 4 * δ / γ) δ ρ mm + δ ≤ eps)
    (hle : sig (4 * δ + 4 * δ / γ) δ ρ M ≤ 1)
    (hn : n * (eps + δ + sig (4 * δ + 4 * δ / γ) δ ρ M) ^ 2 < 1)
    {R : List (Vec n)}
    (hm : (Module.finrank ℂ (kernel A) ≤ mm ∧ mm ≤ M) ∨ (R.length ≤ mm + 1 ∧ mm + 1 ≤ M))
    (hρ : ∀ b ∈ kernel A, (∃ i, ∀ x ∈ kernel A,
        inner ℂ x (EuclideanSpace.single i (1 : ℂ)) = inner ℂ x b) →
      ∀ V : List (Vec n), OList V → (∀ u ∈ V, u ∈ kernel A) → V.length ≤ mm → ∀ ν : ℝ, eps < ν →
      |ν - ‖gsReduce V b‖| ≤ δ + sig (4 * δ + 4 * δ / γ) δ ρ mm → ρ V.length ≤ ν)
    (h : NullRun δ eps A R) :
    ∃ U, OList U ∧ lspan U = kernel A ∧ U.length = Module.finrank ℂ (kernel A) ∧
      List.Forall₂ (fun q u => ‖q - u‖ ≤ err (4 * δ + 4 * δ / γ) δ ρ U.length) R U := by
  obtain ⟨rows, p, hrun, hp, hp', hrows⟩ := rows_close hγ hgap hδ hδe heγ hδ1 h
  have hδ₀ : 0 ≤ 4 * δ + 4 * δ / γ := by positivity
  obtain ⟨U, h1, h2, _, _, h5, h6⟩ := loop_close (W := kernel A) (δ₀ := 4 * δ + 4 * δ / γ) hδ₀ hδ hacc
    hle hρ0 hm (A := List.ofFn rows) (B := List.ofFn p) (Q := []) (U := [])
    (fun b hb => by
      obtain ⟨i, rfl⟩ := (List.mem_ofFn' _ _).1 hb
      exact hρ _ (hp i).1 ⟨i, hp' i⟩)
    (forall₂_ofFn hrows)
    (fun b hb => by
      obtain ⟨i, rfl⟩ := (List.mem_ofFn' _ _).1 hb
      exact hp i)
    ⟨by simp, List.Pairwise.nil⟩ (by simp) .nil hrun
  have hfull : lspan U = kernel A := full_of_close hn
    (fun i => EuclideanSpace.single i (1 : ℂ)) p pars_single hp' (lspan_le.2 h2)
    fun i => h6 (p i) ((List.mem_ofFn' _ _).2 ⟨i, rfl⟩)
  exact ⟨U, h1, hfull, by rw [oList_length h1, hfull], h5⟩

end null

end Rounding

end LieNN
