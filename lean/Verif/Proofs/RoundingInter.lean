import Verif.Model.RoundingInter
import Verif.Proofs.BasisInter
import Verif.Proofs.RoundingDecompose
import Verif.Proofs.RoundingCG
/-!
# `basis_intersection` with rounding errors
-/
namespace LieNN.Rounding

open Matrix Spec

variable {m n N : ℕ} {δ eps γ τ C β : ℝ}

theorem restr_norm_le {f : Fin n → Fin N} (hf : Function.Injective f) (z : Vec N) : ‖restr f z‖ ≤ ‖z‖ := by
  have h : ‖restr f z‖ ^ 2 ≤ ‖z‖ ^ 2 := by
    rw [EuclideanSpace.norm_sq_eq, EuclideanSpace.norm_sq_eq]
    simp only [restr_apply]
    rw [← Finset.sum_image (s := Finset.univ) (g := f) (f := fun j => ‖z j‖ ^ 2)
      (fun a _ b _ h => hf h)]
    exact Finset.sum_le_sum_of_subset_of_nonneg (Finset.subset_univ _) fun _ _ _ => sq_nonneg _
  exact (pow_le_pow_iff_left₀ (norm_nonneg _) (norm_nonneg _) two_ne_zero).1 h

/-- The selected columns, compared with the exact projections on the kernel. -/
theorem projRows_close {A : Matrix (Fin m) (Fin N) ℂ} (hγ : 0 < γ) (hgap : Gap γ A) (hδ : 0 ≤ δ)
    (hδe : δ < eps) (heγ : eps ≤ γ - δ) (hδ1 : δ ≤ 1) {val : Fin N → ℝ} {vec : Fin N → Vec N}
    (h : EighRun δ (Aᴴ * A) val vec) :
    (∀ r, val r < eps ↔ |val r| < eps) ∧ ∃ p : Fin N → Vec N, (∀ i, p i ∈ kernel A ∧ ‖p i‖ ≤ 1) ∧
      (∀ i, ∀ x ∈ kernel A, inner ℂ x (EuclideanSpace.single i (1 : ℂ)) = inner ℂ x (p i)) ∧
      ∀ i, ‖nullProj eps val vec i - p i‖ ≤ 3 * δ + 4 * δ / γ := by
  classical
  obtain ⟨U, hU, hD⟩ := h
  obtain ⟨f, lam, hlam, hdiag, hker⟩ := exists_exact A hγ hgap
  have hclose : ∀ x, ‖diag f lam x - diag U val x‖ ≤ δ * ‖x‖ := fun x => by
    rw [← hdiag]; exact hU x
  have hsel := selection f U hlam hδe heγ hclose
  have h1 : ∀ i : Fin N, ‖(EuclideanSpace.single i (1 : ℂ) : Vec N)‖ = 1 := fun i => by simp
  refine ⟨fun r => ⟨fun hr => ?_, fun hr => (le_abs_self _).trans_lt hr⟩,
    fun i => proj f (Finset.univ.filter fun i => lam i = 0)
      (EuclideanSpace.single i (1 : ℂ)), fun i => ⟨?_, ?_⟩, fun i x hx => ?_, fun i => ?_⟩
  · obtain ⟨i, hi⟩ := near_eigenvalue f U hclose r
    have h0 : 0 ≤ lam i := by rcases hlam i with h | h <;> linarith
    rw [abs_lt]
    exact ⟨by linarith [(abs_le.1 hi).2], hr⟩
  · exact (hker _).2 (proj_proj f _ _)
  · exact (norm_proj_le f _ _).trans (h1 i).le
  · rw [← inner_proj_symm, (hker x).1 hx]
  · have g2 := nullProj_close (eps := eps) (val := val) hδ hδ1 U hD i
    have g3 := proj_close f U (lam := lam) (μ := val) hγ hδ (by linarith)
      (Z := Finset.univ.filter fun i => lam i = 0)
      (S := Finset.univ.filter fun k => |val k| < eps)
      (fun i hi => by simpa using hi)
      (fun i hi => by
        have hi' : lam i ≠ 0 := by simpa using hi
        rcases hlam i with g | g
        · exact absurd g hi'
        · exact g.trans (le_abs_self _))
      (fun r hr => (hsel r).1 (by simpa using hr))
      (fun r hr => (hsel r).2 (by simpa using hr)) hclose (EuclideanSpace.single i (1 : ℂ))
    rw [h1 i, mul_one] at g3
    have := norm_sub_le_norm_sub_add_norm_sub (nullProj eps val vec i)
      (proj U (Finset.univ.filter fun k => |val k| < eps) (EuclideanSpace.single i (1 : ℂ)))
      (proj f (Finset.univ.filter fun i => lam i = 0) (EuclideanSpace.single i (1 : ℂ)))
    linarith

/-- For real eigenvectors the rows of `x @ x.T` are restricted rows of the projection. -/
theorem interRows_restr (f : Fin n → Fin N) {val : Fin N → ℝ} {vec : Fin N → Vec N}
    (hre : ∀ k i, (vec k i).im = 0) (hsel : ∀ r, val r < eps ↔ |val r| < eps) (i : Fin n) :
    (open Classical in interRows f (Finset.univ.filter fun k => val k < eps) vec i) =
      restr f (nullProj eps val vec (f i)) := by
  ext j
  simp only [interRows, restr_apply, nullProj, hsel]
  refine Finset.sum_congr rfl fun k _ => ?_
  rw [Complex.conj_eq_iff_im.2 (hre k (f i))]

/-- Restricted projections of the unit vectors control the restriction of the subspace. -/
theorem frame_restr {K : Submodule ℂ (Vec N)} (f : Fin n → Fin N) {p : Fin N → Vec N}
    (hp : ∀ i, p i ∈ K)
    (hp' : ∀ i, ∀ x ∈ K, inner ℂ x (EuclideanSpace.single i (1 : ℂ)) = inner ℂ x (p i)) {u : Vec n}
    {z : Vec N} (hz : z ∈ K) (hu : restr f z = u) (hC0 : 0 ≤ C) (hC : ‖z‖ ^ 2 ≤ C * ‖u‖ ^ 2) :
    ‖u‖ ^ 2 ≤ C ^ 2 * ∑ i, ‖inner ℂ u (restr f (p (f i)))‖ ^ 2 := by
  have hsym : ∀ a b, starRingEnd ℂ (p a b) = p b a := by
    intro a b
    have h1 := hp' b (p a) (hp a)
    have h2 := hp' a (p b) (hp b)
    rw [inner_single_eq] at h1 h2
    rw [h1, ← inner_conj_symm, ← h2, Complex.conj_conj]
  set P : Vec N := ∑ i, u i • p (f i) with hP
  have hPK : P ∈ K := Submodule.sum_mem _ fun i _ => K.smul_mem _ (hp _)
  have hin : ∀ x ∈ K, inner ℂ x P = inner ℂ (restr f x) u := by
    intro x hx
    rw [hP, inner_sum, PiLp.inner_apply]
    refine Finset.sum_congr rfl fun i _ => ?_
    rw [inner_smul_right, ← hp' (f i) x hx, inner_single_eq, restr_apply, RCLike.inner_apply]
  have h1 : inner ℂ z P = ((‖u‖ ^ 2 : ℝ) : ℂ) := by
    rw [hin z hz, hu, inner_self_eq_norm_sq_to_K]; simp
  have h2 : ((‖P‖ ^ 2 : ℝ) : ℂ) = inner ℂ (restr f P) u := by
    rw [← hin P hPK, inner_self_eq_norm_sq_to_K]; simp
  have h3 : ‖u‖ ^ 2 ≤ ‖z‖ * ‖P‖ := by
    have := norm_inner_le_norm (𝕜 := ℂ) z P
    rw [h1, Complex.norm_real, Real.norm_eq_abs, abs_of_nonneg (sq_nonneg _)] at this
    exact this
  have h4 : ‖P‖ ^ 2 ≤ ‖restr f P‖ * ‖u‖ := by
    have := norm_inner_le_norm (𝕜 := ℂ) (restr f P) u
    rw [← h2, Complex.norm_real, Real.norm_eq_abs, abs_of_nonneg (sq_nonneg _)] at this
    exact this
  have h5 : ∑ i, ‖inner ℂ u (restr f (p (f i)))‖ ^ 2 = ‖restr f P‖ ^ 2 := by
    rw [EuclideanSpace.norm_sq_eq]
    refine Finset.sum_congr rfl fun i _ => ?_
    have e : inner ℂ u (restr f (p (f i))) = starRingEnd ℂ (restr f P i) := by
      rw [restr_apply, hP, PiLp.inner_apply]
      simp only [WithLp.ofLp_sum, Finset.sum_apply, WithLp.ofLp_smul, Pi.smul_apply, smul_eq_mul,
        map_sum, map_mul, RCLike.inner_apply, restr_apply]
      refine Finset.sum_congr rfl fun j _ => ?_
      rw [hsym, mul_comm]
    rw [e, RCLike.norm_conj]
  rw [h5]
  rcases eq_or_lt_of_le (norm_nonneg u) with h0 | h0
  · have e0 : ‖u‖ ^ 2 = 0 := by rw [← h0]; norm_num
    rw [e0]; positivity
  · have h6 : (‖u‖ ^ 2) ^ 2 ≤ (C * ‖u‖ ^ 2) * (‖restr f P‖ * ‖u‖) :=
      calc (‖u‖ ^ 2) ^ 2 ≤ (‖z‖ * ‖P‖) ^ 2 := by gcongr
        _ = ‖z‖ ^ 2 * ‖P‖ ^ 2 := by ring
        _ ≤ (C * ‖u‖ ^ 2) * (‖restr f P‖ * ‖u‖) := by gcongr
    have h7 : ‖u‖ ≤ C * ‖restr f P‖ := by
      have h8 : 0 < ‖u‖ ^ 3 := by positivity
      refine le_of_mul_le_mul_right ?_ h8
      nlinarith
    calc ‖u‖ ^ 2 ≤ (C * ‖restr f P‖) ^ 2 := by gcongr
      _ = C ^ 2 * ‖restr f P‖ ^ 2 := by ring

/-- A subspace that is close to a family which controls `W` is all of `W`. -/
theorem full_of_control {W L : Submodule ℂ (Vec n)} (hn : n * (β * C) ^ 2 < 1) (b : Fin n → Vec n)
    (hW : ∀ u ∈ W, ‖u‖ ^ 2 ≤ C ^ 2 * ∑ i, ‖inner ℂ u (b i)‖ ^ 2) (hLW : L ≤ W)
    (hclose : ∀ i, ∃ z ∈ L, ‖b i - z‖ ≤ β) : L = W := by
  apply le_antisymm hLW
  by_contra hne
  obtain ⟨x, hxK, hxL⟩ := Set.not_subset.1 hne
  set y : Vec n := x - L.starProjection x with hy
  have hyK : y ∈ W := W.sub_mem hxK (hLW (Submodule.starProjection_apply_mem _ _))
  have hy0 : y ≠ 0 := by
    intro h0
    apply hxL
    have : x = L.starProjection x := sub_eq_zero.1 h0
    show x ∈ L
    rw [this]; exact Submodule.starProjection_apply_mem _ _
  have hyL : ∀ z ∈ L, inner ℂ y z = 0 := fun z hz => by
    rw [hy]
    exact Submodule.starProjection_inner_eq_zero x z hz
  have hbound : ∀ i, ‖inner ℂ y (b i)‖ ≤ β * ‖y‖ := by
    intro i
    obtain ⟨z, hz, hze⟩ := hclose i
    have : inner ℂ y (b i) = inner ℂ y (b i - z) := by rw [inner_sub_right, hyL z hz, sub_zero]
    rw [this]
    calc ‖inner ℂ y (b i - z)‖ ≤ ‖y‖ * ‖b i - z‖ := norm_inner_le_norm _ _
      _ ≤ ‖y‖ * β := by gcongr
      _ = β * ‖y‖ := mul_comm _ _
  have hypos : 0 < ‖y‖ := norm_pos_iff.2 hy0
  have h1 : ∑ i, ‖inner ℂ y (b i)‖ ^ 2 ≤ n * (β * ‖y‖) ^ 2 := by
    refine (Finset.sum_le_card_nsmul Finset.univ _ ((β * ‖y‖) ^ 2) fun i _ => ?_).trans (by simp)
    exact pow_le_pow_left₀ (norm_nonneg _) (hbound i) 2
  have h2 : ‖y‖ ^ 2 ≤ C ^ 2 * (n * (β * ‖y‖) ^ 2) :=
    (hW y hyK).trans (mul_le_mul_of_nonneg_left h1 (sq_nonneg _))
  have h3 : C ^ 2 * (n * (β * ‖y‖) ^ 2) = n * (β * C) ^ 2 * ‖y‖ ^ 2 := by ring
  rw [h3] at h2
  nlinarith [pow_pos hypos 2]

/-- One of the two results, for small enough errors. -/
theorem side_close (n : ℕ) (heps : 0 < eps) (hγ : eps < γ) (hC0 : 0 ≤ C) (hn : n * (eps * C) ^ 2 < 1)
    (hτ : 0 < τ) : ∃ Δ > 0, ∀ δ, 0 ≤ δ → δ ≤ Δ → ∀ (m N : ℕ) (A : Matrix (Fin m) (Fin N) ℂ)
      (f : Fin n → Fin N), Function.Injective f → Gap γ A →
      (∀ u ∈ (kernel A).map (restr f), ∃ z ∈ kernel A, restr f z = u ∧ ‖z‖ ^ 2 ≤ C * ‖u‖ ^ 2) →
      ∀ w v, EighRun δ (Aᴴ * A) w v → (∀ k i, (v k i).im = 0) → ∀ P, InterSideRun δ eps f w v P →
        ∃ U, OList U ∧ lspan U = (kernel A).map (restr f) ∧
          List.Forall₂ (fun q u => ‖q - u‖ ≤ τ) P U := by
  classical
  have hγ0 : 0 < γ := heps.trans hγ
  -- a slightly larger tolerance still spans
  obtain ⟨β, hβ, hnβ⟩ : ∃ β, eps < β ∧ n * (β * C) ^ 2 < 1 := by
    have c : Continuous fun t : ℝ => (n : ℝ) * (t * C) ^ 2 := by fun_prop
    have e : ∀ᶠ t : ℝ in nhds eps, (n : ℝ) * (t * C) ^ 2 < 1 := c.tendsto eps |>.eventually_lt_const hn
    obtain ⟨r, hr, h⟩ := Metric.eventually_nhds_iff.1 e
    refine ⟨eps + r / 2, by linarith, h ?_⟩
    rw [Real.dist_eq, add_sub_cancel_left, abs_of_pos (by positivity)]
    linarith
  obtain ⟨Δ₁, hΔ₁, hgs⟩ := gs_run n heps hβ hτ
  set c : ℝ := 4 + 4 / γ with hc
  have hc1 : 1 ≤ c := by
    have : 0 < 4 / γ := by positivity
    linarith
  refine ⟨min (Δ₁ / c) (min (eps / 2) (min (γ - eps) 1)), by
    have : 0 < γ - eps := by linarith
    positivity, ?_⟩
  intro δ hδ hδle m N A f hf hgap hbd w v he hre P hP
  have k1 : δ * c ≤ Δ₁ := by
    have := hδle.trans (min_le_left _ _)
    rwa [le_div_iff₀ (by positivity)] at this
  have k2 := hδle.trans ((min_le_right _ _).trans (min_le_left _ _))
  have k3 := hδle.trans ((min_le_right _ _).trans ((min_le_right _ _).trans (min_le_left _ _)))
  have k4 := hδle.trans ((min_le_right _ _).trans ((min_le_right _ _).trans (min_le_right _ _)))
  obtain ⟨hsel, p, hp, hp', hclose⟩ := projRows_close (eps := eps) hγ0 hgap hδ (by linarith)
    (by linarith) k4 he
  obtain ⟨rows, hrows, hrun⟩ := hP
  have hr : ∀ i, ‖rows i - restr f (p (f i))‖ ≤ δ * c := by
    intro i
    have h1 := hrows i
    rw [interRows_restr f hre hsel i] at h1
    have h2 : ‖restr f (nullProj eps w v (f i)) - restr f (p (f i))‖ ≤ 3 * δ + 4 * δ / γ := by
      rw [← map_sub]
      exact (restr_norm_le hf _).trans (hclose _)
    have h3 := norm_sub_le_norm_sub_add_norm_sub (rows i) (restr f (nullProj eps w v (f i)))
      (restr f (p (f i)))
    have h4 : δ * c = δ + (3 * δ + 4 * δ / γ) := by rw [hc]; ring
    linarith
  obtain ⟨U, u1, u2, u3, u4⟩ := hgs (δ * c) δ (by positivity) k1 hδ
    (le_trans (le_mul_of_one_le_right hδ hc1) k1) ((kernel A).map (restr f)) (List.ofFn rows)
    (List.ofFn fun i => restr f (p (f i))) P (forall₂_ofFn hr) (fun b hb => by
      obtain ⟨i, rfl⟩ := (List.mem_ofFn' _ _).1 hb
      exact ⟨Submodule.mem_map_of_mem (hp _).1, (restr_norm_le hf _).trans (hp _).2⟩) hrun
  refine ⟨U, u1, ?_, u3⟩
  refine full_of_control hnβ (fun i => restr f (p (f i))) (fun u hu => ?_) (lspan_le.2 u2) fun i =>
    u4 _ ((List.mem_ofFn' _ _).2 ⟨i, rfl⟩)
  obtain ⟨z, hz, hzu, hzC⟩ := hbd u hu
  exact frame_restr f (fun i => (hp i).1) hp' hz hzu hC0 hzC

/-! ### No errors -/

theorem eighRun_zero {M : Matrix (Fin N) (Fin N) ℂ} {val : Fin N → ℝ} {vec : Fin N → Vec N}
    (h : EighRun 0 M val vec) :
    Orthonormal ℂ vec ∧ ∀ k, M *ᵥ (vec k).ofLp = (val k : ℂ) • (vec k).ofLp := by
  obtain ⟨U, h1, h2⟩ := h
  have hU : ∀ r, vec r = U r := by
    intro r
    have h5 := h2 (EuclideanSpace.single r (1 : ℂ))
    rw [zero_mul, norm_le_zero_iff, Finset.sum_eq_single r] at h5
    · simpa [sub_eq_zero] using h5
    · intro b _ hb
      simp [hb]
    · simp
  refine ⟨by rw [show vec = U from funext hU]; exact U.orthonormal, fun k => ?_⟩
  have h5 := h1 (vec k)
  rw [zero_mul, norm_le_zero_iff, sub_eq_zero, Finset.sum_eq_single k] at h5
  · rw [hU k, inner_self_eq_norm_sq_to_K, U.orthonormal.1 k] at h5
    have h6 := congrArg WithLp.ofLp h5
    rw [hU k]
    simpa using h6
  · intro b _ hb
    rw [hU k, U.orthonormal.2 hb]
    simp
  · simp

/-- An answer for one matrix can be completed to an `eigh`. -/
theorem exists_eigh_eq {e₀ : EighFn} (h₀ : EighSpec e₀) (hr₀ : EighReal e₀) {M : Matrix (Fin N) (Fin N) ℂ}
    {val : Fin N → ℝ} {vec : Fin N → Vec N} (ho : Orthonormal ℂ vec)
    (hev : ∀ k, M *ᵥ (vec k).ofLp = (val k : ℂ) • (vec k).ofLp) (hre : ∀ k i, (vec k i).im = 0) :
    ∃ e : EighFn, EighSpec e ∧ EighReal e ∧ e N M = (val, vec) := by
  classical
  let e : EighFn := fun n' M' => if h : n' = N then
      (if M' = (h.symm ▸ M : Matrix (Fin n') (Fin n') ℂ) then
        (h.symm ▸ (val, vec) : (Fin n' → ℝ) × (Fin n' → Vec n')) else e₀ n' M')
    else e₀ n' M'
  have he : e N M = (val, vec) := by simp [e]
  have hne : ∀ n' M', (¬ ∃ h : N = n', h ▸ M = M') → e n' M' = e₀ n' M' := by
    intro n' M' hn
    by_cases h : n' = N
    · subst h
      have : M' ≠ M := fun hM => hn ⟨rfl, hM.symm⟩
      simp [e, this]
    · simp [e, h]
  refine ⟨e, fun n' M' hM' => ?_, fun n' M' hM' => ?_, he⟩
  · by_cases h : ∃ h : N = n', h ▸ M = M'
    · obtain ⟨rfl, rfl⟩ := h
      rw [he]
      exact ⟨ho, hev⟩
    · rw [hne _ _ h]
      exact h₀ n' M' hM'
  · by_cases h : ∃ h : N = n', h ▸ M = M'
    · obtain ⟨rfl, rfl⟩ := h
      rw [he]
      exact hre
    · rw [hne _ _ h]
      exact hr₀ n' M' hM'

theorem sideRun_zero {f : Fin n → Fin N} {w : Fin N → ℝ} {v : Fin N → Vec N} {P : List (Vec n)}
    (h : InterSideRun 0 eps f w v P) :
    P = gramSchmidt eps (List.ofFn
      (open Classical in interRows f (Finset.univ.filter fun k => w k < eps) v)) := by
  classical
  obtain ⟨rows, h1, h2⟩ := h
  have : rows = interRows f (Finset.univ.filter fun k => w k < eps) v := by
    funext i
    have := h1 i
    rwa [norm_le_zero_iff, sub_eq_zero] at this
  rw [loopRun_zero h2, this, gramSchmidt]

theorem sideRun_exact (hδ : 0 ≤ δ) (f : Fin n → Fin N) (w : Fin N → ℝ) (v : Fin N → Vec N) :
    InterSideRun δ eps f w v (gramSchmidt eps (List.ofFn
      (open Classical in interRows f (Finset.univ.filter fun k => w k < eps) v))) :=
  ⟨_, fun i => by simpa using hδ, loopRun_exact hδ _ _⟩

variable {n₁ n₂ D : ℕ} {B₁ : Matrix (Fin n₁) (Fin D) ℂ} {B₂ : Matrix (Fin n₂) (Fin D) ℂ}

theorem interRun_exact {eigh : EighFn} (he : EighSpec eigh) (hr : EighReal eigh) (hδ : 0 ≤ δ)
    (h₁ : RealMat B₁) (h₂ : RealMat B₂) : InterRun δ eps B₁ B₂ (basisIntersection eigh eps B₁ B₂) := by
  classical
  by_cases h : n₁ = 0 ∨ n₂ = 0
  · exact Or.inl ⟨h, by rw [basisIntersection, if_pos h]⟩
  · refine Or.inr ⟨h, (eigh _ (interMatrix B₁ B₂)).1, (eigh _ (interMatrix B₁ B₂)).2, ?_,
      hr _ _ (interMatrix_real h₁ h₂), _, _, sideRun_exact hδ _ _ _, sideRun_exact hδ _ _ _, ?_⟩
    · have hh : (interMatrix B₁ B₂).IsHermitian := by
        rw [interMatrix_eq h₁ h₂]
        exact isHermitian_conjTranspose_mul_self _
      exact eighRun_exact hδ hh (he _ _ hh).1 (he _ _ hh).2
    · rw [basisIntersection, if_neg h]

theorem interRun_zero {e₀ : EighFn} (h₀ : EighSpec e₀) (hr₀ : EighReal e₀)
    {res : Py (List (Vec n₁) × List (Vec n₂))} (h : InterRun 0 eps B₁ B₂ res) :
    ∃ eigh : EighFn, EighSpec eigh ∧ EighReal eigh ∧ res = basisIntersection eigh eps B₁ B₂ := by
  classical
  rcases h with ⟨h, rfl⟩ | ⟨h, w, v, he, hre, P₁, P₂, hP₁, hP₂, rfl⟩
  · exact ⟨e₀, h₀, hr₀, by rw [basisIntersection, if_pos h]⟩
  · obtain ⟨ho, hev⟩ := eighRun_zero he
    obtain ⟨e, e1, e2, e3⟩ := exists_eigh_eq h₀ hr₀ ho hev hre
    refine ⟨e, e1, e2, ?_⟩
    rw [basisIntersection, if_neg h, sideRun_zero hP₁, sideRun_zero hP₂]
    simp only [e3]

end LieNN.Rounding
