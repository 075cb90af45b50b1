import Verif.Model.RoundingDecompose
import Verif.Proofs.RoundingChange
import Verif.Proofs.DecomposeIrr
/-!
# `unique_with_tol` and `decompose_rep_into_irreps` with rounding errors
-/
namespace LieNN

open Matrix Spec

namespace Rounding

/-! ### Clusters -/

section unique

variable {E : Type*} [NormedAddCommGroup E] [NormedSpace ℝ E] {n : ℕ}

omit [NormedSpace ℝ E] in
/-- The loop only depends on which distances are below the tolerance. -/
theorem uwtLoopD_eq {tol γ : ℝ} {a : Fin n → E} {D : Fin n → Fin n → ℝ}
    (h : ∀ i j, D i j < tol ↔ ‖a i - a j‖ < γ) (fuel : ℕ) (inv : Fin n → Option ℕ) (index : ℕ) :
    uwtLoopD tol D fuel inv index = uwtLoop γ a fuel inv index := by
  induction fuel generalizing inv index with
  | zero => rfl
  | succ fuel ih =>
    unfold uwtLoopD uwtLoop
    simp only [h, ih]
    rcases (List.finRange n).find? (fun i => decide (inv i = none)) with _ | i
    · rfl
    · congr!

/-- The exact computation is a run. -/
theorem uniqueRun_exact {δ tol : ℝ} (hδ : 0 ≤ δ) (a : Fin n → E) (fuel : ℕ) :
    UniqueRun δ tol a fuel (uniqueWithTol tol a fuel) := by
  refine ⟨fun i j => ‖a i - a j‖, fun i j => by simpa using hδ, ?_⟩
  rw [uwtLoopD_eq (a := a) (γ := tol) (fun _ _ => Iff.rfl)]
  unfold uniqueWithTol
  rcases uwtLoop tol a fuel (fun _ => none) 0 with _ | e | inv
  · rfl
  · rfl
  · simp only
    split_ifs with h0
    · rfl
    · refine ⟨_, by simp, fun c hc => ?_, rfl⟩
      simpa using hδ

variable {v a : Fin n → E} {δ tol γ : ℝ}

omit [NormedSpace ℝ E] in
theorem dist_iff (hsep : ∀ i j, v i ≠ v j → γ ≤ ‖v i - v j‖) (ha : ∀ i, ‖a i - v i‖ ≤ δ)
    (h1 : 3 * δ < tol) (h2 : tol + 3 * δ ≤ γ) {D : Fin n → Fin n → ℝ}
    (hD : ∀ i j, |D i j - ‖a i - a j‖| ≤ δ) (i j : Fin n) : D i j < tol ↔ v i = v j := by
  have hd := abs_le.1 (hD i j)
  have e : a i - a j = (v i - v j) + ((a i - v i) - (a j - v j)) := by abel
  have h3 : ‖(a i - v i) - (a j - v j)‖ ≤ 2 * δ := by
    have := norm_sub_le (a i - v i) (a j - v j)
    linarith [ha i, ha j]
  constructor
  · intro hlt
    by_contra hne
    have h4 := hsep i j hne
    have h5 : ‖v i - v j‖ ≤ ‖a i - a j‖ + 2 * δ := by
      have e' : v i - v j = (a i - a j) - ((a i - v i) - (a j - v j)) := by abel
      rw [e']
      exact (norm_sub_le _ _).trans (by linarith)
    linarith [hd.1]
  · intro heq
    have h4 : ‖a i - a j‖ ≤ 2 * δ := by
      rw [e, sub_eq_zero.2 heq, zero_add]; exact h3
    linarith [hd.2]

end unique

/-! ### Gram-Schmidt -/

theorem err_continuous₂ (eps : ℝ) (t : ℕ) :
    Continuous fun p : ℝ × ℝ => err p.1 p.2 (fun _ => eps) t := by
  induction t with
  | zero => exact continuous_const
  | succ t ih =>
    unfold err
    refine ih.max (Continuous.add (Continuous.div_const ?_ _) continuous_snd)
    fun_prop

theorem sig_continuous₂ (eps : ℝ) (t : ℕ) :
    Continuous fun p : ℝ × ℝ => sig p.1 p.2 (fun _ => eps) t := by
  have := err_continuous₂ eps t
  unfold sig
  fun_prop

theorem small₂ {eps τ : ℝ} (hτ : 0 < τ) (t : ℕ) : ∃ Δ > 0, ∀ δ₀ δ, 0 ≤ δ₀ → δ₀ ≤ Δ → 0 ≤ δ → δ ≤ Δ →
    err δ₀ δ (fun _ => eps) t ≤ τ ∧ sig δ₀ δ (fun _ => eps) t ≤ τ := by
  have z1 : err (0 : ℝ × ℝ).1 (0 : ℝ × ℝ).2 (fun _ => eps) t = 0 := err_zero _ _
  have z2 : sig (0 : ℝ × ℝ).1 (0 : ℝ × ℝ).2 (fun _ => eps) t = 0 := by
    unfold sig; rw [z1]; simp
  have e1 : ∀ᶠ p : ℝ × ℝ in nhds 0, err p.1 p.2 (fun _ => eps) t < τ :=
    (err_continuous₂ eps t).tendsto 0 |>.eventually_lt_const (by rw [z1]; exact hτ)
  have e2 : ∀ᶠ p : ℝ × ℝ in nhds 0, sig p.1 p.2 (fun _ => eps) t < τ :=
    (sig_continuous₂ eps t).tendsto 0 |>.eventually_lt_const (by rw [z2]; exact hτ)
  obtain ⟨Δ, h0, h⟩ := Metric.eventually_nhds_iff.1 (e1.and e2)
  refine ⟨Δ / 2, by positivity, fun δ₀ δ h1 h2 h3 h4 => ?_⟩
  obtain ⟨g1, g2⟩ := h (y := (δ₀, δ)) (by
    rw [Prod.dist_eq]
    simp only [Prod.fst_zero, Prod.snd_zero, dist_zero_right, Real.norm_eq_abs, abs_of_nonneg h1,
      abs_of_nonneg h3]
    exact max_lt (by linarith) (by linarith))
  exact ⟨g1.le, g2.le⟩

variable {d : ℕ}

/-- Every run of `gram_schmidt` on rows close to vectors of `W` returns rows close to an orthonormal
family of `W`, whose span is close to every one of the vectors. -/
theorem gs_run (d : ℕ) {eps β τ : ℝ} (heps : 0 < eps) (hβ : eps < β) (hτ : 0 < τ) :
    ∃ Δ > 0, ∀ δ₀ δ, 0 ≤ δ₀ → δ₀ ≤ Δ → 0 ≤ δ → δ ≤ Δ →
      ∀ (W : Submodule ℂ (Vec d)) (A B R : List (Vec d)),
        List.Forall₂ (fun a b => ‖a - b‖ ≤ δ₀) A B → (∀ b ∈ B, b ∈ W ∧ ‖b‖ ≤ 1) →
        LoopRun δ eps A [] R →
        ∃ U, OList U ∧ (∀ u ∈ U, u ∈ W) ∧ List.Forall₂ (fun q u => ‖q - u‖ ≤ τ) R U ∧
          ∀ b ∈ B, ∃ z ∈ lspan U, ‖b - z‖ ≤ β := by
  have hpos : 0 < min (min (eps / 2) 1) (min τ ((β - eps) / 2)) := by
    have : 0 < (β - eps) / 2 := by linarith
    positivity
  obtain ⟨Δ, h0, h⟩ := small₂ (eps := eps) hpos d
  refine ⟨min Δ (min (eps / 2) ((β - eps) / 2)), by
    have : 0 < (β - eps) / 2 := by linarith
    positivity, ?_⟩
  intro δ₀ δ h1 h2 h3 h4 W A B R hAB hB hrun
  obtain ⟨g1, g2⟩ := h δ₀ δ h1 (h2.trans (min_le_left _ _)) h3 (h4.trans (min_le_left _ _))
  have k1 := h4.trans ((min_le_right _ _).trans (min_le_left _ _))
  have k2 := h4.trans ((min_le_right _ _).trans (min_le_right _ _))
  have k3 := g2.trans ((min_le_left _ _).trans (min_le_left _ _))
  have k4 := g2.trans ((min_le_left _ _).trans (min_le_right _ _))
  have k5 := g1.trans ((min_le_right _ _).trans (min_le_left _ _))
  have k6 := g2.trans ((min_le_right _ _).trans (min_le_right _ _))
  have hfin : Module.finrank ℂ W ≤ d := by
    have := Submodule.finrank_le W
    simpa using this
  obtain ⟨U, u1, u2, _, u4, u5, u6⟩ := loop_close (W := W) (δ₀ := δ₀) (ρ := fun _ => eps) h1 h3
    (m := d) (M := d) (eps := eps) (by linarith) k4 (fun _ => heps) (R := R)
    (Or.inl ⟨hfin, le_rfl⟩) (A := A) (B := B) (Q := []) (U := [])
    (fun _ _ _ _ _ _ _ h _ => h.le) hAB hB ⟨by simp, List.Pairwise.nil⟩ (by simp) .nil hrun
  refine ⟨U, u1, u2, u5.imp fun q u hqu => hqu.trans ((err_mono u4).trans k5), fun b hb => ?_⟩
  obtain ⟨z, hz, hbz⟩ := u6 b hb
  exact ⟨z, hz, hbz.trans (by linarith)⟩

/-- A family of at most `d` vectors whose coordinates are controlled cannot be close to a proper subspace
of its span. -/
theorem full_of_frame {I : Finset (Fin d)} {v : Fin d → Vec d} {κ β : ℝ} (hκ0 : 0 < κ)
    (hκ : ∀ c : Vec d, κ * ‖c‖ ≤ ‖∑ k, c k • v k‖) (hβ : d * β ^ 2 < κ ^ 2)
    {W L : Submodule ℂ (Vec d)} (hW : W = Submodule.span ℂ (v '' (I : Set (Fin d)))) (hLW : L ≤ W)
    (hclose : ∀ k ∈ I, ∃ z ∈ L, ‖v k - z‖ ≤ β) : L = W := by
  classical
  apply le_antisymm hLW
  by_contra hne
  obtain ⟨x, hxW, hxL⟩ := Set.not_subset.1 hne
  set y : Vec d := x - L.starProjection x with hy
  have hyW : y ∈ W := W.sub_mem hxW (hLW (Submodule.starProjection_apply_mem _ _))
  have hy0 : y ≠ 0 := by
    intro h0
    apply hxL
    have : x = L.starProjection x := sub_eq_zero.1 h0
    show x ∈ L
    rw [this]; exact Submodule.starProjection_apply_mem _ _
  have horth : ∀ z ∈ L, inner ℂ y z = 0 := fun z hz => by
    rw [hy]
    exact Submodule.starProjection_inner_eq_zero x z hz
  have hypos : 0 < ‖y‖ := norm_pos_iff.2 hy0
  -- coordinates of `y`
  rw [hW, Submodule.mem_span_image_finset_iff_exists_fun] at hyW
  obtain ⟨c₀, hc₀⟩ := hyW
  obtain ⟨c, hc⟩ : ∃ c : Fin d → ℂ, ∑ k ∈ I, c k • v k = y := by
    refine ⟨fun k => if h : k ∈ I then c₀ ⟨k, h⟩ else 0, ?_⟩
    rw [← hc₀, ← Finset.sum_coe_sort I]
    exact Finset.sum_congr rfl fun k _ => by simp
  set c' : Vec d := WithLp.toLp 2 fun k => if k ∈ I then c k else 0 with hc'
  have hsum : ∑ k, c' k • v k = y := by
    rw [← hc]
    rw [← Finset.sum_subset (Finset.subset_univ I)]
    · refine Finset.sum_congr rfl fun k hk => ?_
      simp [hc', hk]
    · intro k _ hk
      simp [hc', hk]
  have h1 := hκ c'
  rw [hsum] at h1
  have hbound : ∀ k ∈ I, ‖inner ℂ y (v k)‖ ≤ β * ‖y‖ := by
    intro k hk
    obtain ⟨z, hz, hkz⟩ := hclose k hk
    have e : inner ℂ y (v k) = inner ℂ y (v k - z) := by rw [inner_sub_right, horth z hz, sub_zero]
    rw [e]
    refine (norm_inner_le_norm _ _).trans ?_
    rw [mul_comm]
    gcongr
  have hβ0 : 0 ≤ β ∨ I = ∅ := by
    rcases I.eq_empty_or_nonempty with h | ⟨k, hk⟩
    · exact Or.inr h
    · obtain ⟨z, _, hkz⟩ := hclose k hk
      exact Or.inl ((norm_nonneg _).trans hkz)
  have hinner : ‖y‖ ^ 2 ≤ ∑ k ∈ I, ‖c k‖ * ‖inner ℂ y (v k)‖ := by
    have e : (((‖y‖ ^ 2 : ℝ)) : ℂ) = ∑ k ∈ I, c k * inner ℂ y (v k) := by
      have : inner ℂ y y = ∑ k ∈ I, c k * inner ℂ y (v k) := by
        conv_lhs => rw [show inner ℂ y y = inner ℂ y (∑ k ∈ I, c k • v k) by rw [hc]]
        rw [inner_sum]
        exact Finset.sum_congr rfl fun k _ => inner_smul_right _ _ _
      rw [← this, inner_self_eq_norm_sq_to_K]; norm_cast
    have h2 : ‖y‖ ^ 2 = ‖(((‖y‖ ^ 2 : ℝ)) : ℂ)‖ := by
      rw [Complex.norm_real, Real.norm_of_nonneg (by positivity)]
    rw [h2, e]
    refine (norm_sum_le _ _).trans (Finset.sum_le_sum fun k _ => ?_)
    rw [norm_mul]
  have hcs : (∑ k ∈ I, ‖c k‖ * ‖inner ℂ y (v k)‖) ^ 2 ≤ ‖c'‖ ^ 2 * (d * (β * ‖y‖) ^ 2) := by
    refine (Finset.sum_mul_sq_le_sq_mul_sq _ _ _).trans ?_
    refine mul_le_mul ?_ ?_ (by positivity) (by positivity)
    · rw [EuclideanSpace.norm_sq_eq]
      rw [← Finset.sum_subset (Finset.subset_univ I) (f := fun k => ‖c' k‖ ^ 2)]
      · exact le_of_eq (Finset.sum_congr rfl fun k hk => by simp [hc', hk])
      · intro k _ hk
        simp [hc', hk]
    · calc ∑ k ∈ I, ‖inner ℂ y (v k)‖ ^ 2 ≤ ∑ _k ∈ I, (β * ‖y‖) ^ 2 :=
            Finset.sum_le_sum fun k hk => by
              have := hbound k hk
              gcongr
        _ = I.card * (β * ‖y‖) ^ 2 := by rw [Finset.sum_const, nsmul_eq_mul]
        _ ≤ d * (β * ‖y‖) ^ 2 := by
            have : (I.card : ℝ) ≤ d := by
              exact_mod_cast (Finset.card_le_univ I).trans (by simp)
            gcongr
  have h3 : (‖y‖ ^ 2) ^ 2 ≤ ‖c'‖ ^ 2 * (d * (β * ‖y‖) ^ 2) :=
    (pow_le_pow_left₀ (by positivity) hinner 2).trans hcs
  have h4 : κ ^ 2 * ‖c'‖ ^ 2 ≤ ‖y‖ ^ 2 := by
    rw [← mul_pow]
    exact pow_le_pow_left₀ (by positivity) h1 2
  have h5 : κ ^ 2 * (‖y‖ ^ 2) ^ 2 ≤ (d * β ^ 2) * (‖y‖ ^ 2) ^ 2 := by
    calc κ ^ 2 * (‖y‖ ^ 2) ^ 2 ≤ κ ^ 2 * (‖c'‖ ^ 2 * (d * (β * ‖y‖) ^ 2)) := by gcongr
      _ = (κ ^ 2 * ‖c'‖ ^ 2) * (d * β ^ 2 * ‖y‖ ^ 2) := by ring
      _ ≤ ‖y‖ ^ 2 * (d * β ^ 2 * ‖y‖ ^ 2) := by gcongr
      _ = (d * β ^ 2) * (‖y‖ ^ 2) ^ 2 := by ring
  have h6 : 0 < (‖y‖ ^ 2) ^ 2 := by positivity
  nlinarith

theorem norm_apply_le' (v : Vec d) (i : Fin d) : ‖v i‖ ≤ ‖v‖ := PiLp.norm_apply_le v i

/-- The rows of `B.T.conj() @ B` for rows close to an orthonormal family. -/
theorem gramRows_close {η : ℝ} (hη1 : η ≤ 1) (i : Fin d) {B U : List (Vec d)}
    (h : List.Forall₂ (fun q u => ‖q - u‖ ≤ η) B U) (hU : ∀ u ∈ U, ‖u‖ = 1) :
    ‖(B.map fun b => starRingEnd ℂ (b i) • b).sum - (U.map fun b => starRingEnd ℂ (b i) • b).sum‖ ≤
      U.length * (3 * η) := by
  induction h with
  | nil => simp
  | @cons q u B U hqu _ ih =>
    have hη0 : 0 ≤ η := (norm_nonneg _).trans hqu
    have hu := hU u (by simp)
    have h1 := ih fun u hu => hU u (by simp [hu])
    simp only [List.map_cons, List.sum_cons, List.length_cons]
    have e : starRingEnd ℂ (q i) • q - starRingEnd ℂ (u i) • u =
        starRingEnd ℂ ((q - u) i) • q + starRingEnd ℂ (u i) • (q - u) := by
      simp only [PiLp.sub_apply, map_sub, sub_smul, smul_sub]; abel
    have hq : ‖q‖ ≤ 2 := by
      have : q = u + (q - u) := by abel
      rw [this]; exact (norm_add_le _ _).trans (by linarith)
    have h2 : ‖starRingEnd ℂ (q i) • q - starRingEnd ℂ (u i) • u‖ ≤ 3 * η := by
      rw [e]
      refine (norm_add_le _ _).trans ?_
      rw [norm_smul, norm_smul, RCLike.norm_conj, RCLike.norm_conj]
      have g1 : ‖(q - u) i‖ * ‖q‖ ≤ η * 2 :=
        mul_le_mul ((norm_apply_le' _ _).trans hqu) hq (norm_nonneg _) hη0
      have g2 : ‖u i‖ * ‖q - u‖ ≤ 1 * η :=
        mul_le_mul ((norm_apply_le' _ _).trans hu.le) hqu (norm_nonneg _) zero_le_one
      linarith
    rw [add_sub_add_comm]
    refine (norm_add_le _ _).trans ?_
    push_cast
    linarith

/-- The rows of `U.T.conj() @ U` for an orthonormal family are the projections of the unit vectors. -/
theorem gramRows_proj {U : List (Vec d)} (hU : OList U) (i : Fin d) :
    (U.map fun b => starRingEnd ℂ (b i) • b).sum ∈ lspan U ∧
    ‖(U.map fun b => starRingEnd ℂ (b i) • b).sum‖ ≤ 1 ∧
    ∀ x ∈ lspan U, inner ℂ x (EuclideanSpace.single i (1 : ℂ)) =
      inner ℂ x (U.map fun b => starRingEnd ℂ (b i) • b).sum := by
  have ho := hU.orthonormal
  set p := (U.map fun b => starRingEnd ℂ (b i) • b).sum with hp
  have hmem : p ∈ lspan U := by
    rw [hp, gramRows_eq]
    exact Submodule.sum_mem _ fun k _ => Submodule.smul_mem _ _ (mem_lspan (List.get_mem _ _))
  have hinner : ∀ x ∈ lspan U, inner ℂ x (EuclideanSpace.single i (1 : ℂ)) = inner ℂ x p := by
    intro u hu
    rw [hp, gramRows_eq]
    induction hu using Submodule.span_induction with
    | mem x hx =>
      obtain ⟨k, hk⟩ := List.mem_iff_get.1 hx
      rw [inner_sum, Finset.sum_eq_single k]
      · rw [inner_smul_right, ← hk, inner_self_eq_norm_sq_to_K, ho.1 k, inner_single_eq]
        simp
      · intro l _ hl
        rw [inner_smul_right, ← hk, ho.2 (Ne.symm hl), mul_zero]
      · simp
    | zero => simp
    | add x y _ _ hx hy => rw [inner_add_left, inner_add_left, hx, hy]
    | smul c x _ hx => rw [inner_smul_left, inner_smul_left, hx]
  refine ⟨hmem, ?_, hinner⟩
  have h1 := hinner p hmem
  rw [inner_single_eq, inner_self_eq_norm_sq_to_K] at h1
  have h2 : ‖p‖ ^ 2 ≤ ‖p‖ := by
    have := congrArg norm h1
    rw [RCLike.norm_conj] at this
    have h3 : ‖((‖p‖ : ℂ)) ^ 2‖ = ‖p‖ ^ 2 := by
      rw [norm_pow, Complex.norm_real, norm_norm]
    have h4 : ‖p i‖ = ‖p‖ ^ 2 := this.trans h3
    rw [← h4]
    exact norm_apply_le' _ _
  by_contra hlt
  push Not at hlt
  nlinarith

/-- The first call of `gram_schmidt`. -/
theorem block_first (d : ℕ) {eps κ β η : ℝ} (heps : 0 < eps) (hκ0 : 0 < κ) (hβ1 : eps < β)
    (hβ2 : d * β ^ 2 < κ ^ 2) (hη : 0 < η) :
    ∃ Δ > 0, ∀ δ, 0 ≤ δ → δ ≤ Δ → ∀ v v' : Fin d → Vec d, (∀ k, ‖v k‖ = 1) →
      (∀ c : Vec d, κ * ‖c‖ ≤ ‖∑ k, c k • v k‖) → (∀ k, ‖v' k - v k‖ ≤ δ) →
      ∀ (inv : Fin d → ℕ) (c : ℕ) (B : List (Vec d)), LoopRun δ eps (clusterCols v' inv c) [] B →
        ∃ U, OList U ∧ lspan U = lspan (clusterCols v inv c) ∧
          List.Forall₂ (fun q u => ‖q - u‖ ≤ η) B U := by
  obtain ⟨Δ₁, hΔ₁, h1⟩ := gs_run d heps hβ1 hη
  refine ⟨Δ₁, hΔ₁, ?_⟩
  intro δ hδ hδle v v' hv hκ hvv inv c B₁ hB₁
  have hclose : List.Forall₂ (fun a b => ‖a - b‖ ≤ δ) (clusterCols v' inv c) (clusterCols v inv c) := by
    unfold clusterCols
    rw [List.forall₂_map_left_iff, List.forall₂_map_right_iff, List.forall₂_same]
    exact fun k _ => hvv k
  have hmem : ∀ b ∈ clusterCols v inv c, b ∈ lspan (clusterCols v inv c) ∧ ‖b‖ ≤ 1 := by
    intro b hb
    refine ⟨mem_lspan hb, ?_⟩
    obtain ⟨k, _, rfl⟩ := mem_clusterCols.1 hb
    exact (hv k).le
  obtain ⟨U₁, u1, u2, u3, u4⟩ := h1 δ δ hδ hδle hδ hδle _ _ _ B₁ hclose hmem hB₁
  refine ⟨U₁, u1, ?_, u3⟩
  refine full_of_frame (I := Finset.univ.filter fun k => inv k = c) hκ0 hκ hβ2 ?_ (lspan_le.2 u2) ?_
  · unfold lspan
    congr 1
    ext x
    simp [mem_clusterCols]
  · intro k hk
    exact u4 _ (mem_clusterCols.2 ⟨k, by simpa using hk, rfl⟩)

/-- The second call of `gram_schmidt`. -/
theorem block_second (d : ℕ) {eps β τ : ℝ} (heps : 0 < eps) (hβ1 : eps < β) (hβ3 : d * β ^ 2 < 1)
    (hτ : 0 < τ) :
    ∃ Δ > 0, ∀ δ, 0 ≤ δ → δ ≤ Δ → ∀ U₁ : List (Vec d), OList U₁ → ∀ rows : Fin d → Vec d,
      (∀ i, ‖rows i - (U₁.map fun b => starRingEnd ℂ (b i) • b).sum‖ ≤ Δ) →
      ∀ B, LoopRun δ eps (List.ofFn rows) [] B →
        ∃ U, OList U ∧ lspan U = lspan U₁ ∧ List.Forall₂ (fun q u => ‖q - u‖ ≤ τ) B U := by
  obtain ⟨Δ₂, hΔ₂, h2⟩ := gs_run d heps hβ1 hτ
  refine ⟨Δ₂, hΔ₂, ?_⟩
  intro δ hδ hδle U₁ u1 rows hrow B hB
  have hp1 := fun i => gramRows_proj u1 i
  generalize hp : (fun i : Fin d => (U₁.map fun b => starRingEnd ℂ (b i) • b).sum) = p at *
  have hp' : ∀ i, (U₁.map fun b => starRingEnd ℂ (b i) • b).sum = p i := fun i => congrFun hp i
  simp only [hp'] at hrow hp1
  obtain ⟨U, w1, w2, w3, w4⟩ := h2 Δ₂ δ hΔ₂.le le_rfl hδ hδle (lspan U₁) (List.ofFn rows)
    (List.ofFn p) B (forall₂_ofFn hrow) (fun b hb => by
      obtain ⟨i, rfl⟩ := (List.mem_ofFn' _ _).1 hb
      exact ⟨(hp1 i).1, (hp1 i).2.1⟩) hB
  refine ⟨U, w1, ?_, w3⟩
  exact full_of_close hβ3 (fun i => EuclideanSpace.single i (1 : ℂ)) p pars_single
    (fun i x hx => (hp1 i).2.2 x hx) (lspan_le.2 w2)
    fun i => w4 (p i) ((List.mem_ofFn' _ _).2 ⟨i, rfl⟩)

/-- **All runs of the two calls of `gram_schmidt`** on columns close to a part of a well conditioned
basis: the rows are close to an orthonormal basis of the span of that part. -/
theorem block_run (d : ℕ) {eps κ τ : ℝ} (heps : 0 < eps) (hκ0 : 0 < κ) (hκd : d * eps ^ 2 < κ ^ 2)
    (hd : d * eps ^ 2 < 1) (hτ : 0 < τ) :
    ∃ Δ > 0, ∀ δ, 0 ≤ δ → δ ≤ Δ → ∀ v v' : Fin d → Vec d, (∀ k, ‖v k‖ = 1) →
      (∀ c : Vec d, κ * ‖c‖ ≤ ‖∑ k, c k • v k‖) → (∀ k, ‖v' k - v k‖ ≤ δ) →
      ∀ (inv : Fin d → ℕ) (c : ℕ) (B : List (Vec d)), BlockRun δ eps (clusterCols v' inv c) B →
        ∃ U, OList U ∧ lspan U = lspan (clusterCols v inv c) ∧
          List.Forall₂ (fun q u => ‖q - u‖ ≤ τ) B U := by
  obtain ⟨β, hβ1, hβ2, hβ3⟩ : ∃ β, eps < β ∧ d * β ^ 2 < κ ^ 2 ∧ d * β ^ 2 < 1 := by
    have hc : Continuous fun β : ℝ => (d : ℝ) * β ^ 2 := by fun_prop
    have e1 : ∀ᶠ β in nhds eps, (d : ℝ) * β ^ 2 < κ ^ 2 := hc.tendsto eps |>.eventually_lt_const hκd
    have e2 : ∀ᶠ β in nhds eps, (d : ℝ) * β ^ 2 < 1 := hc.tendsto eps |>.eventually_lt_const hd
    obtain ⟨r, hr, h⟩ := Metric.eventually_nhds_iff.1 (e1.and e2)
    refine ⟨eps + r / 2, by linarith, h ?_⟩
    rw [Real.dist_eq, add_sub_cancel_left, abs_of_pos (by linarith)]
    linarith
  obtain ⟨Δ₂, hΔ₂, h2⟩ := block_second d heps hβ1 hβ3 hτ
  obtain ⟨η, hη0, hη1, k1⟩ : ∃ η : ℝ, 0 < η ∧ η ≤ 1 ∧ η * (2 * (d * 3 + 1)) ≤ Δ₂ := by
    refine ⟨min 1 (Δ₂ / (2 * (d * 3 + 1))), by positivity, min_le_left _ _, ?_⟩
    rw [← le_div_iff₀ (by positivity)]
    exact min_le_right _ _
  obtain ⟨Δ₁, hΔ₁, h1⟩ := block_first d heps hκ0 hβ1 hβ2 hη0
  refine ⟨min Δ₁ (Δ₂ / 2), lt_min hΔ₁ (by linarith), ?_⟩
  intro δ hδ hδle v v' hv hκ hvv inv c B hrun
  obtain ⟨B₁, hB₁, rows, hrows, hB⟩ := hrun
  obtain ⟨U₁, u1, u2, u3⟩ := h1 δ hδ (hδle.trans (min_le_left _ _)) v v' hv hκ hvv inv c B₁ hB₁
  have hlen : (U₁.length : ℝ) ≤ d := by
    rw [oList_length u1]
    have := Submodule.finrank_le (lspan U₁)
    rw [finrank_euclideanSpace_fin] at this
    exact_mod_cast this
  have hδ2 : δ ≤ Δ₂ / 2 := hδle.trans (min_le_right _ _)
  have hrow : ∀ i, ‖rows i - (U₁.map fun b => starRingEnd ℂ (b i) • b).sum‖ ≤ Δ₂ := by
    intro i
    have g1 := gramRows_close hη1 i u3 u1.norm
    have g2 := norm_sub_le_norm_sub_add_norm_sub (rows i) (B₁.map fun b => starRingEnd ℂ (b i) • b).sum
      (U₁.map fun b => starRingEnd ℂ (b i) • b).sum
    have g3 : (U₁.length : ℝ) * (3 * η) ≤ Δ₂ / 2 := by
      have k2 : (U₁.length : ℝ) * (3 * η) ≤ d * (3 * η) := by gcongr
      nlinarith
    linarith [hrows i]
  obtain ⟨U, w1, w2, w3⟩ := h2 δ hδ (by linarith) U₁ u1 rows hrow B hB
  exact ⟨U, w1, w2.trans u2, w3⟩

/-- Compressions to close families of rows. -/
theorem compress_close {η bx : ℝ} (hη1 : η ≤ 1) {X : Matrix (Fin d) (Fin d) ℂ}
    (hX : ∑ p, ∑ q, ‖X p q‖ ≤ bx) {B U : List (Vec d)} (hBU : List.Forall₂ (fun q u => ‖q - u‖ ≤ η) B U)
    (hU : ∀ u ∈ U, ‖u‖ = 1) (h : B.length = U.length) (i j : Fin B.length) :
    ‖compress X B i j - compress X U (Fin.cast h i) (Fin.cast h j)‖ ≤ bx * (3 * η) := by
  have hget : ∀ i : Fin B.length, ‖B.get i - U.get (Fin.cast h i)‖ ≤ η := by
    intro i
    exact (List.forall₂_iff_get.1 hBU).2 i i.2 (by rw [← h]; exact i.2)
  have hη0 : 0 ≤ η := (norm_nonneg _).trans (hget i)
  have hUn : ∀ i, ‖U.get i‖ = 1 := fun i => hU _ (List.get_mem _ _)
  have hBn : ‖B.get j‖ ≤ 2 := by
    have : B.get j = U.get (Fin.cast h j) + (B.get j - U.get (Fin.cast h j)) := by abel
    rw [this]
    refine (norm_add_le _ _).trans ?_
    linarith [hget j, (hUn (Fin.cast h j)).le]
  unfold compress
  rw [← Finset.sum_sub_distrib]
  refine (norm_sum_le _ _).trans ?_
  have key : ∀ p q, ‖B.get i p * X p q * starRingEnd ℂ (B.get j q) -
      U.get (Fin.cast h i) p * X p q * starRingEnd ℂ (U.get (Fin.cast h j) q)‖ ≤ ‖X p q‖ * (3 * η) := by
    intro p q
    have e : B.get i p * X p q * starRingEnd ℂ (B.get j q) -
        U.get (Fin.cast h i) p * X p q * starRingEnd ℂ (U.get (Fin.cast h j) q) =
        X p q * ((B.get i - U.get (Fin.cast h i)) p * starRingEnd ℂ (B.get j q) +
          U.get (Fin.cast h i) p * starRingEnd ℂ ((B.get j - U.get (Fin.cast h j)) q)) := by
      simp only [PiLp.sub_apply, map_sub]; ring
    rw [e, norm_mul]
    gcongr
    refine (norm_add_le _ _).trans ?_
    rw [norm_mul, norm_mul, RCLike.norm_conj, RCLike.norm_conj]
    have g1 : ‖(B.get i - U.get (Fin.cast h i)) p‖ * ‖B.get j q‖ ≤ η * 2 :=
      mul_le_mul ((norm_apply_le' _ _).trans (hget i)) ((norm_apply_le' _ _).trans hBn) (norm_nonneg _) hη0
    have g2 : ‖U.get (Fin.cast h i) p‖ * ‖(B.get j - U.get (Fin.cast h j)) q‖ ≤ 1 * η :=
      mul_le_mul ((norm_apply_le' _ _).trans (hUn _).le) ((norm_apply_le' _ _).trans (hget j)) (norm_nonneg _)
        zero_le_one
    linarith
  calc ∑ p, ‖∑ q, B.get i p * X p q * starRingEnd ℂ (B.get j q) -
        ∑ q, U.get (Fin.cast h i) p * X p q * starRingEnd ℂ (U.get (Fin.cast h j) q)‖
      ≤ ∑ p, ∑ q, ‖X p q‖ * (3 * η) := by
        refine Finset.sum_le_sum fun p _ => ?_
        rw [← Finset.sum_sub_distrib]
        exact (norm_sum_le _ _).trans (Finset.sum_le_sum fun q _ => key p q)
    _ = (∑ p, ∑ q, ‖X p q‖) * (3 * η) := by simp only [Finset.sum_mul]
    _ ≤ bx * (3 * η) := by gcongr

end Rounding

end LieNN
