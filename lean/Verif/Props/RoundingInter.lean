import Verif.Proofs.RoundingInter
import Verif.Props.BasisInter
/-!
# C109: `basis_intersection` with rounding errors
-/
namespace LieNN.Props

open LieNN.Spec Matrix

variable {n₁ n₂ D : ℕ} {δ eps γ K τ : ℝ}

/-- C109, consistency: on real bases the runs without errors are exactly the results of the exact model, for
the possible answers of an exact `eigh`; they are also runs for every larger error bound. -/
theorem C109_exact (B₁ : Matrix (Fin n₁) (Fin D) ℂ) (B₂ : Matrix (Fin n₂) (Fin D) ℂ) (h₁ : RealMat B₁)
    (h₂ : RealMat B₂) (res : Py (List (Vec n₁) × List (Vec n₂))) :
    (InterRun 0 eps B₁ B₂ res ↔ ∃ eigh : EighFn, EighSpec eigh ∧ EighReal eigh ∧
      res = basisIntersection eigh eps B₁ B₂) ∧
    ∀ eigh : EighFn, EighSpec eigh → EighReal eigh → ∀ δ, 0 ≤ δ →
      InterRun δ eps B₁ B₂ (basisIntersection eigh eps B₁ B₂) := by
  refine ⟨⟨fun h => ?_, ?_⟩, fun eigh he hr δ hδ => Rounding.interRun_exact he hr hδ h₁ h₂⟩
  · obtain ⟨e₀, h₀, hr₀⟩ := exists_eigh_real
    exact Rounding.interRun_zero h₀ hr₀ h
  · rintro ⟨eigh, he, hr, rfl⟩
    exact Rounding.interRun_exact he hr le_rfl h₁ h₂

/-- C109: for sizes, a tolerance, a gap in the spectrum of `p`, a bound on the coefficients and a wanted
accuracy there is an error bound below which every run, on all real bases of these sizes with that gap and
that bound, returns two lists of the same lengths as, and within the accuracy of, orthonormal bases of the
coefficients of the intersection on the first and on the second basis; with these coefficients the two bases
give spanning sets of the intersection of the row spaces. -/
theorem C109_basis_intersection (hn₁ : n₁ ≠ 0) (hn₂ : n₂ ≠ 0) (heps : 0 < eps) (hγ : eps < γ)
    (hs₁ : n₁ * (eps * (1 + K ^ 2)) ^ 2 < 1) (hs₂ : n₂ * (eps * (1 + K ^ 2)) ^ 2 < 1) (hτ : 0 < τ) :
    ∃ Δ > 0, ∀ δ, 0 ≤ δ → δ ≤ Δ → ∀ (D : ℕ) (B₁ : Matrix (Fin n₁) (Fin D) ℂ)
      (B₂ : Matrix (Fin n₂) (Fin D) ℂ), RealMat B₁ → RealMat B₂ →
      (∀ (μ : ℝ) (x : Fin (n₁ + n₂) → ℂ), x ≠ 0 → interMatrix B₁ B₂ *ᵥ x = (μ : ℂ) • x →
        0 < μ → γ ≤ μ) →
      CoeffBound K B₁ B₂ → CoeffBound K B₂ B₁ → ∀ res, InterRun δ eps B₁ B₂ res →
      ∃ P₁ P₂, res = .ok (P₁, P₂) ∧ ∃ U₁ U₂, OrthonormalList U₁ ∧ OrthonormalList U₂ ∧
        (∀ x : Vec n₁, x ∈ lspan U₁ ↔ ∃ y : Fin n₂ → ℂ, x.ofLp ᵥ* B₁ = y ᵥ* B₂) ∧
        (∀ y : Vec n₂, y ∈ lspan U₂ ↔ ∃ x : Fin n₁ → ℂ, y.ofLp ᵥ* B₂ = x ᵥ* B₁) ∧
        Submodule.span ℂ {r | ∃ x ∈ U₁, r = x.ofLp ᵥ* B₁} = rowSpace B₁ ⊓ rowSpace B₂ ∧
        Submodule.span ℂ {r | ∃ y ∈ U₂, r = y.ofLp ᵥ* B₂} = rowSpace B₁ ⊓ rowSpace B₂ ∧
        List.Forall₂ (fun q u => ‖q - u‖ ≤ τ) P₁ U₁ ∧ List.Forall₂ (fun q u => ‖q - u‖ ≤ τ) P₂ U₂ := by
  obtain ⟨Δ₁, hΔ₁, g₁⟩ := Rounding.side_close n₁ heps hγ (by positivity : (0 : ℝ) ≤ 1 + K ^ 2) hs₁ hτ
  obtain ⟨Δ₂, hΔ₂, g₂⟩ := Rounding.side_close n₂ heps hγ (by positivity : (0 : ℝ) ≤ 1 + K ^ 2) hs₂ hτ
  refine ⟨min Δ₁ Δ₂, lt_min hΔ₁ hΔ₂, ?_⟩
  intro δ hδ hδle D B₁ B₂ h₁ h₂ hgap hb₁ hb₂ res hres
  rcases hres with ⟨h, -⟩ | ⟨-, w, v, he, hre, P₁, P₂, hP₁, hP₂, rfl⟩
  · omega
  rw [interMatrix_eq h₁ h₂] at he hgap
  obtain ⟨U₁, a1, a2, a3⟩ := g₁ δ hδ (hδle.trans (min_le_left _ _)) _ _ (stack B₁ B₂)ᴴ (Fin.castAdd n₂)
    (Fin.castAdd_injective n₁ n₂) hgap (bound_left h₁ h₂ hb₁) w v he hre P₁ hP₁
  obtain ⟨U₂, b1, b2, b3⟩ := g₂ δ hδ (hδle.trans (min_le_right _ _)) _ _ (stack B₁ B₂)ᴴ (Fin.natAdd n₁)
    (Fin.natAdd_injective n₂ n₁) hgap (bound_right h₁ h₂ hb₂) w v he hre P₂ hP₂
  rw [map_kernel_left h₁ h₂] at a2
  rw [map_kernel_right h₁ h₂] at b2
  have c₁ := fun x : Vec n₁ => (Submodule.ext_iff.1 a2 x)
  have c₂ := fun x : Vec n₂ => (Submodule.ext_iff.1 b2 x)
  exact ⟨P₁, P₂, rfl, U₁, U₂, a1.orthonormal, b1.orthonormal, c₁, c₂, rows_of_coeff c₁,
    by rw [inf_comm]; exact rows_of_coeff c₂, a3, b3⟩

/-- C109: a basis without rows raises `ValueError`, whatever the errors, and every run on two other bases
returns. -/
theorem C109_empty (B₁ : Matrix (Fin n₁) (Fin D) ℂ) (B₂ : Matrix (Fin n₂) (Fin D) ℂ)
    {res : Py (List (Vec n₁) × List (Vec n₂))} (h : InterRun δ eps B₁ B₂ res) :
    res = .error .valueError ↔ n₁ = 0 ∨ n₂ = 0 := by
  rcases h with ⟨h, rfl⟩ | ⟨h, w, v, -, -, P₁, P₂, -, -, rfl⟩
  · simpa using h
  · simpa using h

/-- Non-vacuity: two equal bases with one row meet the hypotheses with the default tolerance `1e-5` and the
gap `2`; the exact computation is a run, and every run with small enough errors returns one coefficient in
each list. -/
example : ∃ Δ > 0, ∀ δ, 0 ≤ δ → δ ≤ Δ → let B : Matrix (Fin 1) (Fin 1) ℂ := !![1]
    (∃ res, InterRun δ (1 / 10 ^ 5) B B res) ∧
    ∀ res, InterRun δ (1 / 10 ^ 5) B B res → ∃ q₁ q₂, res = .ok ([q₁], [q₂]) := by
  obtain ⟨Δ, h0, h⟩ := C109_basis_intersection (n₁ := 1) (n₂ := 1) (eps := 1 / 10 ^ 5) (γ := 2) (K := 1)
    one_ne_zero one_ne_zero (by norm_num) (by norm_num) (by norm_num) (by norm_num) one_pos
  refine ⟨Δ, h0, fun δ hδ hδle => ?_⟩
  intro B
  have hB : RealMat B := fun i j => by fin_cases i; fin_cases j; simp [B]
  obtain ⟨e, he, hr⟩ := exists_eigh_real
  refine ⟨⟨_, (C109_exact B B hB hB (.error .valueError)).2 e he hr δ hδ⟩, fun res hres => ?_⟩
  obtain ⟨P₁, P₂, rfl, U₁, U₂, u1, u2, c1, c2, -, -, f1, f2⟩ :=
    h δ hδ hδle 1 B B hB hB oneRow_gap.1 oneRow_gap.2 oneRow_gap.2 res hres
  have key : ∀ U : List (Vec 1), OrthonormalList U → (∀ x : Vec 1, x ∈ lspan U) → U.length = 1 := by
    intro U hU hx
    have h1 : lspan U = ⊤ := Submodule.eq_top_iff'.2 hx
    have h2 := finrank_span_eq_card hU.linearIndependent
    have h3 : Submodule.span ℂ (Set.range fun i : Fin U.length => U.get i) = lspan U :=
      (lspan_eq_range U).symm
    rw [h3, h1, finrank_top] at h2
    simpa using h2.symm
  have l1 := (key U₁ u1 fun x => (c1 x).2 ⟨x.ofLp, rfl⟩).symm.trans f1.length_eq.symm
  have l2 := (key U₂ u2 fun x => (c2 x).2 ⟨x.ofLp, rfl⟩).symm.trans f2.length_eq.symm
  obtain ⟨q₁, rfl⟩ := List.length_eq_one_iff.1 l1.symm
  obtain ⟨q₂, rfl⟩ := List.length_eq_one_iff.1 l2.symm
  exact ⟨q₁, q₂, rfl⟩

end LieNN.Props
