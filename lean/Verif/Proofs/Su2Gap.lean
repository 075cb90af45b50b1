import Mathlib.Algebra.Lie.Sl2
import Mathlib.LinearAlgebra.Eigenspace.Minpoly
import Mathlib.LinearAlgebra.Eigenspace.Triangularizable
import Mathlib.Analysis.Complex.Polynomial.Basic
import Mathlib.Data.Complex.BigOperators
/-!
# Eigenvalues of the Casimir operator of `su(2)`
-/
namespace LieNN

attribute [local instance 100] LieRing.ofAssociativeRing

variable {E : Type*} [AddCommGroup E] [Module ℂ E] [FiniteDimensional ℂ E]

/-- The brackets of `su(2)` among three operators. -/
structure Su2Ops (D : Fin 3 → Module.End ℂ E) : Prop where
  h01 : D 0 * D 1 - D 1 * D 0 = D 2
  h12 : D 1 * D 2 - D 2 * D 1 = D 0
  h20 : D 2 * D 0 - D 0 * D 2 = D 1

/-- Minus the Casimir operator. -/
def cas (D : Fin 3 → Module.End ℂ E) : Module.End ℂ E := D 0 * D 0 + D 1 * D 1 + D 2 * D 2

theorem Su2Ops.cas_comm {D : Fin 3 → Module.End ℂ E} (h : Su2Ops D) (a : Fin 3) :
    D a * cas D = cas D * D a := by
  have e01 : D 0 * D 1 = D 1 * D 0 + D 2 := by rw [← h.h01]; abel
  have e12 : D 1 * D 2 = D 2 * D 1 + D 0 := by rw [← h.h12]; abel
  have e20 : D 2 * D 0 = D 0 * D 2 + D 1 := by rw [← h.h20]; abel
  unfold cas
  fin_cases a
  · show D 0 * _ = _ * D 0
    have e1 : D 0 * (D 1 * D 1) = D 1 * D 1 * D 0 + D 1 * D 2 + D 2 * D 1 := by
      rw [← mul_assoc, e01, add_mul, mul_assoc, e01, mul_add, mul_assoc]
    have e2 : D 2 * D 2 * D 0 = D 0 * (D 2 * D 2) + D 1 * D 2 + D 2 * D 1 := by
      rw [mul_assoc, e20, mul_add, ← mul_assoc, e20, add_mul, mul_assoc]
    rw [mul_add, mul_add, add_mul, add_mul, e1, e2]; simp only [mul_assoc]; abel
  · show D 1 * _ = _ * D 1
    have e1 : D 1 * (D 2 * D 2) = D 2 * D 2 * D 1 + D 2 * D 0 + D 0 * D 2 := by
      rw [← mul_assoc, e12, add_mul, mul_assoc, e12, mul_add, mul_assoc]
    have e2 : D 0 * D 0 * D 1 = D 1 * (D 0 * D 0) + D 2 * D 0 + D 0 * D 2 := by
      rw [mul_assoc, e01, mul_add, ← mul_assoc, e01, add_mul, mul_assoc]
    rw [mul_add, mul_add, add_mul, add_mul, e1, e2]; simp only [mul_assoc]; abel
  · show D 2 * _ = _ * D 2
    have e1 : D 2 * (D 0 * D 0) = D 0 * D 0 * D 2 + D 0 * D 1 + D 1 * D 0 := by
      rw [← mul_assoc, e20, add_mul, mul_assoc, e20, mul_add, mul_assoc]
    have e2 : D 1 * D 1 * D 2 = D 2 * (D 1 * D 1) + D 0 * D 1 + D 1 * D 0 := by
      rw [mul_assoc, e12, mul_add, ← mul_assoc, e12, add_mul, mul_assoc]
    rw [mul_add, mul_add, add_mul, add_mul, e1, e2]; simp only [mul_assoc]; abel

/-- Two commuting operators have a common eigenvector in every eigenspace of the first. -/
theorem exists_joint {F G : Module.End ℂ E} (hFG : F * G = G * F) {v : E} (hv : v ≠ 0) {p : ℂ}
    (hp : F v = p • v) : ∃ w ≠ 0, F w = p • w ∧ ∃ q : ℂ, G w = q • w := by
  set K := Module.End.eigenspace F p
  have hmem : ∀ w ∈ K, G w ∈ K := by
    intro w hw
    rw [Module.End.mem_eigenspace_iff] at hw ⊢
    have := congrArg (fun T : Module.End ℂ E => T w) hFG
    simp only [Module.End.mul_apply] at this
    rw [this, hw, map_smul]
  have hvK : v ∈ K := Module.End.mem_eigenspace_iff.2 hp
  have : Nontrivial K := ⟨⟨⟨v, hvK⟩, 0, fun h => hv (congrArg Subtype.val h)⟩⟩
  obtain ⟨q, hq⟩ := Module.End.exists_eigenvalue (G.restrict hmem)
  obtain ⟨w, hw⟩ := hq.exists_hasEigenvector
  refine ⟨w, fun h => hw.2 (Subtype.ext h), Module.End.mem_eigenspace_iff.1 w.2, q, ?_⟩
  exact congrArg Subtype.val hw.apply_eq_smul

/-- The eigenvalues of the Casimir operator are `j (j + 1)` with `2 j` a natural number. -/
theorem casimir_nat {D : Fin 3 → Module.End ℂ E} (h : Su2Ops D) {v : E} (hv : v ≠ 0) {p : ℂ}
    (hp : cas D v = (-p) • v) : ∃ n : ℕ, p = n / 2 * (n / 2 + 1) := by
  have e01 : D 0 * D 1 = D 1 * D 0 + D 2 := by rw [← h.h01]; abel
  have e12 : D 1 * D 2 = D 2 * D 1 + D 0 := by rw [← h.h12]; abel
  have e20 : D 2 * D 0 = D 0 * D 2 + D 1 := by rw [← h.h20]; abel
  by_cases hD : D 2 = 0
  · have h0 : D 0 = 0 := by rw [← h.h12, hD]; simp
    have h1 : D 1 = 0 := by rw [← h.h20, hD]; simp
    have : cas D = 0 := by unfold cas; simp [h0, h1, hD]
    rw [this, LinearMap.zero_apply] at hp
    refine ⟨0, ?_⟩
    rcases smul_eq_zero.1 hp.symm with hp | hp
    · rw [neg_eq_zero] at hp; simp [hp]
    · exact absurd hp hv
  set H : Module.End ℂ E := (2 * Complex.I) • D 2 with hH
  set P : Module.End ℂ E := Complex.I • D 0 - D 1 with hP
  set Q : Module.End ℂ E := Complex.I • D 0 + D 1 with hQ
  have I2 : Complex.I * Complex.I = -1 := Complex.I_mul_I
  have t : IsSl2Triple H P Q := by
    refine ⟨?_, ?_, ?_, ?_⟩
    · exact smul_ne_zero (mul_ne_zero two_ne_zero Complex.I_ne_zero) hD
    · rw [Ring.lie_def, hP, hQ, hH]
      simp only [sub_mul, mul_add, add_mul, mul_sub, smul_mul_assoc, mul_smul_comm, e01]
      match_scalars <;> ring_nf
    · rw [Ring.lie_def, hP, hH]
      simp only [sub_mul, mul_sub, smul_mul_assoc, mul_smul_comm, e20, e12]
      match_scalars <;> ring_nf <;> simp [Complex.I_sq]
    · rw [Ring.lie_def, hQ, hH]
      simp only [add_mul, mul_add, smul_mul_assoc, mul_smul_comm, e20, e12]
      match_scalars <;> ring_nf <;> simp [Complex.I_sq]
  have hcH : cas D * H = H * cas D := by rw [hH, mul_smul_comm, smul_mul_assoc, h.cas_comm]
  have hcP : cas D * P = P * cas D := by
    rw [hP, mul_sub, sub_mul, mul_smul_comm, smul_mul_assoc, h.cas_comm, h.cas_comm]
  obtain ⟨w, hw, hwp, m, hm⟩ := exists_joint hcH hv hp
  -- raise until it vanishes
  have key : ∀ k : ℕ, H ((P ^ k) w) = (m + 2 * k) • (P ^ k) w ∧ cas D ((P ^ k) w) = (-p) • (P ^ k) w := by
    intro k
    induction k with
    | zero => simp [hm, hwp]
    | succ k ih =>
      have e1 : H * P = P * H + 2 • P := by
        have := t.lie_h_e_nsmul
        rw [Ring.lie_def] at this
        rw [← this]; abel
      rw [pow_succ', Module.End.mul_apply]
      constructor
      · rw [← Module.End.mul_apply H P, e1, LinearMap.add_apply, Module.End.mul_apply, ih.1, map_smul,
          LinearMap.smul_apply, two_nsmul]
        push_cast
        module
      · rw [← Module.End.mul_apply (cas D) P, hcP, Module.End.mul_apply, ih.2, map_smul]
  have hex : ∃ k : ℕ, (P ^ k) w = 0 := by
    by_contra! hne
    have hfin : {x | Module.End.HasEigenvalue H x}.Finite := Module.End.finite_hasEigenvalue H
    have hsub : Set.range (fun k : ℕ => m + 2 * (k : ℂ)) ⊆ {x | Module.End.HasEigenvalue H x} := by
      rintro _ ⟨k, rfl⟩
      exact Module.End.hasEigenvalue_of_hasEigenvector (x := (P ^ k) w)
        ⟨Module.End.mem_eigenspace_iff.2 (key k).1, hne k⟩
    refine Set.infinite_range_of_injective ?_ (hfin.subset hsub)
    intro a b hab
    simpa using hab
  obtain ⟨k, hk1, hk2⟩ := Nat.exists_not_and_succ_of_not_zero_of_exists (p := fun k => (P ^ k) w = 0)
    (by simpa using hw) hex
  have prim : t.HasPrimitiveVectorWith ((P ^ k) w) (m + 2 * k) :=
    ⟨hk1, (key k).1, by
      rw [pow_succ', Module.End.mul_apply] at hk2
      exact hk2⟩
  obtain ⟨n, hn⟩ := prim.exists_nat
  refine ⟨n, ?_⟩
  have hcas : (-4 : ℂ) • cas D = (4 : ℂ) • (Q * P) + H * H + (2 : ℂ) • H := by
    rw [hP, hQ, hH]
    unfold cas
    simp only [mul_sub, add_mul, smul_mul_assoc, mul_smul_comm, e01]
    match_scalars <;> ring_nf <;> simp [Complex.I_sq]
  have e := congrArg (fun T : Module.End ℂ E => T ((P ^ k) w)) hcas
  have hk3 : P ((P ^ k) w) = 0 := by
    rw [pow_succ', Module.End.mul_apply] at hk2
    exact hk2
  simp only [LinearMap.smul_apply, LinearMap.add_apply, Module.End.mul_apply, hk3, map_zero, smul_zero, zero_add,
    (key k).1, (key k).2, map_smul, smul_smul, ← add_smul, hn] at e
  have e2 := smul_left_injective ℂ hk1 e
  linear_combination (1 / 4 : ℂ) * e2

/-- So the smallest positive eigenvalue is at least `3 / 4`. -/
theorem nat_gap {n : ℕ} (h : (n : ℝ) / 2 * (n / 2 + 1) ≠ 0) : 3 / 4 ≤ (n : ℝ) / 2 * (n / 2 + 1) := by
  have hn : 1 ≤ n := by
    rcases Nat.eq_zero_or_pos n with rfl | h'
    · simp at h
    · exact h'
  have : (1 : ℝ) ≤ n := by exact_mod_cast hn
  nlinarith

/-- One copy of `su(2)`. -/
theorem casimir_gap {D : Fin 3 → Module.End ℂ E} (h : Su2Ops D) {v : E} (hv : v ≠ 0) {μ : ℝ}
    (hp : cas D v = (-(μ : ℂ)) • v) (hμ : 0 < μ) : 3 / 4 ≤ μ := by
  obtain ⟨n, hn⟩ := casimir_nat h hv hp
  have : μ = (n : ℝ) / 2 * (n / 2 + 1) := by
    apply Complex.ofReal_injective
    rw [hn]; push_cast; ring
  rw [this] at hμ ⊢
  exact nat_gap hμ.ne'

/-- Two commuting copies. -/
theorem casimir_gap₂ {D F : Fin 3 → Module.End ℂ E} (hD : Su2Ops D) (hF : Su2Ops F)
    (hDF : ∀ a b, D a * F b = F b * D a) {v : E} (hv : v ≠ 0) {μ : ℝ}
    (hp : (cas D + cas F) v = (-(μ : ℂ)) • v) (hμ : 0 < μ) : 3 / 4 ≤ μ := by
  have hc : cas D * cas F = cas F * cas D := by
    have h1 : ∀ a, D a * cas F = cas F * D a := by
      intro a
      unfold cas
      have : ∀ b, D a * (F b * F b) = F b * F b * D a := fun b => by
        rw [← mul_assoc, hDF, mul_assoc, hDF, mul_assoc]
      rw [mul_add, mul_add, add_mul, add_mul, this, this, this]
    have h2 : ∀ a, D a * D a * cas F = cas F * (D a * D a) := fun a => by
      rw [mul_assoc, h1, ← mul_assoc, h1, mul_assoc]
    conv_lhs => rw [show cas D = D 0 * D 0 + D 1 * D 1 + D 2 * D 2 from rfl]
    conv_rhs => rw [show cas D = D 0 * D 0 + D 1 * D 1 + D 2 * D 2 from rfl]
    rw [add_mul, add_mul, mul_add, mul_add, h2, h2, h2]
  obtain ⟨w, hw, hwp, q, hq⟩ := exists_joint (F := cas D + cas F) (G := cas F)
    (by rw [add_mul, mul_add, hc]) hv hp
  have hwD : cas D w = (-(μ + q)) • w := by
    rw [LinearMap.add_apply, hq] at hwp
    rw [eq_sub_of_add_eq hwp]; module
  obtain ⟨n, hn⟩ := casimir_nat hD hw hwD
  obtain ⟨k, hk⟩ := casimir_nat hF hw (p := -q) (by rw [hq, neg_neg])
  have : μ = (n : ℝ) / 2 * (n / 2 + 1) + (k : ℝ) / 2 * (k / 2 + 1) := by
    apply Complex.ofReal_injective
    push_cast
    linear_combination hn + hk
  have hn0 : 0 ≤ (n : ℝ) / 2 * (n / 2 + 1) := by positivity
  have hk0 : 0 ≤ (k : ℝ) / 2 * (k / 2 + 1) := by positivity
  by_cases h0 : (n : ℝ) / 2 * (n / 2 + 1) = 0
  · have := nat_gap (n := k) (by rw [h0, zero_add] at this; rw [← this]; exact hμ.ne')
    linarith
  · have := nat_gap h0
    linarith

end LieNN
