import Verif.Proofs.Selection
import Verif.Proofs.SO13Gap
import Verif.Proofs.IrProduct
/-!
# Trivial irreps, realification, commutant of a product
-/
namespace LieNN

open Finset Matrix Spec

/-- One-dimensional representations of a perfect Lie algebra are zero. -/
theorem one_dim_zero {n d : ℕ} (hd : d = 1) {A : Fin n → Fin n → Fin n → ℂ}
    {X : Fin n → Matrix (Fin d) (Fin d) ℂ} (h : ∀ i j, X i * X j - X j * X i = ∑ k, A i j k • X k)
    (hA : ∀ k, ∃ i j, A i j k ≠ 0 ∧ ∀ k', k' ≠ k → A i j k' = 0) (k : Fin n) : X k = 0 := by
  subst hd
  obtain ⟨i, j, h1, h2⟩ := hA k
  have := h i j
  rw [Finset.sum_eq_single k (fun k' _ hk => by rw [h2 k' hk, zero_smul]) (by simp)] at this
  have hc : X i * X j - X j * X i = 0 := by
    ext a b
    simp [Matrix.mul_apply, Fin.eq_zero a, Fin.eq_zero b, mul_comm]
  rw [hc] at this
  exact (smul_eq_zero.1 this.symm).resolve_left h1

theorem SL2C.algZ_perfect (s : ℤ) (hs : s = 1 ∨ s = -1) (k : Fin 6) :
    ∃ i j, SL2C.algZ s i j k ≠ 0 ∧ ∀ k', k' ≠ k → SL2C.algZ s i j k' = 0 := by
  rcases hs with rfl | rfl <;> revert k <;> decide +kernel

theorem SU2.algebra_perfect (k : Fin 3) :
    ∃ i j, SU2.algebra i j k ≠ 0 ∧ ∀ k', k' ≠ k → SU2.algebra i j k' = 0 := by
  fin_cases k
  · exact ⟨1, 2, by simp [SU2.algebra], by
      intro k' h; fin_cases k' <;> first | exact absurd rfl h | simp [SU2.algebra]⟩
  · exact ⟨2, 0, by simp [SU2.algebra], by
      intro k' h; fin_cases k' <;> first | exact absurd rfl h | simp [SU2.algebra]⟩
  · exact ⟨0, 1, by simp [SU2.algebra], by
      intro k' h; fin_cases k' <;> first | exact absurd rfl h | simp [SU2.algebra]⟩

theorem SU2.trivial_rep : (SU2.rep 0).isTrivial := by
  refine ⟨rfl, fun a i j => ?_, fun a => a.elim0⟩
  rw [one_dim_zero (d := 1) rfl (SU2.isRep 0) SU2.algebra_perfect a]; rfl

theorem SO3.trivial_rep : (SO3.rep 0).isTrivial := by
  refine ⟨rfl, fun a i j => ?_, fun a => a.elim0⟩
  rw [one_dim_zero (d := 1) rfl (SO3.isRep 0) SU2.algebra_perfect a]; rfl

theorem O3.trivial_rep : (O3.rep ⟨0, 1⟩).isTrivial := by
  refine ⟨rfl, SO3.trivial_rep.2.1, fun a i j => ?_⟩
  change (((1 : ℤ) : ℂ) • (1 : Matrix (Fin 1) (Fin 1) ℂ)) i j = 1
  rw [Fin.eq_zero i, Fin.eq_zero j]
  simp

theorem Z2.trivial_rep : (Z2.rep 1).isTrivial := by
  refine ⟨rfl, fun a => a.elim0, fun a i j => ?_⟩
  change (((1 : ℤ) : ℂ) • (1 : Matrix (Fin 1) (Fin 1) ℂ)) i j = 1
  rw [Fin.eq_zero i, Fin.eq_zero j]
  simp

theorem SL2C.algebra_perfect (k : Fin 6) :
    ∃ i j, SL2C.algebra i j k ≠ 0 ∧ ∀ k', k' ≠ k → SL2C.algebra i j k' = 0 := by
  obtain ⟨i, j, h1, h2⟩ := SL2C.algZ_perfect 1 (Or.inl rfl) k
  exact ⟨i, j, Int.cast_ne_zero.2 h1, fun k' h => Int.cast_eq_zero.2 (h2 k' h)⟩

theorem SO13.algebra_perfect (k : Fin 6) :
    ∃ i j, SO13.algebra i j k ≠ 0 ∧ ∀ k', k' ≠ k → SO13.algebra i j k' = 0 := by
  obtain ⟨i, j, h1, h2⟩ := SL2C.algZ_perfect (-1) (Or.inr rfl) k
  exact ⟨i, j, Int.cast_ne_zero.2 h1, fun k' h => Int.cast_eq_zero.2 (h2 k' h)⟩

theorem SL2C.trivial_rep : (SL2C.rep ⟨0, 0⟩).isTrivial := by
  refine ⟨rfl, fun a i j => ?_, fun a => a.elim0⟩
  rw [one_dim_zero (d := (⟨0, 0⟩ : SL2C).dim) rfl (SL2C.isRep ⟨0, 0⟩) SL2C.algebra_perfect a]; rfl

/-! ### Realification -/

namespace SU2Real

theorem realify_prod {d : ℕ} (M : Matrix (Fin d) (Fin d) ℂ) (i j : Fin d) (a b : Fin 2) :
    realify M (finProdFinEquiv (i, a)) (finProdFinEquiv (j, b)) =
      if a = 0 then if b = 0 then (M i j).re else -(M i j).im
      else if b = 0 then (M i j).im else (M i j).re := by
  unfold realify
  simp only [divNat_prod, modNat_prod]

theorem realify_mul {d : ℕ} (M N : Matrix (Fin d) (Fin d) ℂ) :
    realify (M * N) = realify M * realify N := by
  ext r c
  obtain ⟨⟨i, a⟩, rfl⟩ := finProdFinEquiv.surjective r
  obtain ⟨⟨j, b⟩, rfl⟩ := finProdFinEquiv.surjective c
  rw [realify_prod, Matrix.mul_apply, Matrix.mul_apply, ← Equiv.sum_comp finProdFinEquiv, Fintype.sum_prod_type]
  simp only [realify_prod, Fin.sum_univ_two, Complex.re_sum, Complex.im_sum, Complex.mul_re, Complex.mul_im]
  fin_cases a <;> fin_cases b <;> simp [← Finset.sum_neg_distrib, ← Finset.sum_sub_distrib] <;>
    exact Finset.sum_congr rfl fun _ _ => by ring

theorem realify_sub {d : ℕ} (M N : Matrix (Fin d) (Fin d) ℂ) :
    realify (M - N) = realify M - realify N := by
  ext r c
  obtain ⟨⟨i, a⟩, rfl⟩ := finProdFinEquiv.surjective r
  obtain ⟨⟨j, b⟩, rfl⟩ := finProdFinEquiv.surjective c
  simp only [Matrix.sub_apply, realify_prod]
  fin_cases a <;> fin_cases b <;> simp
  ring

theorem realify_neg {d : ℕ} (M : Matrix (Fin d) (Fin d) ℂ) : realify (-M) = -realify M := by
  ext r c
  obtain ⟨⟨i, a⟩, rfl⟩ := finProdFinEquiv.surjective r
  obtain ⟨⟨j, b⟩, rfl⟩ := finProdFinEquiv.surjective c
  simp only [Matrix.neg_apply, realify_prod]
  fin_cases a <;> fin_cases b <;> simp

theorem realify_star {d : ℕ} (M : Matrix (Fin d) (Fin d) ℂ) : realify Mᴴ = (realify M)ᵀ := by
  ext r c
  obtain ⟨⟨i, a⟩, rfl⟩ := finProdFinEquiv.surjective r
  obtain ⟨⟨j, b⟩, rfl⟩ := finProdFinEquiv.surjective c
  simp only [Matrix.conjTranspose_apply, Matrix.transpose_apply, realify_prod]
  fin_cases a <;> fin_cases b <;> simp

theorem trunc_nat {q : ℚ} {n : ℕ} (h : q = n) : SU2.trunc q = n := by
  subst h
  unfold SU2.trunc
  rw [if_pos (Nat.cast_nonneg n)]
  simp

theorem su2_make (n : ℕ) : SU2.make n = .ok n := by
  unfold SU2.make
  rw [pyAssert_of (by omega)]
  rfl

/-- On an integer. -/
theorem gens_even {j : ℚ} {l : ℕ} (h : j = l) : ∃ X, SO3.gens l = .ok X ∧ gens j = .ok ⟨SO3.dim l, X⟩ ∧
    dim j = SO3.dim l := by
  refine ⟨_, SO3.gens_eq l, ?_, ?_⟩
  · unfold gens
    rw [trunc_nat (n := 2 * l) (by rw [h]; push_cast; ring), su2_make, SU2.ok_bind',
      if_pos (isInteger_iff.2 ⟨l, by rw [h]; rfl⟩), trunc_nat h, Int.toNat_natCast, SO3.gens_eq]
    rfl
  · unfold dim
    rw [if_pos (isInteger_iff.2 ⟨l, by rw [h]; rfl⟩), trunc_nat (n := 2 * l + 1) (by rw [h]; push_cast; ring)]
    rfl

/-- On a half integer. -/
theorem gens_odd {j : ℚ} {l : ℕ} (h : 2 * j = ((2 * l + 1 : ℕ) : ℚ)) :
    gens j = .ok ⟨(2 * l + 1 + 1) * 2, fun a => realify (SU2.gens (2 * l + 1) a)⟩ ∧
    dim j = (2 * l + 1 + 1) * 2 := by
  have hn : ¬ isInteger j := by
    rw [isInteger_iff]
    rintro ⟨n, rfl⟩
    have : 2 * n = ((2 * l + 1 : ℕ) : ℤ) := by exact_mod_cast h
    omega
  constructor
  · unfold gens
    rw [trunc_nat h, su2_make, SU2.ok_bind', if_neg hn]
    rfl
  · unfold dim
    rw [if_neg hn, trunc_nat (n := 2 * l + 1 + 1) (by rw [h]; push_cast; ring), Int.toNat_natCast]
    ring

theorem mul_eq {j₁ j₂ : ℚ} {n₁ n₂ : ℕ} (h₁ : 2 * j₁ = n₁) (h₂ : 2 * j₂ = n₂) :
    mul j₁ j₂ = .ok ((SU2.mulL n₁ n₂).map fun k : ℕ => (k : ℚ) / 2) := by
  have e₁ : j₁ = n₁ / 2 := by linarith
  have e₂ : j₂ = n₂ / 2 := by linarith
  have ha : |j₁ - j₂| = ((max n₁ n₂ - min n₁ n₂ : ℕ) : ℚ) / 2 := by
    rw [e₁, e₂]
    rcases le_total n₁ n₂ with h | h
    · have : (n₁ : ℚ) ≤ n₂ := by exact_mod_cast h
      rw [max_eq_right h, min_eq_left h, Nat.cast_sub h, abs_of_nonpos (by linarith)]; ring
    · have : (n₂ : ℚ) ≤ n₁ := by exact_mod_cast h
      rw [max_eq_left h, min_eq_right h, Nat.cast_sub h, abs_of_nonneg (by linarith)]; ring
  have hc : j₁ + j₂ + 1 - |j₁ - j₂| = ((min n₁ n₂ + 1 : ℕ) : ℚ) := by
    rw [ha, e₁, e₂]
    rcases le_total n₁ n₂ with h | h
    · rw [max_eq_right h, min_eq_left h, Nat.cast_sub h]; push_cast; ring
    · rw [max_eq_left h, min_eq_right h, Nat.cast_sub h]; push_cast; ring
  unfold mul arange SU2.mulL
  rw [hc, Int.ceil_natCast, Int.toNat_natCast, List.mapM_map, List.map_map]
  refine LieNN.mapM_ok fun t ht => ?_
  simp only [Function.comp]
  rw [ha]
  rw [make_of (n := max n₁ n₂ - min n₁ n₂ + 2 * t) (by push_cast; ring)]
  congr 1
  push_cast
  ring

end SU2Real

/-! ### Commutant of a product -/

theorem commutant_kron {a b : ℕ} {ι κ : Type} (X : ι → Matrix (Fin a) (Fin a) ℂ) (Y : κ → Matrix (Fin b) (Fin b) ℂ)
    (hX : ∀ S, (∀ i, X i * S = S * X i) → ∃ c : ℂ, S = c • 1)
    (hY : ∀ S, (∀ i, Y i * S = S * Y i) → ∃ c : ℂ, S = c • 1)
    {S : Matrix (Fin (a * b)) (Fin (a * b)) ℂ} (h1 : ∀ i, kron (X i) 1 * S = S * kron (X i) 1)
    (h2 : ∀ i, kron 1 (Y i) * S = S * kron 1 (Y i)) : ∃ c : ℂ, S = c • 1 := by
  rcases Nat.eq_zero_or_pos a with rfl | ha
  · refine ⟨0, ?_⟩
    ext r; exact absurd r.2 (by simp)
  have e1 : ∀ (k l : Fin b), ∃ c : ℂ, Matrix.of (fun i j : Fin a => S (finProdFinEquiv (i, k)) (finProdFinEquiv (j, l))) = c • 1 := by
    intro k l
    refine hX _ fun i => ?_
    ext r c
    have := congrFun (congrFun (h1 i) (finProdFinEquiv (r, k))) (finProdFinEquiv (c, l))
    rw [Matrix.mul_apply, Matrix.mul_apply, sum_prod_fin, sum_prod_fin] at this
    simp only [kron_prod, Matrix.one_apply, mul_ite, mul_one, mul_zero, ite_mul, zero_mul,
        Finset.sum_ite_eq, Finset.sum_ite_eq', Finset.mem_univ, if_true] at this
    rw [Matrix.mul_apply, Matrix.mul_apply]
    simpa only [Matrix.of_apply] using this
  choose c hc using e1
  have hc' : ∀ i k j l, S (finProdFinEquiv (i, k)) (finProdFinEquiv (j, l)) = if i = j then c k l else 0 := by
    intro i k j l
    have := congrFun (congrFun (hc k l) i) j
    simpa only [Matrix.of_apply, Matrix.smul_apply, Matrix.one_apply, smul_eq_mul, mul_ite, mul_one, mul_zero] using this
  obtain ⟨z, hz⟩ := hY (Matrix.of fun k l => c k l) (fun i => by
    ext r s
    have := congrFun (congrFun (h2 i) (finProdFinEquiv (⟨0, ha⟩, r))) (finProdFinEquiv (⟨0, ha⟩, s))
    rw [Matrix.mul_apply, Matrix.mul_apply, sum_prod_fin, sum_prod_fin] at this
    simp only [kron_prod, hc', Matrix.one_apply, mul_ite, mul_one, mul_zero, ite_mul, zero_mul, one_mul,
        Finset.sum_ite_irrel, Finset.sum_const_zero,
        Finset.sum_ite_eq, Finset.sum_ite_eq', Finset.mem_univ, if_true] at this
    rw [Matrix.mul_apply, Matrix.mul_apply]
    simpa only [Matrix.of_apply] using this)
  refine ⟨z, ?_⟩
  ext r s
  obtain ⟨⟨i, k⟩, rfl⟩ := finProdFinEquiv.surjective r
  obtain ⟨⟨j, l⟩, rfl⟩ := finProdFinEquiv.surjective s
  have e : c k l = (z • (1 : Matrix (Fin b) (Fin b) ℂ)) k l := congrFun (congrFun hz k) l
  rw [hc', e]
  simp only [Matrix.smul_apply, Matrix.one_apply, smul_eq_mul, mul_ite, mul_one, mul_zero, finProdFinEquiv.injective.eq_iff, Prod.mk.injEq]
  by_cases h : i = j <;> by_cases h' : k = l <;> simp [h, h']

end LieNN
