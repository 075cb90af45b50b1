import Verif.Model.Algebra
import Verif.Spec.Rep
import Verif.Proofs.RepOps
/-!
# `infer_algebra_from_generators`
-/
namespace LieNN

open Matrix Spec

variable {n d : ℕ} {X : Fin n → Matrix (Fin d) (Fin d) ℂ} {P : Matrix (Fin (d * d)) (Fin n) ℂ}

theorem vecMul_flatGens (v : Fin n → ℂ) (i j : Fin d) :
    (v ᵥ* flatGens X) (finProdFinEquiv (i, j)) = (∑ k, v k • X k) i j := by
  have h := finProdFinEquiv.symm_apply_apply (i, j)
  have h1 : (finProdFinEquiv (i, j)).divNat = i := congrArg Prod.fst h
  have h2 : (finProdFinEquiv (i, j)).modNat = j := congrArg Prod.snd h
  simp [vecMul, dotProduct, flatGens, h1, h2, Matrix.sum_apply]

theorem flatGens_right_inv (hX : LinearIndependent ℂ X) (hP : IsPinv (flatGens X) P) :
    flatGens X * P = 1 := by
  let N : Matrix (Fin n) (Fin n) ℂ := flatGens X * P - 1
  have h0 : N * flatGens X = 0 := by
    show (flatGens X * P - 1) * flatGens X = 0
    rw [Matrix.sub_mul, hP.qpq, Matrix.one_mul, sub_self]
  have h1 : N = 0 := by
    ext i k
    have hrow : N i ᵥ* flatGens X = 0 := by
      funext q
      have := congrFun (congrFun h0 i) q
      exact this
    have hz : ∑ k, N i k • X k = 0 := by
      ext a b
      rw [← vecMul_flatGens, hrow]
      rfl
    exact Fintype.linearIndependent_iff.1 hX _ hz k
  exact sub_eq_zero.1 h1

/-- If the commutator is a combination of the generators, the coefficients computed are its
coefficients. -/
theorem pinv_coeff (hX : LinearIndependent ℂ X) (hP : IsPinv (flatGens X) P)
    {M : Matrix (Fin d) (Fin d) ℂ} {c : Fin n → ℂ} (hM : M = ∑ k, c k • X k) (k : Fin n) :
    ∑ p : Fin (d * d), M p.divNat p.modNat * P p k = c k := by
  have hM' : (fun p : Fin (d * d) => M p.divNat p.modNat) = c ᵥ* flatGens X := by
    funext p
    obtain ⟨⟨i, j⟩, rfl⟩ := finProdFinEquiv.surjective p
    have h := finProdFinEquiv.symm_apply_apply (i, j)
    have h1 : (finProdFinEquiv (i, j)).divNat = i := congrArg Prod.fst h
    have h2 : (finProdFinEquiv (i, j)).modNat = j := congrArg Prod.snd h
    rw [vecMul_flatGens, h1, h2, hM]
  have : (fun p : Fin (d * d) => M p.divNat p.modNat) ᵥ* P = c := by
    rw [hM', vecMul_vecMul, flatGens_right_inv hX hP, vecMul_one]
  exact congrFun this k

theorem inferredAlgebra_eq (hX : LinearIndependent ℂ X) (hP : IsPinv (flatGens X) P)
    {c : Fin n → Fin n → Fin n → ℂ} (hc : ∀ i j, X i * X j - X j * X i = ∑ k, c i j k • X k)
    (i j k : Fin n) : inferredAlgebra X P i j k = (((c i j k).re : ℝ) : ℂ) := by
  unfold inferredAlgebra
  have : commutator (X i) (X j) = ∑ k, c i j k • X k := hc i j
  rw [pinv_coeff hX hP this]

theorem isClose_self {a r : ℝ} (ha : 0 ≤ a) (hr : 0 ≤ r) {x y : ℂ} (h : x = y) : IsClose a r x y := by
  unfold IsClose
  rw [h, sub_self, norm_zero]
  positivity

end LieNN
