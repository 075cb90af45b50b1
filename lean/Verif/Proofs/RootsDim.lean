import Verif.Proofs.RootsWeyl
import Mathlib.RingTheory.Binomial
import Mathlib.LinearAlgebra.Matrix.Block
import Mathlib.Algebra.Polynomial.BigOperators
/-! # Integrality of the Weyl dimension formula, types B and C -/
namespace LieNN.Roots

open LieNN.Spec Matrix Polynomial

variable {m : ℕ}

/-- The Weyl product of types B and C in terms of the shifted weight `l` and the Weyl vector `ρ`. -/
def weylBC (r : ℕ) (l ρ : ℕ → ℚ) : ℚ :=
  (∏ i ∈ Finset.range r, ∏ j ∈ Finset.range i, (l j ^ 2 - l i ^ 2) / (ρ j ^ 2 - ρ i ^ 2)) *
    ∏ i ∈ Finset.range r, l i / ρ i

theorem weylDim_append (l ρ : Fin m → ℚ) (a b : List (Fin m → ℚ)) :
    weylDim l (a ++ b) ρ = weylDim l a ρ * weylDim l b ρ := by
  simp [weylDim]

theorem weylDim_BC (c : ℚ) (hc : c ≠ 0) (v w : Fin m → ℚ) (l ρ : ℕ → ℚ) (hl : ∀ k, (v + w) k = l k) (hρ : ∀ k, w k = ρ k) :
    weylDim v ((pairs m (fun i j => e m j + e m i) ++ pairs m (fun i j => e m j - e m i)) ++
      (List.range m).map fun i => c • e m i) w = weylBC m l ρ := by
  rw [weylDim_append, weylDim_append, weylDim_pairs, weylDim_pairs, ← Finset.prod_mul_distrib, weylBC]
  congr 1
  · refine Finset.prod_congr rfl fun i hi => ?_
    rw [← Finset.prod_mul_distrib]
    refine Finset.prod_congr rfl fun j hj => ?_
    rw [Finset.mem_range] at hi hj
    simp only [dotProduct_sub, dotProduct_add, dot_e _ hi, dot_e _ (hj.trans hi), hl, hρ]
    rw [div_mul_div_comm]
    congr 1 <;> ring
  · rw [weylDim, List.map_map, prod_map_range']
    refine Finset.prod_congr rfl fun i hi => ?_
    rw [Finset.mem_range] at hi
    simp only [Function.comp, dotProduct_smul, dot_e _ hi, hl, hρ, smul_eq_mul]
    rw [mul_div_mul_left _ _ hc]

/-- Numerator of the Weyl product. -/
noncomputable def numBC (r : ℕ) (l : ℕ → ℚ) : ℚ :=
  (∏ i : Fin r, l i) * (vandermonde fun i : Fin r => l i ^ 2).det

theorem weylBC_eq (r : ℕ) (l ρ : ℕ → ℚ) : weylBC r l ρ = numBC r l / numBC r ρ := by
  have h : ∏ i ∈ Finset.range r, ∏ j ∈ Finset.range i, (l j ^ 2 - l i ^ 2) / (ρ j ^ 2 - ρ i ^ 2) =
      (vandermonde fun i : Fin r => l i ^ 2).det / (vandermonde fun i : Fin r => ρ i ^ 2).det := by
    have h1 : ∏ i ∈ Finset.range r, ∏ j ∈ Finset.range i, (l j ^ 2 - l i ^ 2) / (ρ j ^ 2 - ρ i ^ 2) =
        ∏ j ∈ Finset.range r, ∏ i ∈ Finset.Ico (j + 1) r, (l i ^ 2 - l j ^ 2) / (ρ i ^ 2 - ρ j ^ 2) := by
      rw [Finset.prod_comm' (t' := Finset.range r) (s' := fun j => Finset.Ico (j + 1) r)]
      · refine Finset.prod_congr rfl fun i _ => Finset.prod_congr rfl fun j _ => ?_
        rw [← neg_sub (l j ^ 2), ← neg_sub (ρ j ^ 2), neg_div_neg_eq]
      · intro i j
        simp only [Finset.mem_range, Finset.mem_Ico]
        omega
    rw [h1, SUN.prod_pairs_fin r (fun j i => (l i ^ 2 - l j ^ 2) / (ρ i ^ 2 - ρ j ^ 2)), det_vandermonde, det_vandermonde,
      ← Finset.prod_div_distrib]
    refine Finset.prod_congr rfl fun i _ => ?_
    rw [Finset.prod_div_distrib]
  rw [weylBC, h, numBC, numBC, Finset.prod_range, Finset.prod_div_distrib]
  rw [div_mul_div_comm, mul_comm, mul_comm (det _) (∏ i : Fin r, ρ i)]

/-- Monic polynomials with prescribed roots. -/
noncomputable def qpoly (a : ℕ → ℚ) (j : ℕ) : ℚ[X] := ∏ t ∈ Finset.range j, (X - C (a t))

theorem qpoly_eval (a : ℕ → ℚ) (j : ℕ) (x : ℚ) : (qpoly a j).eval x = ∏ t ∈ Finset.range j, (x - a t) := by
  simp [qpoly, eval_prod]

theorem numBC_det (r : ℕ) (l : ℕ → ℚ) (a : ℕ → ℚ) (f : ℕ → ℚ) (c : ℚ) (E : Matrix (Fin r) (Fin r) ℤ)
    (h : ∀ i j : Fin r, c * l i * ∏ t ∈ Finset.range j, (l i ^ 2 - a t) = f j * E i j) :
    c ^ r * numBC r l = (∏ j : Fin r, f j) * (E.det : ℚ) := by
  have h1 := det_eval_matrixOfPolynomials_eq_det_vandermonde (fun i : Fin r => l i ^ 2) (fun j => qpoly a j)
    (fun j => by simp [qpoly, natDegree_prod_of_monic _ _ (fun t _ => monic_X_sub_C (a t))])
    (fun j => monic_prod_of_monic _ _ fun t _ => monic_X_sub_C (a t))
  have h2 := det_mul_column (fun i : Fin r => c * l i) (Matrix.of fun i j : Fin r => (qpoly a j).eval (l i ^ 2))
  have h3 := det_mul_row (fun j : Fin r => f j) (E.map fun z : ℤ => (z : ℚ))
  have h4 : (Matrix.of fun i j : Fin r => c * l i * (Matrix.of fun i j : Fin r => (qpoly a j).eval (l i ^ 2)) i j) =
      Matrix.of fun i j : Fin r => f j * (E.map fun z : ℤ => (z : ℚ)) i j := by
    ext i j
    simp only [Matrix.of_apply, qpoly_eval, Matrix.map_apply]
    exact h i j
  have h5 : (E.map fun z : ℤ => (z : ℚ)).det = (E.det : ℚ) := (Int.cast_det E).symm
  rw [h4] at h2
  rw [← h5, ← h3, h2, numBC, h1, Finset.prod_mul_distrib]
  simp; ring

/-- Product of `n` consecutive integers. -/
theorem fall_eq (x : ℤ) (n : ℕ) : ∏ i ∈ Finset.range n, (x - i) = n.factorial * Ring.choose x n := by
  have := Ring.descPochhammer_eq_factorial_smul_choose x n
  rw [nsmul_eq_mul] at this
  rw [← this, ← Polynomial.eval_eq_smeval]
  clear this
  induction n with
  | zero => simp
  | succ n ih => rw [Finset.prod_range_succ, ih, descPochhammer_succ_eval]

theorem fall_shift (x : ℤ) (n : ℕ) : ∏ i ∈ Finset.range (n + 1), (x + 1 - i) = (x + 1) * ∏ i ∈ Finset.range n, (x - i) := by
  rw [Finset.prod_range_succ', mul_comm]
  simp only [Nat.cast_add, Nat.cast_one, Nat.cast_zero, sub_zero]
  congr 1
  exact Finset.prod_congr rfl fun i _ => by ring

/-- `l (l² - 1) … (l² - j²) = (2 j + 1)! C(l + j, 2 j + 1)`. -/
theorem odd_prod (l : ℤ) (j : ℕ) : l * ∏ t ∈ Finset.range j, (l ^ 2 - ((t : ℤ) + 1) ^ 2) =
    (2 * j + 1).factorial * Ring.choose (l + j) (2 * j + 1) := by
  rw [← fall_eq]
  induction j with
  | zero => simp
  | succ j ih =>
    rw [Finset.prod_range_succ, ← mul_assoc, ih, show 2 * (j + 1) + 1 = (2 * j + 1 + 1) + 1 by ring,
      show (l + ((j + 1 : ℕ) : ℤ)) = (l + j) + 1 by push_cast; ring, fall_shift, Finset.prod_range_succ _ (2 * j + 1)]
    push_cast; ring

/-- `∏_{t=1}^{j} (n + t)(n + 1 - t) = (2 j)! C(n + j, 2 j)`. -/
theorem even_prod (n : ℤ) (j : ℕ) : ∏ t ∈ Finset.range j, ((n + t + 1) * (n - t)) =
    ∏ i ∈ Finset.range (2 * j), (n + j - i) := by
  induction j with
  | zero => simp
  | succ j ih =>
    rw [Finset.prod_range_succ, ih, show 2 * (j + 1) = (2 * j + 1) + 1 by ring,
      show (n + ((j + 1 : ℕ) : ℤ)) = (n + j) + 1 by push_cast; ring, fall_shift, Finset.prod_range_succ _ (2 * j)]
    push_cast; ring

/-- `(2 n + 1) ∏_{t=1}^{j} (n + t)(n + 1 - t)` as a sum of two binomial coefficients. -/
theorem half_prod (n : ℤ) (j : ℕ) : (2 * n + 1) * ∏ t ∈ Finset.range j, ((n + t + 1) * (n - t)) =
    (2 * j + 1).factorial * (Ring.choose (n + j + 1) (2 * j + 1) + Ring.choose (n + j) (2 * j + 1)) := by
  rw [mul_add, ← fall_eq, ← fall_eq, fall_shift, Finset.prod_range_succ, ← even_prod]
  push_cast; ring

/-- A matrix that is unitriangular after reversal of the rows has determinant `±1`. -/
theorem det_rev {r : ℕ} (E : Matrix (Fin r) (Fin r) ℤ)
    (h0 : ∀ i j : Fin r, i < j → E i.rev j = 0) (h1 : ∀ i : Fin r, E i.rev i = 1) : E.det = 1 ∨ E.det = -1 := by
  have h2 := det_permute (Fin.revPerm : Equiv.Perm (Fin r)) E
  have h3 : (E.submatrix (Fin.revPerm : Equiv.Perm (Fin r)) id).det = 1 := by
    rw [det_of_lowerTriangular _ (by intro i j hij; exact h0 i j hij)]
    simp [h1]
  rw [h3] at h2
  rcases Int.units_eq_one_or (Equiv.Perm.sign (Fin.revPerm : Equiv.Perm (Fin r))) with h | h <;> rw [h] at h2 <;> simp at h2
  · left; exact h2.symm
  · right; omega

theorem choose_lt {a : ℕ} {k : ℕ} (h : a < k) : Ring.choose (a : ℤ) k = 0 := by
  rw [Ring.choose_natCast, Nat.choose_eq_zero_of_lt h]; rfl

theorem choose_self' (k : ℕ) : Ring.choose (k : ℤ) k = 1 := by
  rw [Ring.choose_natCast, Nat.choose_self]; rfl

/-- Type C (and the integral case of type B): the numerator. -/
theorem numBC_int (r : ℕ) (l : ℕ → ℤ) : numBC r (fun k => (l k : ℚ)) =
    (∏ j : Fin r, ((2 * (j : ℕ) + 1).factorial : ℚ)) *
      (Matrix.det (Matrix.of fun i j : Fin r => Ring.choose (l i + (j : ℕ)) (2 * (j : ℕ) + 1)) : ℤ) := by
  have := numBC_det r (fun k => (l k : ℚ)) (fun t => ((t : ℚ) + 1) ^ 2) (fun j => ((2 * j + 1).factorial : ℚ)) 1
    (Matrix.of fun i j : Fin r => Ring.choose (l i + (j : ℕ)) (2 * (j : ℕ) + 1)) (by
      intro i j
      rw [one_mul, Matrix.of_apply]
      exact_mod_cast odd_prod (l i) j)
  rw [one_pow, one_mul] at this
  exact this

theorem detC_rho (r : ℕ) : (Matrix.of fun i j : Fin r => Ring.choose (((r - i : ℕ) : ℤ) + (j : ℕ)) (2 * (j : ℕ) + 1)).det = 1 ∨
    (Matrix.of fun i j : Fin r => Ring.choose (((r - i : ℕ) : ℤ) + (j : ℕ)) (2 * (j : ℕ) + 1)).det = -1 := by
  have key : ∀ i j : Fin r, (((r - (i.rev : Fin r) : ℕ) : ℤ) + (j : ℕ)) = ((i.1 + 1 + j.1 : ℕ) : ℤ) := by
    intro i j
    have := i.2
    rw [Fin.val_rev]
    push_cast [show r - (r - (i.1 + 1)) = i.1 + 1 by omega]; ring
  refine det_rev _ (fun i j h => ?_) fun i => ?_
  · rw [Matrix.of_apply, key]
    exact choose_lt (by have : i.1 < j.1 := h; omega)
  · rw [Matrix.of_apply, key, show i.1 + 1 + i.1 = 2 * i.1 + 1 by ring]
    exact choose_self' _

/-- Half-integral case of type B: the numerator for `l = n + 1/2`. -/
theorem numBC_half (r : ℕ) (n : ℕ → ℤ) : 2 ^ r * numBC r (fun k => (n k : ℚ) + 1 / 2) =
    (∏ j : Fin r, ((2 * (j : ℕ) + 1).factorial : ℚ)) *
      (Matrix.det (Matrix.of fun i j : Fin r => Ring.choose (n i + (j : ℕ) + 1) (2 * (j : ℕ) + 1) +
        Ring.choose (n i + (j : ℕ)) (2 * (j : ℕ) + 1)) : ℤ) := by
  refine numBC_det r (fun k => (n k : ℚ) + 1 / 2) (fun t => ((t : ℚ) + 1 / 2) ^ 2) (fun j => ((2 * j + 1).factorial : ℚ)) 2
    (Matrix.of fun i j : Fin r => Ring.choose (n i + (j : ℕ) + 1) (2 * (j : ℕ) + 1) +
        Ring.choose (n i + (j : ℕ)) (2 * (j : ℕ) + 1)) ?_
  intro i j
  rw [Matrix.of_apply]
  have h := congrArg (fun z : ℤ => (z : ℚ)) (half_prod (n i) j)
  push_cast at h
  push_cast
  rw [← h]
  congr 1
  · ring
  · exact Finset.prod_congr rfl fun t _ => by ring

theorem detB_rho (r : ℕ) :
    (Matrix.of fun i j : Fin r => Ring.choose (((r - 1 - i : ℕ) : ℤ) + (j : ℕ) + 1) (2 * (j : ℕ) + 1) +
        Ring.choose (((r - 1 - i : ℕ) : ℤ) + (j : ℕ)) (2 * (j : ℕ) + 1)).det = 1 ∨
    (Matrix.of fun i j : Fin r => Ring.choose (((r - 1 - i : ℕ) : ℤ) + (j : ℕ) + 1) (2 * (j : ℕ) + 1) +
        Ring.choose (((r - 1 - i : ℕ) : ℤ) + (j : ℕ)) (2 * (j : ℕ) + 1)).det = -1 := by
  have key : ∀ i : Fin r, (r - 1 - (i.rev : Fin r) : ℕ) = i.1 := by
    intro i
    have := i.2
    rw [Fin.val_rev]; omega
  refine det_rev _ (fun i j h => ?_) fun i => ?_
  · rw [Matrix.of_apply, key]
    have h' : i.1 < j.1 := h
    rw [show ((i.1 : ℕ) : ℤ) + (j : ℕ) + 1 = ((i.1 + j.1 + 1 : ℕ) : ℤ) by push_cast; ring,
      show ((i.1 : ℕ) : ℤ) + (j : ℕ) = ((i.1 + j.1 : ℕ) : ℤ) by push_cast; ring,
      choose_lt (by omega), choose_lt (by omega)]; rfl
  · rw [Matrix.of_apply, key]
    rw [show ((i.1 : ℕ) : ℤ) + (i : ℕ) + 1 = ((2 * i.1 + 1 : ℕ) : ℤ) by push_cast; ring,
      show ((i.1 : ℕ) : ℤ) + (i : ℕ) = ((i.1 + i.1 : ℕ) : ℤ) by push_cast; ring,
      choose_self', choose_lt (by omega)]; rfl

/-- Strictly decreasing positive `l` and `ρ`: the Weyl product is positive. -/
theorem weylBC_pos (r : ℕ) (l ρ : ℕ → ℚ) (hl : ∀ i < r, 0 < l i) (hρ : ∀ i < r, 0 < ρ i)
    (hl' : ∀ i < r, ∀ j < i, l i < l j) (hρ' : ∀ i < r, ∀ j < i, ρ i < ρ j) : 0 < weylBC r l ρ := by
  refine mul_pos (Finset.prod_pos fun i hi => Finset.prod_pos fun j hj => ?_) (Finset.prod_pos fun i hi => ?_)
  · rw [Finset.mem_range] at hi hj
    refine div_pos ?_ ?_
    · have := hl i hi; have := hl' i hi j hj; nlinarith
    · have := hρ i hi; have := hρ' i hi j hj; nlinarith
  · rw [Finset.mem_range] at hi
    exact div_pos (hl i hi) (hρ i hi)

end LieNN.Roots
