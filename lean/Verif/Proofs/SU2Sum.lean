import Mathlib.Data.Nat.Factorial.BigOperators
import Mathlib.Data.Nat.Choose.Sum
import Mathlib.Algebra.BigOperators.Intervals
import Mathlib.Data.Real.Basic
import Mathlib.Tactic.LinearCombination
import Mathlib.Tactic.Ring
/-!
# The alternating sum in the Clebsch-Gordan coefficients of SU(2)

`W p x a b B` is, up to a sign and a factorial, the derivative `∂_z^b ∂_w^B` of
`z^x w^a (w - z)^p` at `z = w = 1`.
-/
namespace LieNN.SU2

open Finset

/-- Falling factorial as a real number. -/
def dF (n k : ℕ) : ℝ := (n.descFactorial k : ℝ)

theorem dF_zero (n : ℕ) : dF n 0 = 1 := by simp [dF]

/-- `n * (n-1)_k = (n - k) * n_k`. -/
theorem dF_pred (n k : ℕ) : (n : ℝ) * dF (n - 1) k = dF n (k + 1) := by
  unfold dF
  cases n with
  | zero => simp
  | succ n => rw [Nat.succ_descFactorial_succ]; push_cast; simp

theorem dF_top (n k : ℕ) : dF n (k + 1) = ((n : ℝ) - k) * dF n k := by
  unfold dF
  rw [Nat.descFactorial_succ]
  rcases le_or_gt k n with h | h
  · push_cast [Nat.cast_sub h]; ring
  · rw [Nat.descFactorial_eq_zero_iff_lt.2 h]; simp

/-- `(n+1)_k = n_k + k * n_(k-1)`. -/
theorem dF_succ (n k : ℕ) : dF (n + 1) k = dF n k + k * dF n (k - 1) := by
  cases k with
  | zero => simp [dF]
  | succ k =>
    have h1 : dF (n + 1) (k + 1) = ((n : ℝ) + 1) * dF n k := by
      have := dF_pred (n + 1) k
      push_cast at this
      rw [← this]
    rw [h1, dF_top, Nat.add_sub_cancel]; push_cast; ring

/-- Signed binomial coefficient. -/
def sgnC (p v : ℕ) : ℝ := (-1) ^ v * (p.choose v : ℝ)

theorem sgnC_step (p v : ℕ) : sgnC p v * ((p : ℝ) - v) = -(sgnC p (v + 1) * ((v : ℝ) + 1)) := by
  unfold sgnC
  have h := Nat.choose_succ_right_eq p v
  rcases le_or_gt v p with hv | hv
  · have h' : ((p.choose (v + 1) : ℕ) : ℝ) * ((v : ℝ) + 1) = (p.choose v : ℝ) * ((p : ℝ) - v) := by
      have := congrArg (Nat.cast (R := ℝ)) h
      push_cast [Nat.cast_sub hv] at this
      exact this
    rw [pow_succ]; linear_combination (-(-1) ^ v) * h'
  · rw [Nat.choose_eq_zero_of_lt hv, Nat.choose_eq_zero_of_lt (by omega)]; simp

/-- The alternating sum. -/
def W (p x a b B : ℕ) : ℝ := ∑ v ∈ range (p + 1), sgnC p v * (dF (x + v) b * dF (p + a - v) B)

/-- Telescoping: `∑ (-1)^v C(p,v) ((p - v) G(v+1) + v G(v)) = 0`. -/
theorem telescope (p : ℕ) (G : ℕ → ℝ) :
    ∑ v ∈ range (p + 1), sgnC p v * (((p : ℝ) - v) * G (v + 1) + v * G v) = 0 := by
  have h : ∀ v, sgnC p v * (((p : ℝ) - v) * G (v + 1) + v * G v)
      = (sgnC p v * v * G v) - (sgnC p (v + 1) * ((v + 1 : ℕ) : ℝ) * G (v + 1)) := by
    intro v
    have := sgnC_step p v
    push_cast
    linear_combination G (v + 1) * this
  simp only [h]
  rw [Finset.sum_range_sub']
  simp [sgnC]

/-- The recursion that is equivalent to equivariance under the lowering operator. -/
theorem W_lower (p x a b B : ℕ) :
    (a : ℝ) * W p (x + 1) (a - 1) b B =
      ((a : ℝ) + p - B) * W p x a b B + b * W p x a (b - 1) (B + 1) := by
  have key : ∀ v ∈ range (p + 1),
      (a : ℝ) * (sgnC p v * (dF (x + 1 + v) b * dF (p + (a - 1) - v) B))
      = ((a : ℝ) + p - B) * (sgnC p v * (dF (x + v) b * dF (p + a - v) B))
        + b * (sgnC p v * (dF (x + v) (b - 1) * dF (p + a - v) (B + 1)))
        - sgnC p v * (((p : ℝ) - v) * (dF (x + (v + 1)) b * dF (p + a - (v + 1)) B)
            + v * (dF (x + v) b * dF (p + a - v) B)) := by
    intro v hv
    have hv' : v ≤ p := by simpa [Nat.lt_succ_iff] using hv
    have e1 : (a : ℝ) * dF (p + (a - 1) - v) B = (a : ℝ) * dF (p + a - (v + 1)) B := by
      rcases Nat.eq_zero_or_pos a with h | h
      · simp [h]
      · rw [show p + (a - 1) - v = p + a - (v + 1) by omega]
    have e2 := dF_succ (x + v) b
    have e3 : ((p : ℝ) + a - v) * dF (p + a - (v + 1)) B = dF (p + a - v) (B + 1) := by
      have := dF_pred (p + a - v) B
      rw [Nat.cast_sub (by omega)] at this
      rw [← this, show p + a - (v + 1) = p + a - v - 1 by omega]; push_cast; ring
    have e4 : dF (p + a - v) (B + 1) = ((p : ℝ) + a - v - B) * dF (p + a - v) B := by
      rw [dF_top, Nat.cast_sub (by omega)]; push_cast; ring
    rw [show x + 1 + v = x + v + 1 by ring, show x + (v + 1) = x + v + 1 by ring]
    linear_combination (sgnC p v * dF (x + v + 1) b) * e1 +
      (sgnC p v * dF (x + v + 1) b) * e3 + (sgnC p v * dF (p + a - v) (B + 1)) * e2 +
      (sgnC p v * dF (x + v) b) * e4
  unfold W
  rw [Finset.mul_sum, Finset.sum_congr rfl key, Finset.sum_sub_distrib, Finset.sum_add_distrib,
    ← Finset.mul_sum, ← Finset.mul_sum,
    telescope p fun v => dF (x + v) b * dF (p + a - v) B, sub_zero]

/-- Exchange of the two variables. -/
theorem W_symm (p x a b B : ℕ) : W p x a b B = (-1) ^ p * W p a x B b := by
  unfold W
  rw [← Finset.sum_range_reflect, Finset.mul_sum]
  refine Finset.sum_congr rfl fun v hv => ?_
  have hv' : v ≤ p := by simpa [Nat.lt_succ_iff] using hv
  rw [show p + 1 - 1 - v = p - v by omega, show x + (p - v) = p + x - v by omega,
    show p + a - (p - v) = a + v by omega]
  unfold sgnC
  rw [Nat.choose_symm hv']
  have : (-1 : ℝ) ^ (p - v) = (-1) ^ p * (-1) ^ v := by
    have h1 : (-1 : ℝ) ^ (p - v) * (-1) ^ v = (-1) ^ p := by rw [← pow_add]; congr 1; omega
    have h2 : (-1 : ℝ) ^ v * (-1) ^ v = 1 := by rw [← mul_pow]; norm_num
    rw [← h1, mul_assoc, h2, mul_one]
  rw [this]; ring

/-- The recursion that is equivalent to equivariance under the raising operator. -/
theorem W_raise (p x a b B : ℕ) :
    (x : ℝ) * W p (x - 1) (a + 1) b B =
      ((x : ℝ) + p - b) * W p x a b B + B * W p x a (b + 1) (B - 1) := by
  have h := W_lower p a x B b
  rw [W_symm p (x - 1), W_symm p x a b B, W_symm p x a (b + 1)]
  linear_combination (-1) ^ p * h

/-- Below the range of weights the sum vanishes. -/
theorem W_eq_zero_of_low {p x a b B : ℕ} (h : p + a < B) : W p x a b B = 0 := by
  unfold W
  refine Finset.sum_eq_zero fun v _ => ?_
  have : dF (p + a - v) B = 0 := by
    unfold dF; rw [Nat.descFactorial_eq_zero_iff_lt.2 (by omega)]; simp
  rw [this]; ring

/-- Above the range of weights the sum vanishes. -/
theorem W_eq_zero_of_high {p x a b B : ℕ} (h : x + p < b) : W p x a b B = 0 := by
  rw [W_symm, W_eq_zero_of_low (by omega), mul_zero]

/-- At the highest weight there is a single term. -/
theorem W_top (p x a B : ℕ) : W p x a (x + p) B = (-1) ^ p * ((x + p).factorial * dF a B) := by
  unfold W
  rw [Finset.sum_range_succ, Finset.sum_eq_zero, zero_add]
  · unfold sgnC dF
    rw [Nat.descFactorial_self, Nat.choose_self, Nat.add_sub_cancel_left]; push_cast; ring
  · intro v hv
    have : dF (x + v) (x + p) = 0 := by
      unfold dF; rw [Nat.descFactorial_eq_zero_iff_lt.2 (by have := mem_range.1 hv; omega)]; simp
    rw [this]; ring

/-- Chu-Vandermonde: `∑_x C(p+x, p) C(q+(r-x), q) = C(p+q+r+1, p+q+1)`. -/
theorem sum_choose (p q r : ℕ) :
    ∑ x ∈ range (r + 1), (p + x).choose p * (q + (r - x)).choose q =
      (p + q + r + 1).choose (p + q + 1) := by
  induction q generalizing r with
  | zero =>
    simp only [Nat.choose_zero_right, mul_one, add_zero]
    have := Nat.sum_range_add_choose r p
    rw [show p + r + 1 = r + p + 1 by ring, ← this]
    exact Finset.sum_congr rfl fun x _ => by rw [add_comm]
  | succ q ih =>
    induction r with
    | zero => simp
    | succ r ihr =>
      have e : ∀ x ∈ range (r + 1 + 1), (p + x).choose p * (q + 1 + (r + 1 - x)).choose (q + 1)
          = (p + x).choose p * (q + (r + 1 - x)).choose q
            + (p + x).choose p * (q + (r + 1 - x)).choose (q + 1) := by
        intro x _
        rw [show q + 1 + (r + 1 - x) = q + (r + 1 - x) + 1 by ring, Nat.choose_succ_succ]; ring
      rw [Finset.sum_congr rfl e, Finset.sum_add_distrib, ih, Finset.sum_range_succ]
      have e2 : ∀ x ∈ range (r + 1), (p + x).choose p * (q + (r + 1 - x)).choose (q + 1)
          = (p + x).choose p * (q + 1 + (r - x)).choose (q + 1) := by
        intro x hx
        rw [show q + (r + 1 - x) = q + 1 + (r - x) by have := mem_range.1 hx; omega]
      rw [Finset.sum_congr rfl e2, ihr, Nat.sub_self, add_zero,
        Nat.choose_eq_zero_of_lt (Nat.lt_succ_self q), mul_zero, add_zero,
        show p + (q + 1) + (r + 1) + 1 = p + q + (r + 1) + 1 + 1 by ring,
        show p + (q + 1) + 1 = p + q + 1 + 1 by ring, Nat.choose_succ_succ (p + q + (r + 1) + 1),
        show p + (q + 1) + r + 1 = p + q + (r + 1) + 1 by ring]

end LieNN.SU2
