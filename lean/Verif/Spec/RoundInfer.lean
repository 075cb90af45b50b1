import Mathlib.Analysis.SpecialFunctions.Pow.Real
/-!
# Error bounds for `infer_algebra_from_generators`

`M` bounds the entries of the generators and `K` those of the pseudo-inverse.
-/
namespace LieNN.Spec

/-- Bound of the error of a scalar product of `m` terms, computed with relative error `u` per operation, of
factors bounded by `α` and `β` and known up to `x` and `y`. -/
noncomputable def dotErr (u : ℝ) (m : ℕ) (α x β y : ℝ) : ℝ :=
  3 / 2 * ((1 + u) ^ (2 * m) - 1) * (m * ((α + x) * (β + y))) + m * (x * (β + y) + α * y)

/-- Bound of the error of an entry of a commutator. -/
noncomputable def commErr (u : ℝ) (d : ℕ) (M : ℝ) : ℝ :=
  u * (2 * (d * (M * M) + dotErr u d M 0 M 0)) + 2 * dotErr u d M 0 M 0

/-- Bound of the error of a structure constant. -/
noncomputable def coeffErr (u κ : ℝ) (d : ℕ) (M K : ℝ) : ℝ :=
  dotErr u (d * d) (2 * (d * (M * M))) (commErr u d M) K κ

/-- Bound of a structure constant. -/
noncomputable def coeffMax (d : ℕ) (M K : ℝ) : ℝ := (d * d : ℕ) * (2 * (d * (M * M)) * K)

/-- Bound of the difference of the two sides compared by `check_algebra_vs_generators`. -/
noncomputable def checkErr (u κ : ℝ) (n d : ℕ) (M K : ℝ) : ℝ :=
  commErr u d M + dotErr u n (coeffMax d M K) (coeffErr u κ d M K) M 0

end LieNN.Spec
