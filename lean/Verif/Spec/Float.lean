import Mathlib.Data.Real.Basic
import Mathlib.Order.Monotone.Basic
/-!
# Rounding to floating point numbers

`fl t` is the floating point number to which the exact result `t` of one operation is rounded.
-/
namespace LieNN.Spec

/-- What is used of IEEE 754 double precision (round to nearest, gradual underflow; overflow is left out). -/
structure RoundNearest (fl : ℝ → ℝ) : Prop where
  /-- half a unit in the last place, or the spacing of the subnormal numbers -/
  err : ∀ t, |fl t - t| ≤ |t| / 2 ^ 53 + 1 / 2 ^ 1074
  /-- rounding preserves the order -/
  mono : Monotone fl
  /-- zero is a floating point number -/
  zero : fl 0 = 0
  /-- one is a floating point number -/
  one : fl 1 = 1

end LieNN.Spec
