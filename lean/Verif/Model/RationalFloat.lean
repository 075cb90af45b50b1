import Verif.Model.Rational
/-!
# The rounding function in machine arithmetic (`lie_nn/_src/util.py`)

Every floating point operation with an inexact result is followed by `fl`.  `np.floor`, `np.round`, `np.abs`, `np.sign`,
the conversions of integers below `2^53` and the product with a sign are exact.  `limit_denominator` works on `int64`.
-/
namespace LieNN.Rational

open Classical in
/-- `_as_approx_integer_ratio` (/repo/lie_nn/_src/util.py:27-36). -/
noncomputable def asApproxAuxF (fl : ℝ → ℝ) (x : ℝ) : Py (ℤ × ℤ) := do
  pyAssert (0 < x)
  pyAssert (x ≤ 1)
  let n : ℤ := ⌊fl (x * big)⌋
  let d : ℤ := npRound (fl (n / x))
  let d := if d = 0 then 1 else d
  return (n, d)

open Classical in
/-- `as_approx_integer_ratio` (/repo/lie_nn/_src/util.py:39-54). -/
noncomputable def asApproxF (fl : ℝ → ℝ) (x : ℝ) : Py (ℤ × ℤ) := do
  let sign : ℤ := SignType.sign x
  let x := |x|
  let x_ := if x = 0 then 1 else x
  let r1 ← asApproxAuxF fl (if x_ ≤ 1 then x_ else 1)
  let r2 ← asApproxAuxF fl (if fl (1 / x_) ≤ 1 then fl (1 / x_) else 1)
  let nd := if x ≤ 1 then r1 else (r2.2, r2.1)
  let n := if x = 0 then 0 else nd.1
  let d := if x = 0 then 1 else nd.2
  pyAssert (d > 0)
  return normalize (sign * n) d

/-- `_round_to_sqrt_rational` (/repo/lie_nn/_src/util.py:83-87). -/
noncomputable def roundSqrtAuxF (fl : ℝ → ℝ) (fuel : ℕ) (x : ℝ) (maxDen : ℤ) : Option (Py ℝ) :=
  match asApproxF fl (fl (x ^ 2)) with
  | .error e => some (.error e)
  | .ok nd =>
    match limitDenominatorW fuel nd.1 nd.2 (maxDen ^ 2 + 1) with
    | none => none
    | some r => some (.ok ((SignType.sign x : ℤ) * fl (Real.sqrt (fl (r.1 / r.2)))))

open Classical in
/-- `round_to_sqrt_rational` (/repo/lie_nn/_src/util.py:109-115) on a scalar; the sum with `1j` times the second part
is exact. -/
noncomputable def roundSqrtF (fl : ℝ → ℝ) (fuel : ℕ) (x : ℂ) (maxDen : ℤ) : Option (Py ℂ) :=
  if x.im ≠ 0 then
    match roundSqrtAuxF fl fuel x.re maxDen, roundSqrtAuxF fl fuel x.im maxDen with
    | some (.ok a), some (.ok b) => some (.ok ⟨a, b⟩)
    | some (.error e), _ => some (.error e)
    | some (.ok _), some (.error e) => some (.error e)
    | _, _ => none
  else
    match roundSqrtAuxF fl fuel x.re maxDen with
    | some (.ok a) => some (.ok ⟨a, 0⟩)
    | some (.error e) => some (.error e)
    | none => none

end LieNN.Rational
