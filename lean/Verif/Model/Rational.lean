import Verif.Model.Basic
import Mathlib.Analysis.SpecialFunctions.Pow.Real
import Mathlib.Data.Int.GCD
import Mathlib.Algebra.Order.Floor.Ring

/-!
# Model of the rational-approximation functions of `lie_nn/_src/util.py`

`int64` arrays are modelled by unbounded integers (`ℤ`), `float64` by `ℝ`; numpy's element-wise
semantics by functions on one element, except for `limit_denominator`, whose loop couples the
elements: it is modelled on lists.  numpy's integer `//` is floor division with `x // 0 = 0`
(it only emits a warning): this is `Int.fdiv`.
-/
namespace LieNN.Rational

/-- `normalize_integer_ratio` (/repo/lie_nn/_src/util.py:21-24). -/
def normalize (n d : ℤ) : ℤ × ℤ :=
  let g : ℤ := Int.gcd n d
  let g := if d < 0 then -g else g
  (n.fdiv g, d.fdiv g)

/-- Variables of the loop of `limit_denominator` for one array element (/repo/lie_nn/_src/util.py:59-60). -/
structure LD where
  n0 : ℤ
  d0 : ℤ
  n : ℤ
  d : ℤ
  p0 : ℤ
  q0 : ℤ
  p1 : ℤ
  q1 : ℤ
deriving DecidableEq

/-- Initial values (/repo/lie_nn/_src/util.py:59-60). -/
def LD.init (n d : ℤ) : LD := ⟨n, d, n, d, 0, 1, 1, 0⟩

/-- `a = n // d` (/repo/lie_nn/_src/util.py:62). -/
def LD.a (s : LD) : ℤ := s.n.fdiv s.d

/-- `q2 = q0 + a * q1` (/repo/lie_nn/_src/util.py:63). -/
def LD.q2 (s : LD) : ℤ := s.q0 + s.a * s.q1

/-- `stop = (q2 > max_denominator) | (d0 <= max_denominator)` (/repo/lie_nn/_src/util.py:64). -/
def LD.stop (M : ℤ) (s : LD) : Prop := s.q2 > M ∨ s.d0 ≤ M

instance (M : ℤ) (s : LD) : Decidable (s.stop M) := inferInstanceAs (Decidable (_ ∨ _))

/-- The two `np.where(stop, …)` updates (/repo/lie_nn/_src/util.py:67-68) for one element. -/
def LD.step (M : ℤ) (s : LD) : LD :=
  if s.stop M then s
  else ⟨s.n0, s.d0, s.d, s.n - s.a * s.d, s.p1, s.q1, s.p0 + s.a * s.p1, s.q2⟩

/-- The part after the loop (/repo/lie_nn/_src/util.py:70-80) for one element. -/
def LD.finish (M : ℤ) (s : LD) : ℤ × ℤ :=
  let k := (M - s.q0).fdiv s.q1
  let n1 := s.p0 + k * s.p1
  let d1 := s.q0 + k * s.q1
  let n2 := s.p1
  let d2 := s.q1
  let mask := |d1 * (n2 * s.d0 - s.n0 * d2)| ≤ |d2 * (n1 * s.d0 - s.n0 * d1)|
  if s.d0 < M then (s.n0, s.d0) else if mask then (n2, d2) else (n1, d1)

/-- The `while True` loop (/repo/lie_nn/_src/util.py:61-68) on an array; `none` = still running after `fuel` tests of
`np.all(stop)`. -/
def ldLoop (M : ℤ) : (fuel : ℕ) → List LD → Option (List LD)
  | 0, _ => none
  | fuel + 1, ss =>
    if ∀ s ∈ ss, s.stop M then some ss
    else ldLoop M fuel (ss.map (LD.step M))

/-- `limit_denominator` (/repo/lie_nn/_src/util.py:57-80) on an array of pairs. -/
def limitDenominatorVec (fuel : ℕ) (nd : List (ℤ × ℤ)) (M : ℤ) : Option (List (ℤ × ℤ)) :=
  (ldLoop M fuel (nd.map fun x => LD.init x.1 x.2)).map fun ss => ss.map (LD.finish M)

/-- `limit_denominator` on a single element: its own `while True` loop. -/
def ldLoop1 (M : ℤ) : (fuel : ℕ) → LD → Option LD
  | 0, _ => none
  | fuel + 1, s => if s.stop M then some s else ldLoop1 M fuel (s.step M)

/-- `limit_denominator` (/repo/lie_nn/_src/util.py:57-80) on 0-d arrays. -/
def limitDenominator (fuel : ℕ) (n d M : ℤ) : Option (ℤ × ℤ) :=
  (ldLoop1 M fuel (LD.init n d)).map (LD.finish M)

/-! ### The same loop in `int64` arithmetic

numpy's `int64` operations wrap around silently (/repo/lie_nn/_src/util.py:74 even silences the warning for the
products in `mask`).  `w` reduces to the signed 64-bit range after every `+`, `-`, `*`, `abs`. -/

/-- Two's complement wrap-around to `[-2^63, 2^63)`. -/
def w (x : ℤ) : ℤ := Int.bmod x (2 ^ 64)

/-- `q2 = q0 + a * q1` (/repo/lie_nn/_src/util.py:63) in `int64`. -/
def LD.q2W (s : LD) : ℤ := w (s.q0 + w (s.a * s.q1))

/-- `stop` (/repo/lie_nn/_src/util.py:64) in `int64`. -/
def LD.stopW (M : ℤ) (s : LD) : Prop := s.q2W > M ∨ s.d0 ≤ M

instance (M : ℤ) (s : LD) : Decidable (s.stopW M) := inferInstanceAs (Decidable (_ ∨ _))

/-- The updates (/repo/lie_nn/_src/util.py:67-68) in `int64`. -/
def LD.stepW (M : ℤ) (s : LD) : LD :=
  if s.stopW M then s
  else ⟨s.n0, s.d0, s.d, w (s.n - w (s.a * s.d)), s.p1, s.q1, w (s.p0 + w (s.a * s.p1)), s.q2W⟩

/-- The part after the loop (/repo/lie_nn/_src/util.py:70-80) in `int64`. -/
def LD.finishW (M : ℤ) (s : LD) : ℤ × ℤ :=
  let k := (w (M - s.q0)).fdiv s.q1
  let n1 := w (s.p0 + w (k * s.p1))
  let d1 := w (s.q0 + w (k * s.q1))
  let n2 := s.p1
  let d2 := s.q1
  let mask := w |w (d1 * w (w (n2 * s.d0) - w (s.n0 * d2)))| ≤
    w |w (d2 * w (w (n1 * s.d0) - w (s.n0 * d1)))|
  if s.d0 < M then (s.n0, s.d0) else if mask then (n2, d2) else (n1, d1)

/-- The loop in `int64`, single element. -/
def ldLoop1W (M : ℤ) : (fuel : ℕ) → LD → Option LD
  | 0, _ => none
  | fuel + 1, s => if s.stopW M then some s else ldLoop1W M fuel (s.stepW M)

/-- `limit_denominator` (/repo/lie_nn/_src/util.py:57-80) in `int64` arithmetic, single element. -/
def limitDenominatorW (fuel : ℕ) (n d M : ℤ) : Option (ℤ × ℤ) :=
  (ldLoop1W M fuel (LD.init n d)).map (LD.finishW M)

/-- `np.round`: nearest integer, ties to even. -/
noncomputable def npRound (x : ℝ) : ℤ :=
  if Int.fract x < 1 / 2 then ⌊x⌋
  else if 1 / 2 < Int.fract x then ⌊x⌋ + 1
  else if Even ⌊x⌋ then ⌊x⌋ else ⌊x⌋ + 1

/-- `big = 1 << 52 - 1` (/repo/lie_nn/_src/util.py:31): Python parses this as `1 << 51`. -/
def big : ℤ := 2 ^ 51

open Classical in
/-- `_as_approx_integer_ratio` (/repo/lie_nn/_src/util.py:27-36). -/
noncomputable def asApproxAux (x : ℝ) : Py (ℤ × ℤ) := do
  pyAssert (0 < x)
  pyAssert (x ≤ 1)
  let n : ℤ := ⌊x * big⌋
  let d : ℤ := npRound (n / x)
  let d := if d = 0 then 1 else d
  return (n, d)

open Classical in
/-- `as_approx_integer_ratio` (/repo/lie_nn/_src/util.py:39-54).  Both helper calls are made whatever the branch. -/
noncomputable def asApprox (x : ℝ) : Py (ℤ × ℤ) := do
  let sign : ℤ := SignType.sign x
  let x := |x|
  let x_ := if x = 0 then 1 else x
  let r1 ← asApproxAux (if x_ ≤ 1 then x_ else 1)
  let r2 ← asApproxAux (if 1 / x_ ≤ 1 then 1 / x_ else 1)
  let nd := if x ≤ 1 then r1 else (r2.2, r2.1)
  let n := if x = 0 then 0 else nd.1
  let d := if x = 0 then 1 else nd.2
  pyAssert (d > 0)
  return normalize (sign * n) d

/-- `_round_to_sqrt_rational` (/repo/lie_nn/_src/util.py:83-87); `fuel` bounds the loop of `limit_denominator`. -/
noncomputable def roundSqrtAux (fuel : ℕ) (x : ℝ) (maxDen : ℤ) : Option (Py ℝ) :=
  match asApprox (x ^ 2) with
  | .error e => some (.error e)
  | .ok nd =>
    match limitDenominator fuel nd.1 nd.2 (maxDen ^ 2 + 1) with
    | none => none
    | some r => some (.ok ((SignType.sign x : ℤ) * Real.sqrt (r.1 / r.2)))

open Classical in
/-- `round_to_sqrt_rational` (/repo/lie_nn/_src/util.py:109-115) on a scalar; `np.iscomplex(x)` is `x.imag != 0`.
The result is complex in both cases here (a real number in the second). -/
noncomputable def roundSqrt (fuel : ℕ) (x : ℂ) (maxDen : ℤ) : Option (Py ℂ) :=
  if x.im ≠ 0 then
    match roundSqrtAux fuel x.re maxDen, roundSqrtAux fuel x.im maxDen with
    | some (.ok a), some (.ok b) => some (.ok ⟨a, b⟩)
    | some (.error e), _ => some (.error e)
    | some (.ok _), some (.error e) => some (.error e)
    | _, _ => none
  else
    match roundSqrtAux fuel x.re maxDen with
    | some (.ok a) => some (.ok ⟨a, 0⟩)
    | some (.error e) => some (.error e)
    | none => none

end LieNN.Rational
