import Verif.Model.Rational
/-!
# Model of the SymPy version of the rounding function (`lie_nn/_src/util.py`)

SymPy numbers are exact: the square root of a rational is kept as it is.  The function is for one number
(`n.item()` raises `ValueError` for longer arrays).
-/
namespace LieNN.Rational

/-- The expression `sqrt(n/d)` or `-sqrt(n/d)`. -/
structure Sym where
  /-- the sign was changed -/
  neg : Bool
  /-- numerator -/
  n : ℤ
  /-- denominator -/
  d : ℤ

/-- The number an expression stands for (for `d ≠ 0`). -/
noncomputable def Sym.value (s : Sym) : ℝ := if s.neg then -Real.sqrt (s.n / s.d) else Real.sqrt (s.n / s.d)

open Classical in
/-- `_round_to_sqrt_rational_sympy` (/repo/lie_nn/_src/util.py:90-98). -/
noncomputable def symAux (fuel : ℕ) (x : ℝ) (maxDen : ℤ) : Option (Py Sym) :=
  match asApprox (x ^ 2) with
  | .error e => some (.error e)
  | .ok nd =>
    match limitDenominator fuel nd.1 nd.2 (maxDen ^ 2 + 1) with
    | none => none
    | some r => some (.ok ⟨decide ((SignType.sign x : ℤ) < 0), r.1, r.2⟩)

/-- `round_to_sqrt_rational_sympy` (/repo/lie_nn/_src/util.py:101-106): the expression for the real part plus `1j`
times the expression for the imaginary part; both are always computed. -/
noncomputable def symRound (fuel : ℕ) (z : ℂ) (maxDen : ℤ) : Option (Py (Sym × Sym)) :=
  match symAux fuel z.re maxDen, symAux fuel z.im maxDen with
  | some (.ok a), some (.ok b) => some (.ok (a, b))
  | some (.error e), _ => some (.error e)
  | some (.ok _), some (.error e) => some (.error e)
  | _, _ => none

end LieNN.Rational
