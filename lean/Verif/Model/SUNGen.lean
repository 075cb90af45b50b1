import Verif.Model.SUN
import Verif.Model.Algebra
import Verif.Model.Rational
/-!
# The generators and the algebra of `SU(N)`

Simplifications: exact arithmetic; `np.linalg.pinv` is an argument; an array of matrices is a list of
matrices whose size `d` is the number `dim(S)`.
-/
namespace LieNN.SUN

open Matrix

/-- `L[k]` for an index that is not negative. -/
def getMat {d : ℕ} (L : List (Matrix (Fin d) (Fin d) ℂ)) (k : ℕ) : Py (Matrix (Fin d) (Fin d) ℂ) :=
  match L[k]? with
  | some x => .ok x
  | none => .error .indexError

/-- `E_basis(k, l, Jp, Jm)` (`/repo/lie_nn/_src/irreps/sun.py` lines 381-390). -/
def eBasis {d : ℕ} (Jp Jm : List (Matrix (Fin d) (Fin d) ℂ)) (k l : ℕ) : Py (Matrix (Fin d) (Fin d) ℂ) :=
  if k = l then .error .assertionError
  else if k + 1 = l then getMat Jp k
  else if k < l then do
    let a ← getMat Jp k
    let b ← eBasis Jp Jm (k + 1) l
    pure (commutator a b)
  else if k = l + 1 then getMat Jm l
  else do
    let a ← getMat Jm (k - 1)
    let b ← eBasis Jp Jm (k - 1) l
    pure (commutator a b)
termination_by (k - l) + (l - k)

/-- `np.stack` of a list of arrays. -/
def stack {α : Type} (L : List α) : Py (List α) := if L.isEmpty then .error .valueError else .ok L

/-- The pairs of the loops of lines 409-410 and 415. -/
def genPairs (N : ℕ) : List (ℕ × ℕ) :=
  (List.range N).flatMap fun k => (List.range' (k + 1) (N - (k + 1))).map fun l => (k, l)

/-- `generators(S)` (`/repo/lie_nn/_src/irreps/sun.py` lines 393-418); `d` is `dim(S)`. -/
noncomputable def generators (d : ℕ) (S : List ℤ) : Py (List (Matrix (Fin d) (Fin d) ℂ)) :=
  if S.length = 1 then .ok [0]
  else do
    let Jp := (← ladderMats upperLadder S).map (toMat d)
    let Jm := (← ladderMats lowerLadder S).map (toMat d)
    let Jz := (← jzDiag S).map (toDiag d)
    let Xi ← stack (← (genPairs S.length).mapM fun p => do
      let a ← eBasis Jp Jm p.1 p.2
      let b ← eBasis Jp Jm p.2 p.1
      pure (Complex.I • (a + b)))
    let Xr ← stack (← (genPairs S.length).mapM fun p => do
      let a ← eBasis Jp Jm p.1 p.2
      let b ← eBasis Jp Jm p.2 p.1
      pure (a - b))
    let Xd := Jz.map fun z => (2 * Complex.I) • z
    pure (Xi ++ Xr ++ Xd)

/-- The matrices of a list, by position. -/
def genFn {d : ℕ} (n : ℕ) (X : List (Matrix (Fin d) (Fin d) ℂ)) : Fin n → Matrix (Fin d) (Fin d) ℂ :=
  fun i => X.getD i 0

/-- `round_to_sqrt_rational` (`/repo/lie_nn/_src/util.py` lines 109-115) of an array of real numbers,
entry by entry, with the default bound of the denominators; `fuel` bounds the loop of
`limit_denominator`. -/
noncomputable def roundArr {n : ℕ} (fuel : ℕ) (A : Fin n → Fin n → Fin n → ℝ) :
    Option (Py (Fin n → Fin n → Fin n → ℂ)) :=
  let vals := fun i j k => Rational.roundSqrt fuel (A i j k : ℂ) 4096
  open Classical in
  if ∃ i j k, vals i j k = none then none
  else if ∃ i j k, ∃ e, vals i j k = some (.error e) then some (.error .assertionError)
  else some (.ok fun i j k => match vals i j k with
    | some (.ok y) => y
    | _ => 0)

/-- `algebra(S)` (`/repo/lie_nn/_src/irreps/sun.py` lines 421-438); `pinv` is `np.linalg.pinv`, `d` is
`dim(S)`, `n` the length of the array that is returned.  The `reshape` of line 428 fails unless the
number of matrices is `N**2 - 1`. -/
noncomputable def algebra (fuel d n : ℕ) (pinv : Matrix (Fin n) (Fin (d * d)) ℂ →
    Matrix (Fin (d * d)) (Fin n) ℂ) (S : List ℤ) : Option (Py (Fin n → Fin n → Fin n → ℂ)) :=
  match generators d S with
  | .error e => some (.error e)
  | .ok L =>
    if L.length ≠ S.length ^ 2 - 1 ∨ n ≠ S.length ^ 2 - 1 then some (.error .valueError)
    else
      let X := genFn n L
      let pix := pinv (flatGens X)
      roundArr fuel fun i j k =>
        (∑ p : Fin (d * d), commutator (X i) (X j) p.divNat p.modNat * pix p k).re

/-- The label whose algebra `SUN.algebra` returns (`/repo/lie_nn/_src/irreps/sun.py` line 487). -/
def defining (n : ℕ) : List ℤ := 1 :: List.replicate (n - 1) 0

/-- `SUN.algebra` (`/repo/lie_nn/_src/irreps/sun.py` lines 484-487); `d` is the dimension of the label
of line 487, `n` the length of the array that is returned. -/
noncomputable def sunAlgebra (fuel d n : ℕ) (pinv : Matrix (Fin n) (Fin (d * d)) ℂ →
    Matrix (Fin (d * d)) (Fin n) ℂ) (S : List ℤ) : Option (Py (Fin n → Fin n → Fin n → ℂ)) :=
  if S = [0] then some (.ok fun _ _ _ => 0)
  else algebra fuel d n pinv (defining S.length)

end LieNN.SUN
