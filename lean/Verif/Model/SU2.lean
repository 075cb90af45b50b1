import Mathlib.Data.Nat.Factorial.Basic
import Mathlib.Data.Rat.Floor
import Mathlib.Analysis.SpecialFunctions.Pow.Real
import Verif.Model.Reduced
/-!
# `SU2` (`/repo/lie_nn/_src/irreps/su2.py`)

Simplifications: floats are exact reals, so that `hj = rep.j / 2.0` and the `Fraction`s built from
it are exact; `(C * S**2) ** 0.5` is the real square root.  `SU2(j)` with `j` a natural number (what
`__post_init__`, lines 15-17, accepts) is `j : ℕ`.
-/
namespace LieNN

open Matrix

namespace SU2

/-- `SU2.__post_init__` (`/repo/lie_nn/_src/irreps/su2.py` lines 15-17), on an integer. -/
def make (j : ℤ) : Py ℕ := do
  pyAssert (0 ≤ j)
  pure j.toNat

/-- `SU2.dim` (`/repo/lie_nn/_src/irreps/su2.py` lines 35-37). -/
abbrev dim (j : ℕ) : ℕ := j + 1

/-- Python `range(lo, hi, step)` with a positive step, as a list of integers. -/
def pyRange (lo hi : ℤ) (step : ℕ) : List ℤ :=
  (List.range ((hi - lo).toNat / step + if (hi - lo).toNat % step = 0 then 0 else 1)).map
    fun t : ℕ => lo + step * (t : ℤ)

/-- `SU2.__mul__` (`/repo/lie_nn/_src/irreps/su2.py` lines 23-25): the integers of the range, each
passed to the constructor. -/
def mul (j₁ j₂ : ℕ) : Py (List ℕ) :=
  (pyRange |(j₁ : ℤ) - j₂| (j₁ + j₂ + 1) 2).mapM make

/-- `raising` (`/repo/lie_nn/_src/irreps/su2.py` lines 55-57): `np.diag(v, k=-1)` has `v[c]` at the
position `(c + 1, c)`, and `m[c] = -hj + c`. -/
noncomputable def raising (j : ℕ) : Matrix (Fin (j + 1)) (Fin (j + 1)) ℂ :=
  fun r c => if (r : ℕ) = c + 1 then
    let hj : ℝ := j / 2
    let m : ℝ := -hj + (c : ℕ)
    ((-√(hj * (hj + 1) - m * (m + 1)) : ℝ) : ℂ)
  else 0

/-- `lowering` (`/repo/lie_nn/_src/irreps/su2.py` lines 59-60): `np.diag(v, k=1)` has `v[r]` at the
position `(r, r + 1)`, and `m[r] = -hj + 1 + r`. -/
noncomputable def lowering (j : ℕ) : Matrix (Fin (j + 1)) (Fin (j + 1)) ℂ :=
  fun r c => if (c : ℕ) = r + 1 then
    let hj : ℝ := j / 2
    let m : ℝ := -hj + 1 + (r : ℕ)
    ((√(hj * (hj + 1) - m * (m - 1)) : ℝ) : ℂ)
  else 0

/-- `np.diag(1j * m)` (`/repo/lie_nn/_src/irreps/su2.py` lines 62 and 66), `m[r] = -hj + r`. -/
noncomputable def zGen (j : ℕ) : Matrix (Fin (j + 1)) (Fin (j + 1)) ℂ :=
  Matrix.diagonal fun r => Complex.I * (((-(j / 2) + (r : ℕ) : ℝ)) : ℂ)

/-- `SU2.continuous_generators` (`/repo/lie_nn/_src/irreps/su2.py` lines 54-70). -/
noncomputable def gens (j : ℕ) : Fin 3 → Matrix (Fin (j + 1)) (Fin (j + 1)) ℂ :=
  ![(0.5 : ℂ) • (raising j + lowering j),
    zGen j,
    (-0.5 * Complex.I) • (raising j - lowering j)]

/-- `SU2.algebra` (`/repo/lie_nn/_src/irreps/su2.py` lines 72-92). -/
def algebra : Fin 3 → Fin 3 → Fin 3 → ℂ :=
  ![![![0, 0, 0],
      ![0, 0, 1],
      ![0, -1, 0]],
    ![![0, 0, -1],
      ![0, 0, 0],
      ![1, 0, 0]],
    ![![0, 1, 0],
      ![-1, 0, 0],
      ![0, 0, 0]]]

/-- `SU2(j)` as a representation; `discrete_generators` (lines 51-52) has shape `(0, dim, dim)`. -/
noncomputable def rep (j : ℕ) : Rep 3 0 (dim j) where
  A := algebra
  X := gens j
  H := Fin.elim0

/-- `f` (`/repo/lie_nn/_src/irreps/su2.py` lines 201-203): the assertion fails on a fraction that is
not an integer, `math.factorial` raises `ValueError` on a negative integer. -/
def fact (q : ℚ) : Py ℕ :=
  if q.den = 1 then
    if 0 ≤ q.num then .ok q.num.toNat.factorial else .error .valueError
  else .error .assertionError

/-- Python `int(q)`: truncation towards zero. -/
def trunc (q : ℚ) : ℤ := if 0 ≤ q then ⌊q⌋ else ⌈q⌉

/-- `(-1) ** q` for a `Fraction`; a negative or fractional exponent does not return a `Fraction` and
is an error here. -/
def negOnePow (q : ℚ) : Py ℚ :=
  if q.den = 1 ∧ 0 ≤ q.num then .ok ((-1) ^ q.num.toNat) else .error .typeError

/-- `Fraction(a, b)`. -/
def frac (a b : ℕ) : Py ℚ := if b = 0 then .error .zeroDivision else .ok ((a : ℚ) / b)

/-- The body of the loop over `v` (`/repo/lie_nn/_src/irreps/su2.py` lines 212-215). -/
def cgTerm (j₁ m₁ j₂ m₂ j₃ m₃ : ℚ) (v : ℤ) : Py ℚ := do
  let s ← negOnePow (v + j₂ + m₂)
  let n₁ ← fact (j₂ + j₃ + m₁ - v)
  let n₂ ← fact (j₁ - m₁ + v)
  let d₁ ← fact v
  let d₂ ← fact (j₃ - j₁ + j₂ - v)
  let d₃ ← fact (j₃ + m₃ - v)
  let d₄ ← fact (v + j₁ - j₂ - m₃)
  let q ← frac (n₁ * n₂) (d₁ * d₂ * d₃ * d₄)
  pure (s * q)

/-- `C` (`/repo/lie_nn/_src/irreps/su2.py` lines 205-208). -/
def cgC (j₁ m₁ j₂ m₂ j₃ m₃ : ℚ) : Py ℚ := do
  let n₁ ← fact (j₃ + j₁ - j₂)
  let n₂ ← fact (j₃ - j₁ + j₂)
  let n₃ ← fact (j₁ + j₂ - j₃)
  let n₄ ← fact (j₃ + m₃)
  let n₅ ← fact (j₃ - m₃)
  let d₁ ← fact (j₁ + j₂ + j₃ + 1)
  let d₂ ← fact (j₁ - m₁)
  let d₃ ← fact (j₁ + m₁)
  let d₄ ← fact (j₂ - m₂)
  let d₅ ← fact (j₂ + m₂)
  let q ← frac (n₁ * n₂ * n₃ * n₄ * n₅) (d₁ * d₂ * d₃ * d₄ * d₅)
  pure ((2 * j₃ + 1) * q)

/-- `S` (`/repo/lie_nn/_src/irreps/su2.py` lines 198-199 and 210-215). -/
def cgS (j₁ m₁ j₂ m₂ j₃ m₃ : ℚ) : Py ℚ :=
  let vmin := trunc (max (max (-j₁ + j₂ + m₃) (-j₁ + m₁)) 0)
  let vmax := trunc (min (min (j₂ + j₃ + m₁) (j₃ - j₁ + j₂)) (j₃ + m₃))
  (pyRange vmin (vmax + 1) 1).foldlM
    (fun S v => do
      let t ← cgTerm j₁ m₁ j₂ m₂ j₃ m₃ v
      pure (S + t)) 0

/-- `clebsch_gordanSU2coeffs` (`/repo/lie_nn/_src/irreps/su2.py` lines 161-220); the arguments are
half-integers, so that `Fraction(int(2 * j), 2)` is `j`. -/
noncomputable def cgCoeff (j₁ m₁ j₂ m₂ j₃ m₃ : ℚ) : Py ℝ :=
  if m₃ ≠ m₁ + m₂ then .ok 0
  else do
    let C ← cgC j₁ m₁ j₂ m₂ j₃ m₃
    let S ← cgS j₁ m₁ j₂ m₂ j₃ m₃
    if 0 < S then pure √((C * S ^ 2 : ℚ) : ℝ)
    else pure (-√((C * S ^ 2 : ℚ) : ℝ))

/-- The assignments of `clebsch_gordanSU2mat`
(`/repo/lie_nn/_src/irreps/su2.py` lines 152-157) in the order of the loops: the index triple
`int(j1 + m1), int(j2 + m2), int(j3 + m1 + m2)` and the value. -/
noncomputable def cgWrites (j₁ j₂ j₃ : ℚ) : Py (List ((ℤ × ℤ × ℤ) × ℝ)) := do
  let ll ← (pyRange (-trunc (2 * j₁)) (trunc (2 * j₁) + 1) 2).mapM fun x₁ : ℤ =>
    (((pyRange (-trunc (2 * j₂)) (trunc (2 * j₂) + 1) 2).filter fun x₂ : ℤ =>
        decide (|(x₁ / 2 + x₂ / 2 : ℚ)| ≤ j₃)).mapM fun x₂ : ℤ => do
      let m₁ : ℚ := x₁ / 2
      let m₂ : ℚ := x₂ / 2
      let v ← cgCoeff j₁ m₁ j₂ m₂ j₃ (m₁ + m₂)
      pure ((trunc (j₁ + m₁), trunc (j₂ + m₂), trunc (j₃ + m₁ + m₂)), v))
  pure ll.flatten

/-- The array after a sequence of assignments: the last one to the position, `0` if there is
none. -/
noncomputable def readWrites (w : List ((ℤ × ℤ × ℤ) × ℝ)) (i : ℤ × ℤ × ℤ) : ℝ :=
  match w.reverse.find? (fun e => e.1 == i) with
  | some e => e.2
  | none => 0

/-- `clebsch_gordanSU2mat` (`/repo/lie_nn/_src/irreps/su2.py` lines 131-158), as a function of the
three indices. -/
noncomputable def cgMat (j₁ j₂ j₃ : ℚ) : Py (ℤ → ℤ → ℤ → ℝ) :=
  if trunc (2 * j₃) ∈ pyRange (trunc (2 * |j₁ - j₂|)) (trunc (2 * (j₁ + j₂)) + 1) 2 then do
    let w ← cgWrites j₁ j₂ j₃
    pure fun a b c => readWrites w (a, b, c)
  else pure fun _ _ _ => 0

/-- `SU2.clebsch_gordan` (`/repo/lie_nn/_src/irreps/su2.py` lines 27-33): the list of solutions. -/
noncomputable def cg (j₁ j₂ j₃ : ℕ) :
    Py (List (Fin (dim j₁) → Fin (dim j₂) → Fin (dim j₃) → ℝ)) := do
  let l ← mul j₁ j₂
  if j₃ ∈ l then do
    let M ← cgMat (j₁ / 2) (j₂ / 2) (j₃ / 2)
    pure [fun a b c => M a b c]
  else pure []

/-- `SU2` as a table of irreps, for the functions of `tensor_product.py` and `reduced_rep.py`.  The
functions of this file do not raise on natural numbers (`LieNN.Props.C62_blocks`,
`LieNN.Props.C42_shape`); an exception would read as the empty list here. -/
noncomputable def table : Table 3 0 where
  Ir := ℕ
  dim := dim
  rep := rep
  prod := fun i j => match mul i j with
    | .ok l => l
    | .error _ => []
  cg := fun i j k => match cg i j k with
    | .ok L => L.map fun C a b c => ((C a b c : ℝ) : ℂ)
    | .error _ => []

end SU2
end LieNN
