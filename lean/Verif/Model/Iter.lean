import Mathlib.Data.List.Lex
import Verif.Model.SO3
import Verif.Model.SL2C
/-!
# Iterators, comparison and selection rules of the tabulated irreps

`iterator`, `__lt__` of the classes of `/repo/lie_nn/_src/irreps`, `create_trivial` of
`/repo/lie_nn/_src/irrep.py`, `SU2Real.__mul__`, and `TabulatedIrrepProduct.__mul__`, `__lt__` of
`/repo/lie_nn/_src/group_product.py`.

Simplifications: a generator made of an infinite loop is the function that gives, for every turn of
the outer loop, the elements yielded during that turn, or the exception that ends it; the half
integers of `SU2Real` are exact rationals.
-/
namespace LieNN

/-- A generator, as the elements yielded by every turn of its outer loop. -/
abbrev PyIter (α : Type) : Type := ℕ → Py (List α)

/-- The elements yielded by the first `N` turns. -/
def PyIter.out {α : Type} (g : PyIter α) (N : ℕ) : Py (List α) := do
  let L ← (List.range N).mapM g
  pure L.flatten

/-- `TabulatedIrrep.create_trivial` (`/repo/lie_nn/_src/irrep.py` lines 34-36): the first element of
the iterator.  All the iterators modelled here yield during their first turn. -/
def PyIter.createTrivial {α : Type} (g : PyIter α) : Py α := do
  match ← g 0 with
  | x :: _ => pure x
  | [] => .error .runtimeError

/-- Python comparison `(a, b) < (c, d)` of two pairs. -/
def pairLt {α β : Type} (lt₁ : α → α → Prop) (lt₂ : β → β → Prop) (x y : α × β) : Prop :=
  (x.1 = y.1 ∧ lt₂ x.2 y.2) ∨ (x.1 ≠ y.1 ∧ lt₁ x.1 y.1)

namespace Z2

/-- `Z2.__lt__` (`/repo/lie_nn/_src/irreps/z2.py` lines 35-37). -/
def lt (p₁ p₂ : ℤ) : Prop := p₁ > p₂

/-- `Z2.iterator` (`/repo/lie_nn/_src/irreps/z2.py` lines 39-42): no loop. -/
def iterator : PyIter ℤ := fun s => pure (if s = 0 then [1, -1] else [])

end Z2

namespace SU2

/-- `SU2.__lt__` (`/repo/lie_nn/_src/irreps/su2.py` lines 43-44). -/
def lt (j₁ j₂ : ℕ) : Prop := j₁ < j₂

/-- `SU2.iterator` (`/repo/lie_nn/_src/irreps/su2.py` lines 46-49). -/
def iterator : PyIter ℕ := fun j => do pure [← make j]

end SU2

namespace SO3

/-- `SO3.__lt__` (`/repo/lie_nn/_src/irreps/so3_real.py` lines 55-56). -/
def lt (l₁ l₂ : ℤ) : Prop := l₁ < l₂

/-- `SO3.iterator` (`/repo/lie_nn/_src/irreps/so3_real.py` lines 58-61). -/
def iterator : PyIter ℤ := fun l => pure [(l : ℤ)]

end SO3

namespace O3

/-- `O3.__lt__` (`/repo/lie_nn/_src/irreps/o3_real.py` lines 43-45). -/
def lt (r₁ r₂ : O3) : Prop :=
  pairLt (· < ·) (· < ·) (r₁.l, -((-1) ^ r₁.l) * r₁.p) (r₂.l, -((-1) ^ r₂.l) * r₂.p)

/-- `O3.iterator` (`/repo/lie_nn/_src/irreps/o3_real.py` lines 47-51). -/
def iterator : PyIter O3 := fun l => pure [⟨l, (-1) ^ l⟩, ⟨l, -(-1) ^ l⟩]

end O3

/-- Python `round` of an exact number to an integer: ties go to the even neighbour. -/
def pyRound (x : ℚ) : ℤ :=
  if x - ⌊x⌋ < 1 / 2 then ⌊x⌋
  else if 1 / 2 < x - ⌊x⌋ then ⌊x⌋ + 1
  else if ⌊x⌋ % 2 = 0 then ⌊x⌋ else ⌊x⌋ + 1

/-- `is_integer` (`/repo/lie_nn/_src/util.py` lines 13-14). -/
def isInteger (x : ℚ) : Prop := x = pyRound x

instance (x : ℚ) : Decidable (isInteger x) := inferInstanceAs (Decidable (x = pyRound x))

/-- `is_half_integer` (`/repo/lie_nn/_src/util.py` lines 17-18). -/
def isHalfInteger (x : ℚ) : Prop := 2 * x = pyRound (2 * x)

instance (x : ℚ) : Decidable (isHalfInteger x) :=
  inferInstanceAs (Decidable (2 * x = pyRound (2 * x)))

/-- `np.arange(lo, hi, 1)`: `ceil(hi - lo)` elements. -/
def arange (lo hi : ℚ) : List ℚ := (List.range ⌈hi - lo⌉.toNat).map fun t : ℕ => lo + t

namespace SU2Real

/-- `SU2Real.__post_init__` (`/repo/lie_nn/_src/irreps/su2_real.py` lines 34-37). -/
def make (j : ℚ) : Py ℚ := do
  pyAssert (isHalfInteger j)
  pyAssert (0 ≤ j)
  pure j

/-- `SU2Real.__mul__` (`/repo/lie_nn/_src/irreps/su2_real.py` lines 39-43). -/
def mul (j₁ j₂ : ℚ) : Py (List ℚ) := (arange |j₁ - j₂| (j₁ + j₂ + 1)).mapM make

/-- `SU2Real.dim` (`/repo/lie_nn/_src/irreps/su2_real.py` lines 66-71). -/
def dim (j : ℚ) : ℕ :=
  if isInteger j then (SU2.trunc (2 * j + 1)).toNat else 2 * (SU2.trunc (2 * j + 1)).toNat

/-- The `np.stack` of `np.stack`s and the reshape (`/repo/lie_nn/_src/irreps/su2_real.py` lines
92-98), for one generator: axes `(i, 2, j, 2)`. -/
def realify {d : ℕ} (M : Matrix (Fin d) (Fin d) ℂ) : Matrix (Fin (d * 2)) (Fin (d * 2)) ℝ :=
  fun r c =>
    let z := M r.divNat c.divNat
    if r.modNat = 0 then if c.modNat = 0 then z.re else -z.im
    else if c.modNat = 0 then z.im else z.re

/-- `SU2Real.continuous_generators` (`/repo/lie_nn/_src/irreps/su2_real.py` lines 81-98).  On an
integer `j`, lines 82-89 and `change_basis_real_to_complex` (lines 13-27) are those of `SO3`. -/
noncomputable def gens (j : ℚ) : Py ((d : ℕ) × (Fin 3 → Matrix (Fin d) (Fin d) ℝ)) := do
  let n ← SU2.make (SU2.trunc (2 * j))
  if isInteger j then
    let X ← SO3.gens (SU2.trunc j).toNat
    pure ⟨_, X⟩
  else
    pure ⟨(n + 1) * 2, fun a => realify (SU2.gens n a)⟩

/-- `SU2Real.__lt__` (`/repo/lie_nn/_src/irreps/su2_real.py` lines 73-74). -/
def lt (j₁ j₂ : ℚ) : Prop := j₁ < j₂

/-- `SU2Real.iterator` (`/repo/lie_nn/_src/irreps/su2_real.py` lines 76-79). -/
def iterator : PyIter ℚ := fun tj => do pure [← make ((tj : ℚ) / 2)]

end SU2Real

namespace SL2C

/-- `SL2C.__lt__` (`/repo/lie_nn/_src/irreps/sl2c.py` lines 51-52). -/
def lt (r₁ r₂ : SL2C) : Prop := pairLt (· < ·) (· < ·) (r₁.l + r₁.k, r₁.l) (r₂.l + r₂.k, r₂.l)

/-- `SL2C.iterator` (`/repo/lie_nn/_src/irreps/sl2c.py` lines 54-58). -/
def iterator : PyIter SL2C := fun sum =>
  (SU2.pyRange 0 (sum + 1) 1).mapM fun l : ℤ => make l (sum - l)

end SL2C

namespace SO13

/-- `SO13.__lt__` (`/repo/lie_nn/_src/irreps/so13.py` lines 53-54). -/
def lt (r₁ r₂ : ℕ × ℕ) : Prop := pairLt (· < ·) (· < ·) (r₁.1 + r₁.2, r₁.1) (r₂.1 + r₂.2, r₂.1)

/-- `SO13.iterator` (`/repo/lie_nn/_src/irreps/so13.py` lines 56-60): in turn `s` of
`itertools.count(0, 2)`, `sum` is `2 * s`. -/
def iterator : PyIter (ℕ × ℕ) := fun s =>
  let sum : ℤ := 2 * (s : ℤ)
  (SU2.pyRange 0 (sum + 1) 1).mapM fun l : ℤ => make l (sum - l)

end SO13

namespace SUN

/-- `_is_valid_S` (`/repo/lie_nn/_src/irreps/sun.py` lines 17-18). -/
def isValidS (S : List ℤ) : Prop :=
  0 < S.length ∧ ∀ p ∈ S.zip S.tail, p.2 ≤ p.1

instance (S : List ℤ) : Decidable (isValidS S) :=
  inferInstanceAs (Decidable (_ ∧ _))

/-- `SUN.__post_init__` (`/repo/lie_nn/_src/irreps/sun.py` lines 445-448); a tuple is a list.
`rep.S[-1]` of an empty tuple is not reached. -/
def make (S : List ℤ) : Py (List ℤ) := do
  pyAssert (isValidS S)
  pyAssert (S.getLast? = some 0)
  pure S

/-- `__post_init__` of `SU2_`, `SU3`, `SU4` (`/repo/lie_nn/_src/irreps/sun.py` lines 492-493,
503-504, 515-516), with the length they ask for. -/
def makeLen (N : ℕ) (S : List ℤ) : Py (List ℤ) := do
  pyAssert (S.length = N)
  pure S

/-- `SUN.__lt__` (`/repo/lie_nn/_src/irreps/sun.py` lines 464-465): tuples are compared
lexicographically. -/
def lt (S₁ S₂ : List ℤ) : Prop := S₁ < S₂

/-- `SUN.is_scalar` (`/repo/lie_nn/_src/irreps/sun.py` lines 474-476). -/
def isScalar (S : List ℤ) : Prop := ∀ s ∈ S, s = 0

/-- `SU2_.iterator` (`/repo/lie_nn/_src/irreps/sun.py` lines 495-498). -/
def iterator2 : PyIter (List ℤ) := fun j => do pure [← makeLen 2 [(j : ℤ), 0]]

/-- `SU3.iterator` (`/repo/lie_nn/_src/irreps/sun.py` lines 506-510). -/
def iterator3 : PyIter (List ℤ) := fun j₁ =>
  (SU2.pyRange 0 (j₁ + 1) 1).mapM fun j₂ : ℤ => makeLen 3 [(j₁ : ℤ), j₂, 0]

/-- `SU4.iterator` (`/repo/lie_nn/_src/irreps/sun.py` lines 518-523). -/
def iterator4 : PyIter (List ℤ) := fun j₁ =>
  ((SU2.pyRange 0 (j₁ + 1) 1).flatMap fun j₂ : ℤ =>
    (SU2.pyRange 0 (j₂ + 1) 1).map fun j₃ : ℤ => (j₂, j₃)).mapM
      fun p => makeLen 4 [(j₁ : ℤ), p.1, p.2, 0]

end SUN

namespace IrProduct

variable {α β : Type}

/-- `TabulatedIrrepProduct.__mul__` (`/repo/lie_nn/_src/group_product.py` lines 62-68), from the
selection rules of the two factors; the second product is made again in every turn. -/
def mul (mul₁ : α → α → Py (List α)) (mul₂ : β → β → Py (List β)) (r₁ r₂ : α × β) :
    Py (List (α × β)) := do
  let L ← mul₁ r₁.1 r₂.1
  let LL ← L.mapM fun r₃ => do
    let L' ← mul₂ r₁.2 r₂.2
    pure (L'.map fun r₄ => (r₃, r₄))
  pure LL.flatten

/-- `TabulatedIrrepProduct.dim` (`/repo/lie_nn/_src/group_product.py` lines 84-86). -/
def dim (dim₁ : α → ℕ) (dim₂ : β → ℕ) (r : α × β) : ℕ := dim₁ r.1 * dim₂ r.2

/-- `TabulatedIrrepProduct.__lt__` (`/repo/lie_nn/_src/group_product.py` lines 88-89). -/
def lt (lt₁ : α → α → Prop) (lt₂ : β → β → Prop) (r₁ r₂ : α × β) : Prop := pairLt lt₁ lt₂ r₁ r₂

/-- `TabulatedIrrepProduct.iterator` (`/repo/lie_nn/_src/group_product.py` lines 91-93). -/
def iterator : Py (PyIter (α × β)) := .error .notImplemented

end IrProduct
end LieNN
