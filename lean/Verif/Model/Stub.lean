import Verif.Model.Roots
import Verif.Model.SONAdj
import Verif.Model.Parse
import Verif.Model.Repr
/-!
# The placeholders of `SON`, `SPN` and `SON_adjoint`

`/repo/lie_nn/_src/irreps/son.py` and `spn.py` leave most methods open.  They do not raise: they *return* the
exception class `NotImplementedError`, an ordinary Python object without `shape`, without an iterator, and
different from every number.  `dimf` below is the property `dim` of the class (`Roots.dimSO`, `Roots.dimSP`).
-/
namespace LieNN.Stub

open Parse (Str)

/-- What a method returns: a proper value, or the class `NotImplementedError`. -/
inductive Ret (α : Type)
  | val (a : α)
  | notImplementedClass

/-- An array, known by its shape and its entries in row-major order. -/
structure Arr where
  /-- `shape` -/
  shape : List ℕ
  /-- the entries -/
  data : List ℂ

/-- `SON.algebra`, `SPN.algebra`, `SON_adjoint.algebra` (`/repo/lie_nn/_src/irreps/son.py` lines 65-66 and 84-85,
`/repo/lie_nn/_src/irreps/spn.py` lines 61-62). -/
def algebra (_S : List ℤ) : Ret Arr := .notImplementedClass

/-- `continuous_generators` (`/repo/lie_nn/_src/irreps/son.py` lines 62-63, `/repo/lie_nn/_src/irreps/spn.py`
lines 58-59). -/
def continuousGenerators (_S : List ℤ) : Ret Arr := .notImplementedClass

/-- `__mul__` (`/repo/lie_nn/_src/irreps/son.py` lines 36-37, `/repo/lie_nn/_src/irreps/spn.py` lines 32-33). -/
def mul (_S _S' : List ℤ) : Ret (List (List ℤ)) := .notImplementedClass

/-- `clebsch_gordan` (`/repo/lie_nn/_src/irreps/son.py` lines 39-42, `/repo/lie_nn/_src/irreps/spn.py`
lines 35-38). -/
def clebschGordan (_S _S' _S'' : List ℤ) : Ret Arr := .notImplementedClass

/-- `discrete_generators` (`/repo/lie_nn/_src/irreps/son.py` lines 59-60, `/repo/lie_nn/_src/irreps/spn.py`
lines 55-56): `np.zeros((0, dim, dim))`; a negative dimension raises `ValueError`. -/
def discreteGenerators (dimf : List ℤ → Py ℤ) (S : List ℤ) : Py (Ret Arr) := do
  let d ← dimf S
  pyAssert (0 ≤ d) .valueError
  pure (.val ⟨[0, d.toNat, d.toNat], []⟩)

/-- `x.shape`: a class has no such attribute. -/
def shape : Ret Arr → Py (List ℕ)
  | .val a => .ok a.shape
  | .notImplementedClass => .error .attributeError

/-- `x.shape[k]`. -/
def shapeAt (x : Ret Arr) (k : ℕ) : Py ℕ := do
  let s ← shape x
  match s[k]? with
  | some d => pure d
  | none => .error .indexError

/-- `for y in x`: a class cannot be iterated over. -/
def iter {α : Type} : Ret (List α) → Py (List α)
  | .val l => .ok l
  | .notImplementedClass => .error .typeError

open Classical in
/-- `np.all(x == c)`: an array is compared entry by entry, a class is different from the number. -/
noncomputable def allEq (x : Ret Arr) (c : ℂ) : Bool :=
  match x with
  | .val a => a.data.all fun y => decide (y = c)
  | .notImplementedClass => false

/-- `Rep.lie_dim` (`/repo/lie_nn/_src/rep.py` lines 13-20) from the value of `algebra()`. -/
def lieDim (A : Ret Arr) : Py ℕ := do
  let d ← shapeAt A 0
  let s ← shape A
  pyAssert (s = [d, d, d])
  pure d

/-- `Rep.is_trivial` (`/repo/lie_nn/_src/rep.py` lines 77-82) for `SON` and `SPN`; `and` stops at the first
`False`. -/
noncomputable def isTrivial (dimf : List ℤ → Py ℤ) (S : List ℤ) : Py Bool := do
  let d ← dimf S
  if d = 1 then
    if allEq (continuousGenerators S) 0 then
      let H ← discreteGenerators dimf S
      pure (allEq H 1)
    else pure false
  else pure false

/-- `GenericRep` with fields that may be the class. -/
structure Generic where
  /-- `_A` -/
  A : Ret Arr
  /-- `_X` -/
  X : Ret Arr
  /-- `_H` -/
  H : Ret Arr

/-- `GenericRep.from_rep` (`/repo/lie_nn/_src/rep.py` lines 102-103) for `SON` and `SPN`. -/
def fromRep (dimf : List ℤ → Py ℤ) (S : List ℤ) : Py Generic := do
  let H ← discreteGenerators dimf S
  pure ⟨algebra S, continuousGenerators S, H⟩

/-- `Rep.dim` (`/repo/lie_nn/_src/rep.py` lines 22-29), used by `GenericRep`. -/
def Generic.dim (r : Generic) : Py ℕ := shapeAt r.X 1

/-- `GenericRep.__repr__` (`/repo/lie_nn/_src/rep.py` lines 134-135). -/
def Generic.repr (r : Generic) : Py Str := do
  let d ← r.dim
  let l ← lieDim r.A
  let k ← shapeAt r.H 0
  pure (Printing.rep "GenericRep".toList d l k)

/-- `TabulatedIrrep.create_trivial` (`/repo/lie_nn/_src/irrep.py` lines 35-37): neither class has an `iterator`,
so the one of `TabulatedIrrep` (lines 28-33) raises. -/
def createTrivial : Py (List ℤ) := .error .notImplemented

/-- `__lt__` (`/repo/lie_nn/_src/irreps/son.py` lines 44-45, `/repo/lie_nn/_src/irreps/spn.py` lines 40-41): tuples are
compared lexicographically. -/
def lt : List ℤ → List ℤ → Bool
  | _, [] => false
  | [], _ :: _ => true
  | a :: S, b :: S' => if a = b then lt S S' else decide (a < b)

/-- `__eq__` (`/repo/lie_nn/_src/irreps/son.py` lines 47-48, `/repo/lie_nn/_src/irreps/spn.py` lines 43-44). -/
def eq : List ℤ → List ℤ → Bool
  | [], [] => true
  | a :: S, b :: S' => decide (a = b) && eq S S'
  | _, _ => false

/-- `from_string` (`/repo/lie_nn/_src/irreps/son.py` lines 30-34, `/repo/lie_nn/_src/irreps/spn.py` lines 26-30); no match
is `None`, which has no `group`. -/
def fromString (s : Str) : Py (List ℤ) :=
  match Parse.reTuple s with
  | none => .error .attributeError
  | some g => (g.splitOn ',').mapM Parse.pyInt

/-- `SON_adjoint.__repr__`, inherited from `Rep` (`/repo/lie_nn/_src/rep.py` lines 74-75): the f-string reads `dim`
(the shape of the generators), `lie_dim` and `len(H)` in this order. -/
noncomputable def adjointRepr (n : ℕ) : Py Str := do
  let _X ← SONAdj.generators n
  let l ← lieDim (algebra [])
  pure (Printing.rep "Rep".toList n l 0)

/-- `SON_adjoint.create_trivial` (`/repo/lie_nn/_src/irreps/son.py` lines 154-157): all arrays have the size `n`. -/
def adjointCreateTrivial (n : ℕ) : Py Generic := do
  pyAssert (3 ≤ n)
  pure ⟨algebra [], .val ⟨[0, n, n], []⟩, .val ⟨[0, n, n], []⟩⟩

open Classical in
/-- `Rep.is_trivial` (`/repo/lie_nn/_src/rep.py` lines 77-82) of a `GenericRep`. -/
noncomputable def Generic.isTrivial (r : Generic) : Py Bool := do
  let d ← r.dim
  pure (decide (d = 1) && allEq r.X 0 && allEq r.H 1)

end LieNN.Stub
