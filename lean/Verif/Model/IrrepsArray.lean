import Verif.Model.Reduced
import Mathlib.Data.Prod.Lex

/-!
# `IrrepsArray` and `reduce_basis_product` of `/repo/lie_nn/_src/reduced_tensor_product.py`

Simplifications.  A block of an `IrrepsArray` of leading shape `shape` (with `m` axes) is a function of
the multi-index, the multiplicity index and the component; only its values inside the shape matter.
The sizes of the last two axes are those of the `MulIrrep` by typing, so the first two assertions of
`__init__` hold.  The labels of the irreps are linearly ordered by `__lt__`.
-/
namespace LieNN

variable {n h : ℕ} {T : Table n h} {m : ℕ}

/-- A `MulIrrep` with its array of shape `shape + (mul, ir.dim)`
(/repo/lie_nn/_src/reduced_tensor_product.py:25-27). -/
structure Blk (T : Table n h) (m : ℕ) where
  /-- multiplicity -/
  mul : ℕ
  /-- `rep` -/
  ir : T.Ir
  /-- `x.shape[:-2]` -/
  shape : Fin m → ℕ
  /-- the entries -/
  x : (Fin m → ℕ) → Fin mul → Fin (T.dim ir) → ℂ

namespace IArr

/-- `IrrepsArray.__init__` (/repo/lie_nn/_src/reduced_tensor_product.py:33-42): all leading shapes agree; no blocks at
all is an `AssertionError`. -/
def mk (l : List (Blk T m)) : Py (List (Blk T m)) := do
  pyAssert ((l.map Blk.shape).toFinset.card = 1)
  return l

/-- `IrrepsArray.array` at a leading multi-index (/repo/lie_nn/_src/reduced_tensor_product.py:29-31): the entries of the
last axis. -/
def array (l : List (Blk T m)) (p : Fin m → ℕ) : List ℂ :=
  l.flatMap fun b => (List.finRange b.mul).flatMap fun u =>
    (List.finRange (T.dim b.ir)).map fun k => b.x p u k

/-- The key of `sorted` (/repo/lie_nn/_src/reduced_tensor_product.py:46). -/
def key [LinearOrder T.Ir] (b : Blk T m) : T.Ir ×ₗ ℕ := toLex (b.ir, b.mul)

/-- `IrrepsArray.sorted` (/repo/lie_nn/_src/reduced_tensor_product.py:44-50); `sorted` is stable. -/
def sorted [LinearOrder T.Ir] (l : List (Blk T m)) : Py (List (Blk T m)) :=
  mk (l.mergeSort fun a b => decide (key a ≤ key b))

/-- `np.concatenate([list[-1], x], axis=-2)` and `muls[-1] += mul`
(/repo/lie_nn/_src/reduced_tensor_product.py:66-67) for two blocks of the same irrep. -/
def merge (a b : Blk T m) (e : b.ir = a.ir) : Blk T m where
  mul := a.mul + b.mul
  ir := a.ir
  shape := a.shape
  x := fun p u k => Fin.addCases (fun u => a.x p u k)
    (fun u => b.x p u (Fin.cast (congrArg T.dim e.symm) k)) u

/-- One turn of the loop of `simplify` (/repo/lie_nn/_src/reduced_tensor_product.py:57-67); the lists are reversed, so
that `irreps[-1]` is the head.  `np.concatenate` raises `ValueError` when the shapes differ. -/
def simplifyStep [DecidableEq T.Ir] (acc : List (Blk T m)) (b : Blk T m) : Py (List (Blk T m)) :=
  match acc with
  | [] => .ok [b]
  | a :: r =>
    if e : b.ir = a.ir then
      if a.shape = b.shape then .ok (merge a b e :: r) else .error .valueError
    else .ok (b :: a :: r)

/-- `IrrepsArray.simplify` (/repo/lie_nn/_src/reduced_tensor_product.py:52-70). -/
def simplify [DecidableEq T.Ir] (l : List (Blk T m)) : Py (List (Blk T m)) := do
  let acc ← l.foldlM simplifyStep []
  mk acc.reverse

/-- `x.sorted().simplify()` -/
def sortSimp [LinearOrder T.Ir] (l : List (Blk T m)) : Py (List (Blk T m)) := do
  simplify (← sorted l)

/-- NumPy broadcasting of one axis: `none` when the sizes are incompatible. -/
def bcast1 (a b : ℕ) : Option ℕ :=
  if a = b then some a else if a = 1 then some b else if b = 1 then some a else none

/-- NumPy broadcasting of two shapes with the same number of axes. -/
def bcast (s t : Fin m → ℕ) : Py (Fin m → ℕ) :=
  if ∀ k, (bcast1 (s k) (t k)).isSome then .ok fun k => (bcast1 (s k) (t k)).getD 0
  else .error .valueError

/-- The position read in an operand of shape `s` by a broadcast at the position `p`. -/
def clip (s p : Fin m → ℕ) : Fin m → ℕ := fun k => if s k = 1 then 0 else p k

/-- `np.einsum("...ui,...vj,wijk->...wuvk", x1, x2, cg)`, reshaped, with its multiplicity
(/repo/lie_nn/_src/reduced_tensor_product.py:313-320). -/
def einsumBlk (b1 b2 : Blk T m) (ir : T.Ir) : Py (Blk T m) := do
  let s ← bcast b1.shape b2.shape
  let cg := T.cg b1.ir b2.ir ir
  return {
    mul := cg.length * b1.mul * b2.mul
    ir := ir
    shape := s
    x := fun p t k =>
      let v := (finProdFinEquiv.symm t).2
      let u := (finProdFinEquiv.symm (finProdFinEquiv.symm t).1).2
      let w := (finProdFinEquiv.symm (finProdFinEquiv.symm t).1).1
      ∑ i, ∑ j, b1.x (clip b1.shape p) u i * b2.x (clip b2.shape p) v j * cg[w] i j k }

/-- `reduce_basis_product` (/repo/lie_nn/_src/reduced_tensor_product.py:293-325). -/
def reduceBasisProduct [LinearOrder T.Ir] (basis1 basis2 : List (Blk T m))
    (filter_ir_out : Option (List T.Ir) := none) : Py (List (Blk T m)) := do
  let basis1 ← sortSimp basis1
  let basis2 ← sortSimp basis2
  let new ← basis1.mapM fun b1 => basis2.mapM fun b2 =>
    ((T.prod b1.ir b2.ir).filter fun ir =>
      match filter_ir_out with
      | none => true
      | some f => decide (ir ∈ f)).mapM fun ir => einsumBlk b1 b2 ir
  let new ← mk new.flatten.flatten
  sortSimp new

end IArr

end LieNN
