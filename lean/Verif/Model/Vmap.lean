import Mathlib.Data.Complex.Basic
import Mathlib.Data.Matrix.Mul
import Mathlib.Data.List.InsertIdx
import Mathlib.Data.List.Dedup
import Verif.Model.Basic
/-!
# `vmap` of `lie_nn/_src/util.py`

Arrays are a shape and a function on multi-indices.  Simplifications: axes are non-negative (negative
axes are not used in the code); the mapped function returns always arrays or always tuples of arrays.
-/
namespace LieNN

/-- An `np.ndarray`: its shape and its elements.  Only the values at multi-indices within the shape
matter. -/
structure NDArr where
  /-- `shape` -/
  shape : List ℕ
  /-- `arr[idx]` -/
  get : List ℕ → ℂ

/-- `np.take(arr, i, axis)` for an index and an axis in range. -/
def NDArr.take (a : NDArr) (axis i : ℕ) : NDArr where
  shape := a.shape.eraseIdx axis
  get := fun idx => a.get (idx.insertIdx axis i)

/-- `np.stack(l, axis)`: `ValueError` for no arrays or unequal shapes, `AxisError` (an `IndexError`) for
an axis out of range. -/
def npStack (l : List NDArr) (axis : ℕ) : Py NDArr :=
  match l with
  | [] => .error .valueError
  | a :: _ =>
    if l.all (fun b => b.shape == a.shape) then
      if axis ≤ a.shape.length then
        .ok ⟨a.shape.insertIdx axis l.length, fun idx =>
          match l[idx.getD axis 0]? with
          | some b => b.get (idx.eraseIdx axis)
          | none => 0⟩
      else .error .indexError
    else .error .valueError

/-- The argument `in_axes`: an integer or a tuple. -/
inductive InAxes where
  | int (k : ℕ)
  | tuple (l : List (Option ℕ))

/-- The value of a mapped function: an array or a tuple of arrays. -/
inductive VOut where
  | arr (a : NDArr)
  | tup (l : List NDArr)

/-- `dims` (`/repo/lie_nn/_src/util.py` lines 135-138): the lengths of the mapped axes, with
`IndexError` for an axis out of range. -/
def vmapDims : List (NDArr × Option ℕ) → Py (List ℕ)
  | [] => .ok []
  | (_, none) :: l => vmapDims l
  | (a, some k) :: l =>
    match a.shape[k]? with
    | none => .error .indexError
    | some m => do
      let r ← vmapDims l
      .ok (m :: r)

/-- The arguments of the `i`-th call (`/repo/lie_nn/_src/util.py` lines 145-148). -/
def vmapArgs (l : List (NDArr × Option ℕ)) (i : ℕ) : List NDArr :=
  l.map fun p => match p.2 with
    | none => p.1
    | some k => p.1.take k i

/-- `zip(*output)`: as many tuples as the shortest element has entries. -/
def zipStar : List (List NDArr) → List (List NDArr)
  | [] => []
  | [l] => l.map fun a => [a]
  | l :: ls => List.zipWith (fun a r => a :: r) l (zipStar ls)

/-- The entries of the outputs when the first one is an array. -/
def VOut.asArr : VOut → Py NDArr
  | .arr a => .ok a
  | .tup _ => .error .valueError

/-- The entries of the outputs when the first one is a tuple. -/
def VOut.asTup : VOut → Py (List NDArr)
  | .arr _ => .error .typeError
  | .tup l => .ok l

/-- `vmap(fun, in_axes, out_axes, out_shape=out_shape)(*args)` (`/repo/lie_nn/_src/util.py` lines
118-159).  `emptyNone` is the outcome of `np.empty(None)`, which depends on the version of numpy;
`np.empty(shape)` with a zero in the shape has no element. -/
def vmap (emptyNone : Py VOut) (f : List NDArr → Py VOut) (inAxes : InAxes) (outAxes : ℕ)
    (outShape : Option (List ℕ)) (args : List NDArr) : Py VOut := do
  let axes : List (Option ℕ) := match inAxes with
    | .int k => List.replicate args.length (some k)
    | .tuple l => l
  pyAssert (axes.length = args.length)
  let dims ← vmapDims (args.zip axes)
  match dims.dedup with
  | [dim] =>
    let output ← (List.range dim).mapM fun i => f (vmapArgs (args.zip axes) i)
    match output with
    | [] =>
      match outShape with
      | none => emptyNone
      | some s => .ok (.arr ⟨s.take outAxes ++ 0 :: s.drop outAxes, fun _ => 0⟩)
    | .tup _ :: _ => do
      let l ← output.mapM VOut.asTup
      let r ← (zipStar l).mapM fun l => npStack l outAxes
      .ok (.tup r)
    | .arr _ :: _ => do
      let l ← output.mapM VOut.asArr
      let r ← npStack l outAxes
      .ok (.arr r)
  | _ => .error .assertionError

/-- The array of a stack of matrices. -/
def ofStack {n d e : ℕ} (X : Fin n → Matrix (Fin d) (Fin e) ℂ) : NDArr where
  shape := [n, d, e]
  get := fun
    | [i, p, q] => if h : i < n ∧ p < d ∧ q < e then X ⟨i, h.1⟩ ⟨p, h.2.1⟩ ⟨q, h.2.2⟩ else 0
    | _ => 0

/-- The matrix of a two-dimensional array. -/
def NDArr.toMat (a : NDArr) (d e : ℕ) : Matrix (Fin d) (Fin e) ℂ := fun p q => a.get [p, q]

/-- The array of a matrix. -/
def ofMat {d e : ℕ} (X : Matrix (Fin d) (Fin e) ℂ) : NDArr where
  shape := [d, e]
  get := fun
    | [p, q] => if h : p < d ∧ q < e then X ⟨p, h.1⟩ ⟨q, h.2⟩ else 0
    | _ => 0

/-- `commutator(A, B) = A @ B - B @ A` (`/repo/lie_nn/_src/util.py` lines 175-176) on arrays: `matmul`
raises `ValueError` for sizes that do not fit. -/
def npCommutator : List NDArr → Py VOut
  | [a, b] =>
    match a.shape, b.shape with
    | [d, e], [d', e'] =>
      if d = e ∧ d' = e' ∧ d = d' then
        .ok (.arr (ofMat (a.toMat d d * b.toMat d d - b.toMat d d * a.toMat d d)))
      else .error .valueError
    | _, _ => .error .valueError
  | _ => .error .typeError

/-- `left_side` of `check_algebra_vs_generators` (`/repo/lie_nn/_src/util.py` line 445). -/
def leftSide (emptyNone : Py VOut) (x : NDArr) : Py VOut :=
  vmap emptyNone (fun args => vmap emptyNone npCommutator (.tuple [some 0, none]) 0 none args)
    (.tuple [none, some 0]) 1 none [x, x]

end LieNN
