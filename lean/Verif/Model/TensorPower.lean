import Verif.Model.Reduced
/-!
# `tensor_power` on tabulated irreps, `MulIrrep`s and `ReducedRep`s

`/repo/lie_nn/_src/tensor_product.py` lines 131-141, with the dispatch on the classes of the two
arguments (lines 11-127).

Simplifications.  An object is one of the three classes over one table of irreps (`GenericRep` is in
`LieNN.GRep.tensorPower`).  `create_trivial` of the table, the first element of its iterator
(`/repo/lie_nn/_src/irrep.py` lines 34-36), is the argument `triv`.  The loop has fuel; `none` means
that it has not returned yet.
-/
namespace LieNN

variable {n h : ℕ} {T : Table n h}

/-- The classes on which `tensor_product` dispatches. -/
inductive IrRep (T : Table n h) where
  /-- `TabulatedIrrep` -/
  | tab (i : T.Ir)
  /-- `MulIrrep` -/
  | mul (m : MulIr T)
  /-- `ReducedRep` -/
  | red (r : ReducedRep T)

namespace IrRep

/-- `create_trivial`: of the class (`/repo/lie_nn/_src/irrep.py` lines 34-36), of the irrep
(`/repo/lie_nn/_src/reduced_rep.py` lines 43-44), of the first block (lines 133-134; `IndexError`
when there is none). -/
def createTrivial (triv : Py T.Ir) : IrRep T → Py (IrRep T)
  | tab _ => do
    let t ← triv
    pure (tab t)
  | mul _ => do
    let t ← triv
    pure (tab t)
  | red r =>
    match r.irreps with
    | [] => .error .indexError
    | _ :: _ => do
      let t ← triv
      pure (tab t)

/-- `tensor_product(rep1, rep2)`: the overload of the two classes
(`/repo/lie_nn/_src/tensor_product.py` lines 27-127). -/
noncomputable def tensorProduct : IrRep T → IrRep T → Py (ReducedRep T)
  | tab i, tab j => tpTab i j
  | tab i, mul b => tpTabMul i b
  | tab i, red r => tpTabRed i r
  | mul a, tab j => tpMulTab a j
  | mul a, mul b => tpMul a b
  | mul a, red r => tpMulRed a r
  | red r, tab j => tpRedTab r j
  | red r, mul b => tpRedMul r b
  | red r, red s => tpRed r s

/-- The loop of `tensor_power` (`/repo/lie_nn/_src/tensor_product.py` lines 134-141). -/
noncomputable def tensorPowerLoop : ℕ → IrRep T → IrRep T → ℤ → Option (Py (IrRep T))
  | 0, _, _, _ => none
  | fuel + 1, rep, result, N =>
    match (if N % 2 = 1 then (do
        let r ← tensorProduct rep result
        pure (red r)) else .ok result) with
    | .error e => some (.error e)
    | .ok result =>
      if N / 2 = 0 then some (.ok result)
      else match tensorProduct rep rep with
        | .error e => some (.error e)
        | .ok rep => tensorPowerLoop fuel (red rep) result (N / 2)

/-- `tensor_power(rep, n)` (`/repo/lie_nn/_src/tensor_product.py` lines 131-141). -/
noncomputable def tensorPower (fuel : ℕ) (triv : Py T.Ir) (rep : IrRep T) (N : ℤ) :
    Option (Py (IrRep T)) :=
  match createTrivial triv rep with
  | .error e => some (.error e)
  | .ok t => tensorPowerLoop fuel rep t N

end IrRep

end LieNN
