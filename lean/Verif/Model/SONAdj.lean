import Verif.Model.Basic
import Mathlib.Data.Matrix.Basic
import Mathlib.Data.Real.Basic
/-!
# Model of `SON_adjoint` (`/repo/lie_nn/_src/irreps/son.py` lines 69-157)

The methods that return the class `NotImplementedError` (`algebra`, line 84-85) and `create_trivial`
(lines 154-157), which needs `self.A`, are not modelled.
-/
namespace LieNN.SONAdj

/-- `E(i, j, rank)` (`/repo/lie_nn/_src/irreps/son.py` lines 69-73); an index outside the array raises
`IndexError`. -/
noncomputable def E (i j rank : ℕ) : Py (Matrix (Fin rank) (Fin rank) ℝ) :=
  if i < rank ∧ j < rank then .ok (Matrix.of fun a b => if (a : ℕ) = i ∧ (b : ℕ) = j then 1 else 0)
  else .error .indexError

/-- `E(i, j, n) - E(k, l, n)`. -/
noncomputable def diff (n i j k l : ℕ) : Py (Matrix (Fin n) (Fin n) ℝ) := do
  let x ← E i j n
  let y ← E k l n
  pure (x - y)

/-- `np.stack` of a list of matrices raises `ValueError` for the empty list. -/
def stack {α : Type} (L : List (Py α)) : Py (List α) := do
  let L ← L.mapM id
  match L with
  | [] => .error .valueError
  | x :: xs => pure (x :: xs)

/-- `for i in range(n2) for j in range(n2) if i != j`. -/
def offDiag (m : ℕ) : List (ℕ × ℕ) :=
  (List.range m).flatMap fun i => ((List.range m).filter fun j => i ≠ j).map fun j => (i, j)

/-- The arrays `Hs`, `Xs`, `Ys`, `Zs`, which both branches compute with the same expressions
(`/repo/lie_nn/_src/irreps/son.py` lines 89-114 and 117-142). -/
noncomputable def common (n m : ℕ) : Py (List (Matrix (Fin n) (Fin n) ℝ)) := do
  let Hs ← stack ((List.range m).map fun i => diff n i i (i + m) (i + m))
  let Xs ← stack ((offDiag m).map fun p => diff n p.1 p.2 (m + p.2) (m + p.1))
  let Ys ← stack ((offDiag m).map fun p => diff n p.1 (m + p.2) p.2 (m + p.1))
  let Zs ← stack ((offDiag m).map fun p => diff n (m + p.1) p.2 (m + p.2) p.1)
  pure (Hs ++ Xs ++ Ys ++ Zs)

/-- `SON_adjoint(n)` followed by `continuous_generators()`
(`/repo/lie_nn/_src/irreps/son.py` lines 79-82 and 87-149). -/
noncomputable def generators (n : ℕ) : Py (List (Matrix (Fin n) (Fin n) ℝ)) := do
  pyAssert (3 ≤ n)
  if n % 2 = 0 then common n (n / 2)
  else do
    let m := (n - 1) / 2
    let C ← common n m
    let Us ← stack ((List.range n).map fun i => diff n i (n - 1) (n - 1) i)
    let Vs ← stack ((List.range m).map fun i => diff n (m + i) (n - 1) (n - 1) i)
    pure (C ++ Us ++ Vs)

end LieNN.SONAdj
