import Verif.Model.RoundingDecompose
import Verif.Model.Reduce
/-!
# Runs of `reduce` with rounding errors

As in `Verif.Model.RoundingDecompose`, the eigenvalues and eigenvectors returned by `np.linalg.eig` are
arguments; every later operation may be off by an error of norm at most `δ`.
-/
namespace LieNN

open Matrix

variable {n h d : ℕ}

open Classical in
/-- The body of the loop (`/repo/lie_nn/_src/reduce.py` lines 36-40) on the block `Y` ends with `res`.  The
check of `infer_change_of_basis` (`/repo/lie_nn/_src/infer_change_of_basis.py` lines 9-46) compares the
computed products `lhs` and `rhs`; `scaled` is the product with `sqrt(rep.dim)`. -/
def ReduceBlockRun (δ : ℝ) (r : Rep n h d) (Y : Block (n + h)) (res : Py (Piece n h d)) : Prop :=
  ∃ S, ChangeRun δ (1 / 10 ^ 4) r.allGens (blockIr r Y).allGens S ∧
    ∃ (lhs rhs : Matrix (Fin d) (Fin Y.1) ℂ → Fin (n + h) → Matrix (Fin d) (Fin Y.1) ℂ)
      (scaled : Matrix (Fin d) (Fin Y.1) ℂ → Matrix (Fin d) (Fin Y.1) ℂ),
      (∀ Q ∈ S, ∀ a i k, ‖lhs Q a i k - (r.allGens a * Q) i k‖ ≤ δ ∧
        ‖rhs Q a i k - (Q * (blockIr r Y).allGens a) i k‖ ≤ δ) ∧
      (∀ Q ∈ S, ∀ i k, ‖scaled Q i k - ((Real.sqrt d : ℝ) : ℂ) * Q i k‖ ≤ δ) ∧
      res = do
        pyAssert (AllCloseA (blockIr r Y).A r.A)
        pyAssert (∀ Q ∈ S, ∀ a i k, IsClose (1 / 10 ^ 8) (1 / 10 ^ 8) (lhs Q a i k) (rhs Q a i k))
        match S.map scaled with
        | [Q] => pure ⟨Y.1, blockIr r Y, Q⟩
        | _ => if d * Y.1 = 0 then pure ⟨Y.1, blockIr r Y, 0⟩ else .error .valueError

/-- `reduce(rep)` for a `Rep` (`/repo/lie_nn/_src/reduce.py` lines 25-44) ends with `res`; `val` and `vec` are
what `np.linalg.eig` returns inside `decompose_rep_into_irreps`. -/
def ReduceRepRun (δ eps : ℝ) (r : Rep n h d) (val : Fin d → ℂ) (vec : Fin d → Vec d) (fuel : ℕ)
    (res : Option (Py (ReducedRep (genericTable n h)))) : Prop :=
  ∃ out, DecomposeRun δ eps r.allGens val vec fuel out ∧
    match out with
    | none => res = none
    | some (.error e) => res = some (.error e)
    | some (.ok Ys) => ∃ bs : List (Py (Piece n h d)),
        List.Forall₂ (ReduceBlockRun δ r) (Ys.mergeSort fun Y Z => decide (Y.1 ≤ Z.1)) bs ∧
        res = some (do
          let ps ← bs.mapM id
          match ps with
          | [] => .error .valueError
          | ps => pure ⟨r.A, ps.map Piece.mulIr, some ⟨d, _, catQ ps⟩⟩)

end LieNN
