import Verif.Model.Rounding
/-!
# Runs of `sequential_nullspace` with rounding errors

The conventions are those of `Verif.Model.Rounding`: every arithmetic operation may be off by an error of
norm at most `δ`, and a run is a relation between the input and the possible outputs.  `round_fn` is its
default, the identity.
-/
namespace LieNN

open Matrix

/-- The update of `S` by one matrix (`/repo/lie_nn/_src/util.py` lines 320-325) gives `R`: the product
`A @ S.T` is computed as `M`, `nullspace` returns `N`, and every row of `N @ S` is computed with an
error. -/
def SeqStepRun (δ eps : ℝ) {n : ℕ} (A : Constraint n) : Option (List (Vec n)) → List (Vec n) → Prop
  | none, R => NullRun δ eps A.2 R
  | some S, R => ∃ M : Matrix (Fin A.1) (Fin S.length) ℂ,
      (∀ x : Vec S.length, ‖(WithLp.toLp 2 (M *ᵥ x.ofLp) : Vec A.1) -
        WithLp.toLp 2 (mulRows A.2 S *ᵥ x.ofLp)‖ ≤ δ * ‖x‖) ∧
      ∃ N : List (Vec S.length), NullRun δ eps M N ∧
        List.Forall₂ (fun r c => ‖r - combRow S c‖ ≤ δ) R N

/-- The loop of `sequential_nullspace` (`/repo/lie_nn/_src/util.py` lines 317-339) over the matrices, with
the current value of `S`, ends with `res`. -/
def SeqLoopRun (δ eps : ℝ) {n : ℕ} (dim : ℕ) :
    List (Constraint n) → Option (List (Vec n)) → Py (List (Vec n)) → Prop
  | [], _, res => res = .error .valueError
  | A :: gen, S, res => ∃ S', SeqStepRun δ eps A S S' ∧
      ((S'.length ≤ dim ∧ res = .ok S') ∨
        (¬ S'.length ≤ dim ∧ SeqLoopRun δ eps dim gen (some S') res))

/-- `sequential_nullspace(gen_A, dim_null_space, epsilon=eps)` (`/repo/lie_nn/_src/util.py` lines 297-339)
ends with `res`. -/
def SeqRun (δ eps : ℝ) {n : ℕ} (gen : List (Constraint n)) (dim : ℕ) (res : Py (List (Vec n))) : Prop :=
  SeqLoopRun δ eps dim gen none res

end LieNN
