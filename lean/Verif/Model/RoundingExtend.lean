import Verif.Model.Rounding
/-!
# Runs of `extend_basis` with rounding errors

Errors as in `Verif.Model.Rounding`: every operation may be off by an error of norm at most `δ`.
-/
namespace LieNN

/-- `gram_schmidt(A, epsilon=eps)` (`/repo/lie_nn/_src/util.py` lines 212-230) on rows within `δ` of `A`
returns `R`. -/
def GramRun (δ eps : ℝ) {n : ℕ} (A R : List (Vec n)) : Prop :=
  ∃ A', List.Forall₂ (fun a b => ‖a - b‖ ≤ δ) A' A ∧ LoopRun δ eps A' [] R

open Classical in
/-- `extend_basis(A, epsilon=eps, returns=...)` (`/repo/lie_nn/_src/util.py` lines 233-261) on rows within
`δ` of `A` ends with `res`; `Q` is the result of `gram_schmidt` (line 247), `Q'` the list after the loop over
the rows of the identity (lines 250-258), and `E` are the vectors added to `Q`; `np.stack([])` raises
`ValueError`. -/
def ExtendRun (δ eps : ℝ) {n : ℕ} (A : List (Vec n)) (ret : Returns) (Q : List (Vec n))
    (res : Py (List (Vec n))) : Prop :=
  GramRun δ eps A Q ∧ ∃ Q', LoopRun δ eps (eyeRows n) Q Q' ∧ res =
    match ret with
    | .Q => if Q' = [] then .error .valueError else .ok Q'
    | .E => if Q'.drop Q.length = [] then .error .valueError else .ok (Q'.drop Q.length)

end LieNN
