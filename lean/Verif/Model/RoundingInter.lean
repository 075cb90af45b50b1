import Verif.Model.Rounding
import Verif.Model.BasisInter
/-!
# Runs of `basis_intersection` with rounding errors

The conventions are those of `Verif.Model.Rounding` and `Verif.Model.BasisInter`.  The arrays are real
(`float64`), so `eigh` returns real eigenvectors.
-/
namespace LieNN

open Classical in
/-- One of the two results (`/repo/lie_nn/_src/util.py` lines 433-438): the rows of `x @ x.T`, where `x` has the
rows `f` of the selected columns `v[:, w < epsilon]`, are computed with errors, then `gram_schmidt`. -/
def InterSideRun (δ eps : ℝ) {n N : ℕ} (f : Fin n → Fin N) (w : Fin N → ℝ) (v : Fin N → Vec N)
    (P : List (Vec n)) : Prop :=
  ∃ rows : Fin n → Vec n,
    (∀ i, ‖rows i - interRows f (Finset.univ.filter fun k => w k < eps) v i‖ ≤ δ) ∧
    LoopRun δ eps (List.ofFn rows) [] P

/-- `basis_intersection(basis1, basis2, epsilon=eps)` on real arrays (`/repo/lie_nn/_src/util.py` lines
392-439) ends with `res`; `eigh` is applied to a matrix within `δ` of `p`.  `np.reshape(basis, (0, -1))` raises
`ValueError`. -/
def InterRun (δ eps : ℝ) {n₁ n₂ D : ℕ} (B₁ : Matrix (Fin n₁) (Fin D) ℂ) (B₂ : Matrix (Fin n₂) (Fin D) ℂ)
    (res : Py (List (Vec n₁) × List (Vec n₂))) : Prop :=
  ((n₁ = 0 ∨ n₂ = 0) ∧ res = .error .valueError) ∨
  (¬ (n₁ = 0 ∨ n₂ = 0) ∧ ∃ w v, EighRun δ (interMatrix B₁ B₂) w v ∧ (∀ k i, (v k i).im = 0) ∧
    ∃ P₁ P₂, InterSideRun δ eps (Fin.castAdd n₂) w v P₁ ∧ InterSideRun δ eps (Fin.natAdd n₁) w v P₂ ∧
      res = .ok (P₁, P₂))

end LieNN
