import Verif.Model.LinAlg
import Mathlib.Data.Matrix.Block
/-!
# `basis_intersection` of `/repo/lie_nn/_src/util.py`

Simplifications: as in `Verif.Model.LinAlg` (exact arithmetic, `round_fn` the identity, `eigh` an
argument).  The bases are already reshaped to two axes; the assertion on the trailing shapes holds by
typing.  `.T` is the transpose without conjugation, also for complex arrays.
-/
namespace LieNN

open Matrix

/-- The matrix `p` (`/repo/lie_nn/_src/util.py` lines 420-426). -/
def interMatrix {n₁ n₂ D : ℕ} (B₁ : Matrix (Fin n₁) (Fin D) ℂ) (B₂ : Matrix (Fin n₂) (Fin D) ℂ) :
    Matrix (Fin (n₁ + n₂)) (Fin (n₁ + n₂)) ℂ :=
  (fromBlocks (B₁ * B₁ᵀ) (-B₁ * B₂ᵀ) (-B₂ * B₁ᵀ) (B₂ * B₂ᵀ)).submatrix
    finSumFinEquiv.symm finSumFinEquiv.symm

/-- The rows of `x @ x.T` where `x` has the rows `f` of the columns `v[:, sel]`
(`/repo/lie_nn/_src/util.py` lines 431-438). -/
noncomputable def interRows {n N : ℕ} (f : Fin n → Fin N) (sel : Finset (Fin N)) (v : Fin N → Vec N) :
    Fin n → Vec n :=
  fun i => WithLp.toLp 2 fun j => ∑ k ∈ sel, v k (f i) * v k (f j)

open Classical in
/-- `basis_intersection(basis1, basis2, epsilon=eps)` (`/repo/lie_nn/_src/util.py` lines 392-439):
the lists of rows of the two results.  `np.reshape(basis, (0, -1))` raises `ValueError`. -/
noncomputable def basisIntersection (eigh : EighFn) (eps : ℝ) {n₁ n₂ D : ℕ}
    (B₁ : Matrix (Fin n₁) (Fin D) ℂ) (B₂ : Matrix (Fin n₂) (Fin D) ℂ) :
    Py (List (Vec n₁) × List (Vec n₂)) :=
  if n₁ = 0 ∨ n₂ = 0 then .error .valueError
  else
    let wv := eigh (n₁ + n₂) (interMatrix B₁ B₂)
    let sel := Finset.univ.filter fun k => wv.1 k < eps
    .ok (gramSchmidt eps (List.ofFn (interRows (Fin.castAdd n₂) sel wv.2)),
      gramSchmidt eps (List.ofFn (interRows (Fin.natAdd n₁) sel wv.2)))

end LieNN
