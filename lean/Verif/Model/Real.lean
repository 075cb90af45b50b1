import Verif.Model.LinAlg
/-!
# Real forms (`/repo/lie_nn/_src/real.py`)

`scipy.linalg.sqrtm` and `np.linalg.pinv` are parameters.
-/
namespace LieNN

open Matrix

variable {n h d : ℕ}

/-- `is_real(rep)` (`/repo/lie_nn/_src/real.py` lines 7-9). -/
noncomputable def Rep.isReal (eigh : EighFn) (r : Rep n h d) : Py Bool := do
  let S ← Rep.inferChangeOfBasis eigh r r.conjugate
  pure (decide (0 < S.length))

/-- `np.linalg.norm(rep.X.imag)`: the 2-norm of the flattened array. -/
noncomputable def imagNorm (X : Fin n → Matrix (Fin d) (Fin d) ℂ) : ℝ :=
  Real.sqrt (∑ a, ∑ i, ∑ j, (X a i j).im ^ 2)

open Classical in
/-- `make_explicitly_real(rep)` (`/repo/lie_nn/_src/real.py` lines 12-20), with the identity as
`round_fn`. -/
noncomputable def Rep.makeExplicitlyReal (eigh : EighFn)
    (sqrtm pinv : Matrix (Fin d) (Fin d) ℂ → Matrix (Fin d) (Fin d) ℂ) (r : Rep n h d) :
    Py (Rep n h d) := do
  let S ← Rep.inferChangeOfBasis eigh r r.conjugate
  match S with
  | [] => .error .valueError
  | [S₀] =>
    let r' := r.changeBasis (sqrtm S₀) (pinv (sqrtm S₀))
    if 1 / 10 ^ 10 < imagNorm r'.X then .error .valueError else pure r'
  | _ => .error .assertionError

end LieNN
