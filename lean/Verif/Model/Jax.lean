import Verif.Model.Rep
/-!
# `lie_nn/_src/jax_utils.py`

JAX arrays are exact matrices together with a dtype tag (`Dtype`), because `jax.lax.cond` and
`jax.lax.scan` reject branches whose dtypes differ.  `jnp.empty` is an arbitrary matrix (a parameter
of the model, one per loop iteration).  The exponent is an exact integer: JAX's 32-bit integers are
the sub-range `-2 ^ 31 ≤ n < 2 ^ 32`.
-/
namespace LieNN.Jax

open Matrix NormedSpace

/-- Kind of the dtype of an array: `jnp.eye`, `jnp.empty` and `jnp.ones` are `float`. -/
inductive Dtype where
  | int
  | float
  | complex
  deriving DecidableEq

/-- `body` (/repo/lie_nn/_src/jax_utils.py:18-29): one step of the scan.  `jnp.divmod(n, 2)` is the floor division;
`empty` is the content of `jnp.empty(z.shape)`. -/
def body {d : ℕ} (empty : Matrix (Fin d) (Fin d) ℂ)
    (carry : ℤ × Matrix (Fin d) (Fin d) ℂ × Matrix (Fin d) (Fin d) ℂ) :
    ℤ × Matrix (Fin d) (Fin d) ℂ × Matrix (Fin d) (Fin d) ℂ :=
  let (n, z, result) := carry
  let newN := n.fdiv 2
  let bit := n.fmod 2
  let newResult := if bit ≠ 0 then z * result else result
  let newZ := if newN ≠ 0 then z * z else empty
  (newN, newZ, newResult)

/-- `jax.lax.scan(body, init, None, length=k)[0]`. -/
def scan {d : ℕ} (empty : ℕ → Matrix (Fin d) (Fin d) ℂ)
    (init : ℤ × Matrix (Fin d) (Fin d) ℂ × Matrix (Fin d) (Fin d) ℂ) :
    ℕ → ℤ × Matrix (Fin d) (Fin d) ℂ × Matrix (Fin d) (Fin d) ℂ
  | 0 => init
  | k + 1 => body (empty k) (scan empty init k)

/-- `matrix_power` (/repo/lie_nn/_src/jax_utils.py:13-38).  Both branches of every `cond` are traced: for a `F` that is
not of float dtype the branches of the two conditionals of `body` have different dtypes, whatever `n`
is, and `jax.lax.cond` raises `TypeError`. -/
def matrixPower {d : ℕ} (dt : Dtype) (empty : ℕ → Matrix (Fin d) (Fin d) ℂ)
    (F : Matrix (Fin d) (Fin d) ℂ) (n : ℤ) : Py (Matrix (Fin d) (Fin d) ℂ) :=
  if dt ≠ .float then .error .typeError
  else if n = 1 then .ok F
  else .ok (scan empty (n, F, 1) 32).2.2

/-- `exp_map` (/repo/lie_nn/_src/jax_utils.py:41-51): all the powers first (`jax.vmap`), then the exponential, then the
products from the last discrete generator to the first.  `jax.vmap` traces `matrix_power` also when
there is no discrete generator, so the dtype of `H` is checked first. -/
noncomputable def expMap {n h d : ℕ} (dt : Dtype)
    (empty : Fin h → ℕ → Matrix (Fin d) (Fin d) ℂ)
    (r : Rep n h d) (c : Fin n → ℂ) (k : Fin h → ℤ) : Py (Matrix (Fin d) (Fin d) ℂ) := do
  if dt ≠ .float then throw .typeError
  let discrete ← (List.finRange h).mapM fun i => matrixPower dt (empty i) (r.H i) (k i)
  pure (discrete.foldr (fun x out => x * out) (exp (∑ a, c a • r.X a)))

end LieNN.Jax
