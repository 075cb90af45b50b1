import Verif.Model.LinAlg
/-!
# `infer_algebra_from_generators`, `unique_with_tol`, `regular_representation`

Simplifications: exact arithmetic; `np.linalg.pinv` is an argument; `round_fn` is the identity.
-/
namespace LieNN

open Matrix

/-- `X.reshape((n, -1))` (`/repo/lie_nn/_src/util.py` line 473). -/
def flatGens {n d : ℕ} (X : Fin n → Matrix (Fin d) (Fin d) ℂ) : Matrix (Fin n) (Fin (d * d)) ℂ :=
  fun k p => X k p.divNat p.modNat

/-- The array `algebra` filled by `infer_algebra_from_generators`
(`/repo/lie_nn/_src/util.py` lines 475-479).  It is allocated by `np.zeros`, so it is real: storing a
complex number keeps its real part only (NumPy warns). -/
def inferredAlgebra {n d : ℕ} (X : Fin n → Matrix (Fin d) (Fin d) ℂ)
    (pinv : Matrix (Fin (d * d)) (Fin n) ℂ) : Fin n → Fin n → Fin n → ℂ :=
  fun i j k => (((∑ p : Fin (d * d), commutator (X i) (X j) p.divNat p.modNat * pinv p k).re : ℝ) : ℂ)

/-- `check_algebra_vs_generators(A, X, rtol, atol)` (`/repo/lie_nn/_src/util.py` lines 442-449), the
returned boolean. -/
def CheckAlgebra {n d : ℕ} (rtol atol : ℝ) (A : Fin n → Fin n → Fin n → ℂ)
    (X : Fin n → Matrix (Fin d) (Fin d) ℂ) : Prop :=
  ∀ i j a b, IsClose atol rtol (commutator (X i) (X j) a b) (∑ k, A i j k * X k a b)

open Classical in
/-- `infer_algebra_from_generators(X)` (`/repo/lie_nn/_src/util.py` lines 452-486); `pinv` is
`np.linalg.pinv(X.reshape((n, -1)))`, `none` is Python's `None`. -/
noncomputable def inferAlgebra {n d : ℕ} (rtol atol : ℝ) (X : Fin n → Matrix (Fin d) (Fin d) ℂ)
    (pinv : Matrix (Fin (d * d)) (Fin n) ℂ) : Option (Fin n → Fin n → Fin n → ℂ) :=
  if CheckAlgebra rtol atol (inferredAlgebra X pinv) X then some (inferredAlgebra X pinv) else none

/-- `GenericRep.from_generators(X, H)` (`/repo/lie_nn/_src/rep.py` lines 105-115); `H = None` is the
family with no element. -/
noncomputable def Rep.fromGenerators {n h d : ℕ} (X : Fin n → Matrix (Fin d) (Fin d) ℂ)
    (H : Fin h → Matrix (Fin d) (Fin d) ℂ) (pinv : Matrix (Fin (d * d)) (Fin n) ℂ) :
    Option (Rep n h d) :=
  match inferAlgebra (1 / 10 ^ 10) (1 / 10 ^ 10) X pinv with
  | none => none
  | some A => some ⟨A, X, H⟩

/-- `regular_representation(table)` (`/repo/lie_nn/_src/util.py` lines 592-606): starting from
zeros, `reg_rep[g, gh, h] = 1` for all `g, h`. -/
def regularRepresentation {n : ℕ} (table : Fin n → Fin n → Fin n) :
    Fin n → Matrix (Fin n) (Fin n) ℂ :=
  fun g i h => if i = table g h then 1 else 0

end LieNN
