import Verif.Model.SUNCG
import Verif.Model.LinAlg
import Verif.Model.Rational
/-!
# `SU2_` (`/repo/lie_nn/_src/irreps/sun.py` lines 490-498)

Simplifications: as in `Verif.Model.SUNCG`; the eigenvectors that `np.linalg.eigh` returns for a real
matrix are real, so that `conj(X.T) @ X` is real: here its real part is taken.
-/
namespace LieNN.SUN

open Matrix

/-- The inner loop of `gram_schmidt` (`/repo/lie_nn/_src/util.py` lines 224-225), on real vectors. -/
def gsReduceR {n : ℕ} (Q : List (Fin n → ℝ)) (v : Fin n → ℝ) : Fin n → ℝ :=
  Q.foldl (fun v w => v - (w ⬝ᵥ v) • w) v

/-- `gram_schmidt(A, epsilon=eps, round_fn=rnd)` (`/repo/lie_nn/_src/util.py` lines 212-230), on real
vectors; `rnd` acts entry by entry. -/
noncomputable def gsRnd {n : ℕ} (rnd : ℝ → ℝ) (eps : ℝ) : List (Fin n → ℝ) → List (Fin n → ℝ) → List (Fin n → ℝ)
  | [], Q => Q
  | a :: A, Q =>
    let v := gsReduceR Q a
    let norm := Real.sqrt (v ⬝ᵥ v)
    open Classical in
    if eps < norm then gsRnd rnd eps A (Q ++ [fun i => rnd (v i / norm)]) else gsRnd rnd eps A Q

/-- `nullspace(A, epsilon=eps, round_fn=rnd)` (`/repo/lie_nn/_src/util.py` lines 264-293) of a real
matrix. -/
noncomputable def nullRnd (rnd : ℝ → ℝ) (eigh : EighFn) (eps : ℝ) (m n : ℕ) (A : Matrix (Fin m) (Fin n) ℝ) :
    List (Fin n → ℝ) :=
  let B : Matrix (Fin n) (Fin n) ℝ := (Aᵀ * A).map rnd
  let ev := eigh n (B.map ((↑) : ℝ → ℂ))
  let X : Fin n → Fin n → ℝ := fun i j => rnd ((nullProj eps ev.1 ev.2 i j).re)
  gsRnd rnd eps (List.ofFn X) []

/-- `SU2_.__post_init__` (`/repo/lie_nn/_src/irreps/sun.py` lines 492-493): only the length is checked. -/
def makeSU2 (S : List ℤ) : Py (List ℤ) := do
  pyAssert (S.length = 2)
  pure S

/-- The element number `j` of `SU2_.iterator` (`/repo/lie_nn/_src/irreps/sun.py` lines 495-498). -/
def iterSU2 (j : ℕ) : Py (List ℤ) := makeSU2 [(j : ℤ), 0]

/-- `SU2_.clebsch_gordan(rep1, rep2, rep3)`, which is `SUN.clebsch_gordan`
(`/repo/lie_nn/_src/irreps/sun.py` lines 459-462), with the `nullspace` of the code, its default
`epsilon=1e-4` and `round_fn=rnd` (line 302). -/
noncomputable def cgSU2 (rnd : ℝ → ℝ) (eigh : EighFn) (fuel d₁ d₂ d₃ : ℕ) (S₁ S₂ S₃ : List ℤ) :
    Option (Py (List (Fin d₁ → Fin d₂ → Fin d₃ → ℝ))) :=
  clebschGordanMatrix rnd (nullRnd rnd eigh (1 / 10 ^ 4)) fuel d₁ d₂ d₃ S₁ S₂ S₃

end LieNN.SUN
