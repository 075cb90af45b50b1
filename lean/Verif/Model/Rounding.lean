import Verif.Model.LinAlg
/-!
# Runs of `gram_schmidt`, `nullspace`, `infer_change_of_basis` and `is_irreducible` with rounding errors

The other models compute in exact arithmetic.  Here every arithmetic operation may be off by an error of
norm at most `δ`, in any direction and different at every step: a run is a relation between the input and
the possible outputs, and a theorem about all runs covers every rounding mode and every order of the
sums inside `np.dot`, `@` and LAPACK.

Vectors in these functions have norm at most about one, so an error of relative size `u` per operation is
an absolute error of a multiple of `u`.  Overflow, NaN and `round_fn` are not modelled.
-/
namespace LieNN

open Matrix

section gs

variable {E : Type*} [NormedAddCommGroup E] [InnerProductSpace ℂ E]

/-- `for w in Q: v -= np.dot(np.conj(w), v) * w` (`/repo/lie_nn/_src/util.py` lines 224-225) ends in
`v'`, every step with an error of at most `δ`. -/
def ReduceRun (δ : ℝ) : List E → E → E → Prop
  | [], v, v' => v' = v
  | w :: Q, v, v' => ∃ v₁, ‖v₁ - (v - inner ℂ w v • w)‖ ≤ δ ∧ ReduceRun δ Q v₁ v'

/-- The loop of `gram_schmidt` (`/repo/lie_nn/_src/util.py` lines 222-229) over the rows, starting from
the family `Q`, ends with the family `R`; `ν` is the computed norm. -/
def LoopRun (δ eps : ℝ) : List E → List E → List E → Prop
  | [], Q, R => R = Q
  | a :: A, Q, R => ∃ v, ReduceRun δ Q a v ∧ ∃ ν : ℝ, |ν - ‖v‖| ≤ δ ∧
      ((eps < ν ∧ ∃ q, ‖q - ((ν⁻¹ : ℝ) : ℂ) • v‖ ≤ δ ∧ LoopRun δ eps A (Q ++ [q]) R) ∨
        (¬ eps < ν ∧ LoopRun δ eps A Q R))

end gs

/-- `val, vec = np.linalg.eigh(M)` computed from a matrix within `δ` of `M` by a backward stable method
(`/repo/lie_nn/_src/util.py` lines 287-289): there is an orthonormal basis `U` within `δ` of the columns
of `vec`, in which `val` is the diagonal of a matrix within `δ` of `M`. -/
def EighRun (δ : ℝ) {n : ℕ} (M : Matrix (Fin n) (Fin n) ℂ) (val : Fin n → ℝ) (vec : Fin n → Vec n) :
    Prop :=
  ∃ U : OrthonormalBasis (Fin n) ℂ (Vec n),
    (∀ x : Vec n, ‖(WithLp.toLp 2 (M *ᵥ x.ofLp) : Vec n) -
      ∑ r, ((val r : ℂ) * inner ℂ (U r) x) • U r‖ ≤ δ * ‖x‖) ∧
    ∀ c : Vec n, ‖∑ r, c r • (vec r - U r)‖ ≤ δ * ‖c‖

/-- `nullspace(A, epsilon=eps)` (`/repo/lie_nn/_src/util.py` lines 264-294) returns `R`. -/
def NullRun (δ eps : ℝ) {m n : ℕ} (A : Matrix (Fin m) (Fin n) ℂ) (R : List (Vec n)) : Prop :=
  ∃ val vec, EighRun δ (Aᴴ * A) val vec ∧
    ∃ rows : Fin n → Vec n, (∀ i, ‖rows i - nullProj eps val vec i‖ ≤ δ) ∧
      LoopRun δ eps (List.ofFn rows) [] R

/-- `infer_change_of_basis(X1, X2, epsilon=eps)` (`/repo/lie_nn/_src/util.py` lines 342-389) on
generators within rounding error of `X₁` and `X₂` returns `S`. -/
def ChangeRun (δ eps : ℝ) {n d₁ d₂ : ℕ} (X₁ : Fin n → Matrix (Fin d₁) (Fin d₁) ℂ)
    (X₂ : Fin n → Matrix (Fin d₂) (Fin d₂) ℂ) (S : List (Matrix (Fin d₁) (Fin d₂) ℂ)) : Prop :=
  n ≠ 0 ∧ ∃ R, NullRun δ eps (icobMatrix X₁ X₂) R ∧ S = R.map unvec

/-- `is_irreducible(X, epsilon=eps)` (`/repo/lie_nn/_src/util.py` lines 587-589) returns `b`. -/
def IrreducibleRun (δ eps : ℝ) {n d : ℕ} (X : Fin n → Matrix (Fin d) (Fin d) ℂ) (b : Bool) : Prop :=
  ∃ S, ChangeRun δ eps X X S ∧ b = decide (S.length = 1)

open Classical in
/-- `clebsch_gordan(rep1, rep2, rep3)`, generic (`/repo/lie_nn/_src/clebsch_gordan.py` lines 10-27), which
calls `infer_change_of_basis` (`/repo/lie_nn/_src/infer_change_of_basis.py` lines 9-46): the null space is
computed with errors; the two checks and the factor `sqrt(dim)` are evaluated exactly. -/
def CGRun (δ : ℝ) {n h d₁ d₂ d₃ : ℕ} (r₁ : Rep n h d₁) (r₂ : Rep n h d₂) (r₃ : Rep n h d₃)
    (res : Py (List (Fin d₁ → Fin d₂ → Fin d₃ → ℂ))) : Prop :=
  ∃ S, ChangeRun δ (1 / 10 ^ 4) r₃.allGens (r₁.tensorProduct r₂).allGens S ∧ res = do
    pyAssert (AllCloseA r₁.A r₂.A)
    pyAssert (AllCloseA (r₁.tensorProduct r₂).A r₃.A)
    pyAssert (∀ Q ∈ S, ∀ a i k, IsClose (1 / 10 ^ 8) (1 / 10 ^ 8)
      ((r₃.allGens a * Q) i k) ((Q * (r₁.tensorProduct r₂).allGens a) i k))
    pure (S.map fun Q i j k => ((Real.sqrt d₃ : ℝ) : ℂ) * Q k (finProdFinEquiv (i, j)))

end LieNN
