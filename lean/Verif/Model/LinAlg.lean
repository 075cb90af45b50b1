import Mathlib.Analysis.InnerProductSpace.PiL2
import Verif.Model.Rep
/-!
# Numerical linear algebra of `/repo/lie_nn/_src/util.py`

A vector of length `n` is an `EuclideanSpace ℂ (Fin n)`; `inner ℂ w v = ∑ i, conj (w i) * v i` is
`np.dot(np.conj(w), v)` and `‖v‖` is `np.linalg.norm(v)`.  A two-dimensional array is passed as the
list of its rows where the code loops over rows.

Simplifications: exact arithmetic; `round_fn` is its default (the identity); the asserts on
`ndim`/`dtype` hold by typing; `np.linalg.eigh` is an argument (`EighFn`), whose specification is
`LieNN.Spec.EighSpec`.
-/
namespace LieNN

open Matrix

/-- Vectors of length `n`. -/
abbrev Vec (n : ℕ) := EuclideanSpace ℂ (Fin n)

section gs

variable {E : Type*} [NormedAddCommGroup E] [InnerProductSpace ℂ E]

/-- `for w in Q: v -= np.dot(np.conj(w), v) * w`
(`/repo/lie_nn/_src/util.py` lines 224-225 and 252-253). -/
noncomputable def gsReduce (Q : List E) (v : E) : E :=
  Q.foldl (fun v w => v - inner ℂ w v • w) v

open Classical in
/-- The loop of `gram_schmidt` (`/repo/lie_nn/_src/util.py` lines 222-229), and of `extend_basis`
(lines 251-258), starting from the family `Q`: returns the extended family. -/
noncomputable def gsLoop (eps : ℝ) : List E → List E → List E
  | [], Q => Q
  | a :: A, Q =>
    let v := gsReduce Q a
    if eps < ‖v‖ then gsLoop eps A (Q ++ [((‖v‖⁻¹ : ℝ) : ℂ) • v]) else gsLoop eps A Q

open Classical in
/-- The list `E` of `extend_basis` (`/repo/lie_nn/_src/util.py` lines 250-258): the vectors that the
loop adds to `Q`. -/
noncomputable def gsAdded (eps : ℝ) : List E → List E → List E
  | [], _ => []
  | a :: A, Q =>
    let v := gsReduce Q a
    if eps < ‖v‖ then
      (((‖v‖⁻¹ : ℝ) : ℂ) • v) :: gsAdded eps A (Q ++ [((‖v‖⁻¹ : ℝ) : ℂ) • v])
    else gsAdded eps A Q

/-- `gram_schmidt(A, epsilon=eps)` (`/repo/lie_nn/_src/util.py` lines 212-230): the list of rows. -/
noncomputable def gramSchmidt (eps : ℝ) (A : List E) : List E := gsLoop eps A []

end gs

/-- The rows of `np.eye(n)`. -/
noncomputable def eyeRows (n : ℕ) : List (Vec n) :=
  (List.finRange n).map fun i => EuclideanSpace.single i (1 : ℂ)

/-- The argument `returns` of `extend_basis`. -/
inductive Returns where
  | Q
  | E

/-- `extend_basis(A, epsilon=eps, returns=...)` (`/repo/lie_nn/_src/util.py` lines 233-261);
`np.stack([])` raises `ValueError`. -/
noncomputable def extendBasis {n : ℕ} (eps : ℝ) (A : List (Vec n)) : Returns → Py (List (Vec n))
  | .Q =>
    let Q := gsLoop eps (eyeRows n) (gramSchmidt eps A)
    open Classical in if Q = [] then .error .valueError else .ok Q
  | .E =>
    let E := gsAdded eps (eyeRows n) (gramSchmidt eps A)
    open Classical in if E = [] then .error .valueError else .ok E

/-- `np.linalg.eigh`: eigenvalues and the columns of the eigenvector matrix. -/
def EighFn := ∀ n : ℕ, Matrix (Fin n) (Fin n) ℂ → (Fin n → ℝ) × (Fin n → Vec n)

open Classical in
/-- The rows of `np.conj(X.T) @ X` where `X = vec.T[np.abs(val) < epsilon]`
(`/repo/lie_nn/_src/util.py` lines 290-291). -/
noncomputable def nullProj {n : ℕ} (eps : ℝ) (val : Fin n → ℝ) (vec : Fin n → Vec n) :
    Fin n → Vec n :=
  fun i => WithLp.toLp 2 fun j =>
    ∑ k ∈ Finset.univ.filter (fun k => |val k| < eps), starRingEnd ℂ (vec k i) * vec k j

/-- `nullspace(A, epsilon=eps)` (`/repo/lie_nn/_src/util.py` lines 264-294): the list of rows. -/
noncomputable def nullspace (eigh : EighFn) (eps : ℝ) {m n : ℕ} (A : Matrix (Fin m) (Fin n) ℂ) :
    List (Vec n) :=
  let ev := eigh n (Aᴴ * A)
  gramSchmidt eps (List.ofFn (nullProj eps ev.1 ev.2))

/-- `A @ S.T` for a list `S` of rows. -/
def mulRows {m n : ℕ} (A : Matrix (Fin m) (Fin n) ℂ) (S : List (Vec n)) :
    Matrix (Fin m) (Fin S.length) ℂ :=
  fun i l => ∑ j, A i j * (S.get l) j

/-- `N @ S` for a row `N` of length `len(S)` and a list `S` of rows. -/
noncomputable def combRow {n : ℕ} (S : List (Vec n)) (N : Vec S.length) : Vec n :=
  ∑ l, N l • S.get l

/-- A constraint matrix of `sequential_nullspace`: any number of rows, `n` columns. -/
abbrev Constraint (n : ℕ) := Σ m : ℕ, Matrix (Fin m) (Fin n) ℂ

/-- The update of `S` by one matrix (`/repo/lie_nn/_src/util.py` lines 320-325). -/
noncomputable def seqStep (eigh : EighFn) (eps : ℝ) {n : ℕ} (A : Constraint n) :
    Option (List (Vec n)) → List (Vec n)
  | none => nullspace eigh eps A.2
  | some S => (nullspace eigh eps (mulRows A.2 S)).map (combRow S)

/-- The loop of `sequential_nullspace` (`/repo/lie_nn/_src/util.py` lines 317-332) with the current
value of `S` (`none` is Python's `None`). -/
noncomputable def seqNullLoop (eigh : EighFn) (eps : ℝ) {n : ℕ} (dim : ℕ) :
    List (Constraint n) → Option (List (Vec n)) → Py (List (Vec n))
  | [], _ => .error .valueError
  | A :: gen, S =>
    let S' := seqStep eigh eps A S
    if S'.length ≤ dim then .ok S' else seqNullLoop eigh eps dim gen (some S')

/-- `sequential_nullspace(gen_A, dim_null_space)` (`/repo/lie_nn/_src/util.py` lines 297-339). -/
noncomputable def sequentialNullspace (eigh : EighFn) (eps : ℝ) {n : ℕ}
    (gen : List (Constraint n)) (dim : ℕ) : Py (List (Vec n)) :=
  seqNullLoop eigh eps dim gen none

/-- `np.kron(x1, np.eye(d2)) - np.kron(np.eye(d1), x2.T)`
(`/repo/lie_nn/_src/util.py` line 382). -/
def icobBlock {d₁ d₂ : ℕ} (x₁ : Matrix (Fin d₁) (Fin d₁) ℂ) (x₂ : Matrix (Fin d₂) (Fin d₂) ℂ) :
    Matrix (Fin (d₁ * d₂)) (Fin (d₁ * d₂)) ℂ :=
  kron x₁ 1 - kron 1 x₂ᵀ

/-- `np.concatenate(As, axis=0)` (`/repo/lie_nn/_src/util.py` line 384). -/
def icobMatrix {n d₁ d₂ : ℕ} (X₁ : Fin n → Matrix (Fin d₁) (Fin d₁) ℂ)
    (X₂ : Fin n → Matrix (Fin d₂) (Fin d₂) ℂ) :
    Matrix (Fin (n * (d₁ * d₂))) (Fin (d₁ * d₂)) ℂ :=
  fun i j => icobBlock (X₁ i.divNat) (X₂ i.divNat) i.modNat j

/-- Row-major `reshape(d1, d2)` of a vector of length `d1 * d2`. -/
def unvec {d₁ d₂ : ℕ} (v : Vec (d₁ * d₂)) : Matrix (Fin d₁) (Fin d₂) ℂ :=
  fun i j => v (finProdFinEquiv (i, j))

/-- `infer_change_of_basis(X1, X2)` of `util` (`/repo/lie_nn/_src/util.py` lines 342-389);
`np.concatenate([])` raises `ValueError` when there is no generator. -/
noncomputable def inferChangeOfBasis (eigh : EighFn) (eps : ℝ) {n d₁ d₂ : ℕ}
    (X₁ : Fin n → Matrix (Fin d₁) (Fin d₁) ℂ) (X₂ : Fin n → Matrix (Fin d₂) (Fin d₂) ℂ) :
    Py (List (Matrix (Fin d₁) (Fin d₂) ℂ)) :=
  if n = 0 then .error .valueError
  else .ok ((nullspace eigh eps (icobMatrix X₁ X₂)).map unvec)

/-- `is_irreducible(X)` of `util` (`/repo/lie_nn/_src/util.py` lines 587-589). -/
noncomputable def isIrreducible (eigh : EighFn) (eps : ℝ) {n d : ℕ}
    (X : Fin n → Matrix (Fin d) (Fin d) ℂ) : Py Bool := do
  let Q ← inferChangeOfBasis eigh eps X X
  pure (decide (Q.length = 1))

/-- `np.concatenate([rep.X, rep.H])`
(`/repo/lie_nn/_src/infer_change_of_basis.py` lines 31-32). -/
def Rep.allGens {n h d : ℕ} (r : Rep n h d) : Fin (n + h) → Matrix (Fin d) (Fin d) ℂ :=
  Fin.append r.X r.H

open Classical in
/-- `infer_change_of_basis(rep1, rep2)` (`/repo/lie_nn/_src/infer_change_of_basis.py` lines 9-46),
tolerance `1e-4`.  Line 35-40 checks the result with `assert_allclose`; in exact arithmetic the
checked equality is exact when it holds, and the tolerance version is modelled. -/
noncomputable def Rep.inferChangeOfBasis (eigh : EighFn) {n h d₁ d₂ : ℕ} (r₁ : Rep n h d₁)
    (r₂ : Rep n h d₂) : Py (List (Matrix (Fin d₂) (Fin d₁) ℂ)) := do
  pyAssert (AllCloseA r₁.A r₂.A)
  let S ← LieNN.inferChangeOfBasis eigh (1 / 10 ^ 4) r₂.allGens r₁.allGens
  pyAssert (∀ Q ∈ S, ∀ a i k, IsClose (1 / 10 ^ 8) (1 / 10 ^ 8)
    ((r₂.allGens a * Q) i k) ((Q * r₁.allGens a) i k))
  pure (S.map fun Q => ((Real.sqrt d₂ : ℝ) : ℂ) • Q)

open Classical in
/-- `clebsch_gordan(rep1, rep2, rep3)`, generic
(`/repo/lie_nn/_src/clebsch_gordan.py` lines 10-27): `cg[z, i, j, k]`. -/
noncomputable def Rep.clebschGordan (eigh : EighFn) {n h d₁ d₂ d₃ : ℕ} (r₁ : Rep n h d₁)
    (r₂ : Rep n h d₂) (r₃ : Rep n h d₃) : Py (List (Fin d₁ → Fin d₂ → Fin d₃ → ℂ)) := do
  pyAssert (AllCloseA r₁.A r₂.A)
  let S ← Rep.inferChangeOfBasis eigh (r₁.tensorProduct r₂) r₃
  pure (S.map fun Q i j k => Q k (finProdFinEquiv (i, j)))

end LieNN
