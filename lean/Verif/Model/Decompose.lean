import Verif.Model.LinAlg
/-!
# `unique_with_tol`, `eigenspaces`, `decompose_rep_into_irreps`

Simplifications: exact arithmetic; `round_fn` is the identity; `np.linalg.eig` and the random
weights are arguments.  The `while True` loop is run with fuel, `none` meaning that it is still
running.
-/
namespace LieNN

open Matrix

section unique

variable {E : Type*} [NormedAddCommGroup E] [NormedSpace ℝ E] {n : ℕ}

open Classical in
/-- The loop of `unique_with_tol` (`/repo/lie_nn/_src/util.py` lines 525-538).  `inv j = none` is
`inverses[j] == -1`; `find?` gives `m[0]`. -/
noncomputable def uwtLoop (tol : ℝ) (a : Fin n → E) :
    ℕ → (Fin n → Option ℕ) → ℕ → Option (Py (Fin n → Option ℕ))
  | 0, _, _ => none
  | fuel + 1, inv, index =>
    match (List.finRange n).find? (fun i => decide (inv i = none)) with
    | none => some (.ok inv)
    | some i =>
      if ∃ j, ‖a i - a j‖ < tol ∧ inv j ≠ none then some (.error .valueError)
      else uwtLoop tol a fuel (fun j => if ‖a i - a j‖ < tol then some index else inv j) (index + 1)

/-- The result of `unique_with_tol`. -/
structure Clusters (E : Type*) (n : ℕ) where
  /-- `centers` -/
  centers : List E
  /-- `inverses` -/
  inverses : Fin n → ℕ

/-- `centers[c]`: the sum of the elements of the cluster divided by their number
(`/repo/lie_nn/_src/util.py` lines 541-542). -/
noncomputable def clusterCenter (a : Fin n → E) (inv : Fin n → ℕ) (c : ℕ) : E :=
  (((Finset.univ.filter fun j => inv j = c).card : ℝ))⁻¹ • ∑ j ∈ Finset.univ.filter (fun j => inv j = c), a j

/-- `unique_with_tol(a, tol=tol)` (`/repo/lie_nn/_src/util.py` lines 502-545); `np.max` of an empty
array raises `ValueError`. -/
noncomputable def uniqueWithTol (tol : ℝ) (a : Fin n → E) (fuel : ℕ) :
    Option (Py (Clusters E n)) :=
  match uwtLoop tol a fuel (fun _ => none) 0 with
  | none => none
  | some (.error e) => some (.error e)
  | some (.ok inv) =>
    if n = 0 then some (.error .valueError)
    else
      let inv' : Fin n → ℕ := fun j => (inv j).getD 0
      some (.ok ⟨(List.range (Finset.univ.sup inv' + 1)).map (clusterCenter a inv'), inv'⟩)

end unique

section decompose

variable {n d : ℕ}

/-- `eigenspaces(val, vec)` (`/repo/lie_nn/_src/util.py` lines 548-560): for every cluster of
eigenvalues, the list of the columns of `vec` in it. -/
noncomputable def eigenspaces (eps : ℝ) (val : Fin d → ℂ) (vec : Fin d → Vec d) (fuel : ℕ) :
    Option (Py (List (ℂ × List (Vec d)))) :=
  match uniqueWithTol eps val fuel with
  | none => none
  | some (.error e) => some (.error e)
  | some (.ok c) => some (.ok (c.centers.mapIdx fun j v =>
      (v, ((List.finRange d).filter fun i => c.inverses i = j).map vec)))

/-- The rows of `B.T.conj() @ B` for a list `B` of rows. -/
noncomputable def gramRows (B : List (Vec d)) : List (Vec d) :=
  List.ofFn fun i : Fin d => (B.map fun b => starRingEnd ℂ (b i) • b).sum

/-- `B @ X @ B.T.conj()` for a list `B` of rows. -/
def compress (X : Matrix (Fin d) (Fin d) ℂ) (B : List (Vec d)) :
    Matrix (Fin B.length) (Fin B.length) ℂ :=
  fun i j => ∑ p, ∑ q, (B.get i) p * X p q * starRingEnd ℂ ((B.get j) q)

/-- The body of the loop of `decompose_rep_into_irreps` (`/repo/lie_nn/_src/util.py` lines
580-581): the orthonormal rows for the eigenspace with columns `W`. -/
noncomputable def blockRows (eps : ℝ) (W : List (Vec d)) : List (Vec d) :=
  gramSchmidt eps (gramRows (gramSchmidt eps W))

/-- A stack of `n` square matrices with run-time size. -/
abbrev Block (n : ℕ) := Σ k : ℕ, Fin n → Matrix (Fin k) (Fin k) ℂ

/-- `np.linalg.eig`: eigenvalues and the columns of the eigenvector matrix. -/
def EigFn := ∀ d : ℕ, Matrix (Fin d) (Fin d) ℂ → (Fin d → ℂ) × (Fin d → Vec d)

/-- `/repo/lie_nn/_src/util.py` lines 575-584: from the commuting matrix `M` to the blocks. -/
noncomputable def decomposeFrom (eig : EigFn) (eps : ℝ) (X : Fin n → Matrix (Fin d) (Fin d) ℂ)
    (M : Matrix (Fin d) (Fin d) ℂ) (fuel : ℕ) : Option (Py (List (Block n))) :=
  match eigenspaces eps (eig d M).1 (eig d M).2 fuel with
  | none => none
  | some (.error e) => some (.error e)
  | some (.ok spaces) => some (.ok (spaces.map fun s =>
      ⟨(blockRows eps s.2).length, fun a => compress (X a) (blockRows eps s.2)⟩))

/-- `decompose_rep_into_irreps(X)` (`/repo/lie_nn/_src/util.py` lines 563-584); `w` are the random
weights. -/
noncomputable def decomposeRep (eigh : EighFn) (eig : EigFn) (w : ℕ → ℝ) (eps : ℝ)
    (X : Fin n → Matrix (Fin d) (Fin d) ℂ) (fuel : ℕ) : Option (Py (List (Block n))) :=
  match inferChangeOfBasis eigh eps X X with
  | .error e => some (.error e)
  | .ok Q => decomposeFrom eig eps X (∑ l : Fin Q.length, ((w l : ℝ) : ℂ) • Q.get l) fuel

end decompose

end LieNN
