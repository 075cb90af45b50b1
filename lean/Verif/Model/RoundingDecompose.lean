import Verif.Model.Rounding
import Verif.Model.Decompose
/-!
# Runs of `unique_with_tol` and `decompose_rep_into_irreps` with rounding errors

As in `Verif.Model.Rounding`, a run is a relation between the input and the possible outputs: every
arithmetic operation may be off by an error of norm at most `δ`.  The eigenvalues and eigenvectors
returned by `np.linalg.eig` are arguments; `round_fn` is the identity.
-/
namespace LieNN

open Matrix

section unique

variable {E : Type*} [NormedAddCommGroup E] [NormedSpace ℝ E] {n : ℕ}

open Classical in
/-- The loop of `unique_with_tol` (`/repo/lie_nn/_src/util.py` lines 525-538) on the computed array
`distances`. -/
noncomputable def uwtLoopD (tol : ℝ) (distances : Fin n → Fin n → ℝ) :
    ℕ → (Fin n → Option ℕ) → ℕ → Option (Py (Fin n → Option ℕ))
  | 0, _, _ => none
  | fuel + 1, inv, index =>
    match (List.finRange n).find? (fun i => decide (inv i = none)) with
    | none => some (.ok inv)
    | some i =>
      if ∃ j, distances i j < tol ∧ inv j ≠ none then some (.error .valueError)
      else uwtLoopD tol distances fuel (fun j => if distances i j < tol then some index else inv j) (index + 1)

/-- `unique_with_tol(a, tol=tol)` (`/repo/lie_nn/_src/util.py` lines 502-545) ends with `res`: the
distances and the centers are computed with errors of at most `δ`. -/
def UniqueRun (δ tol : ℝ) (a : Fin n → E) (fuel : ℕ) (res : Option (Py (Clusters E n))) : Prop :=
  ∃ distances : Fin n → Fin n → ℝ, (∀ i j, |distances i j - ‖a i - a j‖| ≤ δ) ∧
    match uwtLoopD tol distances fuel (fun _ => none) 0 with
    | none => res = none
    | some (.error e) => res = some (.error e)
    | some (.ok inv) =>
      if n = 0 then res = some (.error .valueError)
      else
        let inv' : Fin n → ℕ := fun j => (inv j).getD 0
        ∃ centers : List E, centers.length = Finset.univ.sup inv' + 1 ∧
          (∀ c (hc : c < centers.length), ‖centers[c] - clusterCenter a inv' c‖ ≤ δ) ∧
          res = some (.ok ⟨centers, inv'⟩)

end unique

section decompose

variable {n d : ℕ}

/-- `/repo/lie_nn/_src/util.py` lines 580-581: the two calls of `gram_schmidt` on the columns `W` of an
eigenspace end with the rows `B`; the product `B.T.conj() @ B` has errors of at most `δ`. -/
def BlockRun (δ eps : ℝ) (W B : List (Vec d)) : Prop :=
  ∃ B₁, LoopRun δ eps W [] B₁ ∧ ∃ rows : Fin d → Vec d,
    (∀ i, ‖rows i - (B₁.map fun b => starRingEnd ℂ (b i) • b).sum‖ ≤ δ) ∧
    LoopRun δ eps (List.ofFn rows) [] B

/-- `/repo/lie_nn/_src/util.py` lines 576-584 on the eigenvalues `val` and eigenvectors `vec` returned by
`np.linalg.eig`: `eigenspaces` (lines 548-560), the loop over the eigenspaces and the products
`B @ X @ B.T.conj()`, which have errors of at most `δ` in every entry. -/
def DecomposeRun (δ eps : ℝ) (X : Fin n → Matrix (Fin d) (Fin d) ℂ) (val : Fin d → ℂ)
    (vec : Fin d → Vec d) (fuel : ℕ) (res : Option (Py (List (Block n)))) : Prop :=
  ∃ cl, UniqueRun δ eps val fuel cl ∧
    match cl with
    | none => res = none
    | some (.error e) => res = some (.error e)
    | some (.ok c) => ∃ Ys : List (Block n), res = some (.ok Ys) ∧ Ys.length = c.centers.length ∧
        ∀ j (hj : j < Ys.length), ∃ B,
          BlockRun δ eps (((List.finRange d).filter fun i => c.inverses i = j).map vec) B ∧
          ∃ h : Ys[j].1 = B.length, ∀ a p q,
            ‖Ys[j].2 a p q - compress (X a) B (Fin.cast h p) (Fin.cast h q)‖ ≤ δ

end decompose

end LieNN
