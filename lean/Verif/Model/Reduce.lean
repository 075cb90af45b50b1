import Verif.Model.Decompose
import Verif.Model.Reduced
import Mathlib.Data.List.Sort
/-!
# `reduce` (`/repo/lie_nn/_src/reduce.py`)

`np.linalg.eigh`, `np.linalg.eig` and the random weights are arguments, as in `decomposeRep`.
-/
namespace LieNN

open Matrix

variable {n h d : ℕ}

/-- `GenericRep` (`/repo/lie_nn/_src/rep.py`) objects as the irreps of a `ReducedRep`: they have no product and no Clebsch-Gordan
coefficients. -/
def genericTable (n h : ℕ) : Table n h where
  Ir := Σ k : ℕ, Rep n h k
  dim := fun i => i.1
  rep := fun i => i.2
  prod := fun _ _ => []
  cg := fun _ _ _ => []

/-- `GenericRep(rep.A, Y[:d], Y[d:])` with `d = rep.lie_dim` (`/repo/lie_nn/_src/reduce.py` line 36). -/
def blockIr (r : Rep n h d) (Y : Block (n + h)) : Rep n h Y.1 where
  A := r.A
  X := fun a => Y.2 (Fin.castAdd h a)
  H := fun a => Y.2 (Fin.natAdd n a)

/-- An irrep together with its columns of `Q`. -/
abbrev Piece (n h d : ℕ) : Type := Σ k : ℕ, Rep n h k × Matrix (Fin d) (Fin k) ℂ

/-- The body of the loop (`/repo/lie_nn/_src/reduce.py` lines 36-40): `Q` of shape `(m, rep.dim, ir.dim)` is transposed to
`(rep.dim, m, ir.dim)` and reshaped to `(rep.dim, ir.dim)`, which only works for `m = 1`, or when both
arrays are empty. -/
noncomputable def reduceBlock (eigh : EighFn) (r : Rep n h d) (Y : Block (n + h)) :
    Py (Piece n h d) := do
  let S ← Rep.inferChangeOfBasis eigh (blockIr r Y) r
  match S with
  | [Q] => pure ⟨Y.1, blockIr r Y, Q⟩
  | _ => if d * Y.1 = 0 then pure ⟨Y.1, blockIr r Y, 0⟩ else .error .valueError

/-- `MulIrrep(1, ir)` (`/repo/lie_nn/_src/reduce.py` line 43). -/
def Piece.mulIr (b : Piece n h d) : MulIr (genericTable n h) := ⟨1, ⟨b.1, b.2.1⟩⟩

/-- `np.concatenate(Qs, axis=1)` (`/repo/lie_nn/_src/reduce.py` line 42); the cast is the equality of `1 * k` and `k`. -/
def catQ : (l : List (Piece n h d)) → Matrix (Fin d) (Fin (dimL (l.map Piece.mulIr))) ℂ
  | [] => fun _ j => j.elim0
  | b :: l => hcat (b.2.2.submatrix id (Fin.cast (Nat.one_mul b.1))) (catQ l)

/-- `reduce(rep)` for a `Rep` (`/repo/lie_nn/_src/reduce.py` lines 25-44); `sorted` is stable; `np.concatenate([])` raises
`ValueError`.  `none`: `decompose_rep_into_irreps` is still running. -/
noncomputable def reduceRep (eigh : EighFn) (eig : EigFn) (w : ℕ → ℝ) (eps : ℝ) (r : Rep n h d)
    (fuel : ℕ) : Option (Py (ReducedRep (genericTable n h))) :=
  match decomposeRep eigh eig w eps r.allGens fuel with
  | none => none
  | some (.error e) => some (.error e)
  | some (.ok Ys) => some (do
      let ps ← (Ys.mergeSort fun Y Z => decide (Y.1 ≤ Z.1)).mapM (reduceBlock eigh r)
      match ps with
      | [] => .error .valueError
      | ps => pure ⟨r.A, ps.map Piece.mulIr, some ⟨d, _, catQ ps⟩⟩)

/-- `reduce(rep)` for a `MulIrrep` (`/repo/lie_nn/_src/reduce.py` lines 10-16). -/
def reduceMulIrrep {T : Table n h} (m : MulIr T) : ReducedRep T := ⟨(T.rep m.ir).A, [m], none⟩

/-- `reduce(rep)` for a `ReducedRep` (`/repo/lie_nn/_src/reduce.py` lines 19-22). -/
def reduceReduced {T : Table n h} (r : ReducedRep T) : ReducedRep T := r

end LieNN
