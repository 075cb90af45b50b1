import Verif.Model.SU2
import Mathlib.Data.Rat.Floor
import Mathlib.Data.Matrix.Mul
/-!
# `lie_nn/_src/lie_algebra_utils.py`, `lie_nn/_src/irreps/spn.py` and `lie_nn/_src/irreps/son.py`

Vectors are exact rational vectors `Fin m → ℚ`; a two-dimensional array of vectors (or a list of
vectors) is a `List (Fin m → ℚ)`.  Ranks are natural numbers.  The Dynkin-diagram text and
`structure_algebra` are in `Verif/Model/Structure.lean`.
-/
namespace LieNN.Roots

/-- `epsilon[i]` for `epsilon = np.identity(m)` (`/repo/lie_nn/_src/lie_algebra_utils.py` lines 5, 23, 44, 63). -/
def e (m i : ℕ) : Fin m → ℚ := fun k => if k.1 = i then 1 else 0

/-- `sum(l)` of a list of vectors. -/
def vsum {m : ℕ} (l : List (Fin m → ℚ)) : Fin m → ℚ := l.foldl (fun a v => a + v) 0

/-- `sum(epsilon[j] for j in range(i))`. -/
def psum (m i : ℕ) : Fin m → ℚ := vsum ((List.range i).map (e m))

/-- `[f(i, j) for i in range(1, m) for j in range(i)]`. -/
def pairs {α : Type} (m : ℕ) (f : ℕ → ℕ → α) : List α :=
  (List.range' 1 (m - 1)).flatMap fun i => (List.range i).map fun j => f i j

/-- The four arrays returned by the `RootsWeights` functions. -/
structure RW (m : ℕ) where
  /-- simple roots -/
  roots : List (Fin m → ℚ)
  /-- positive roots -/
  pos : List (Fin m → ℚ)
  /-- fundamental weights -/
  fund : List (Fin m → ℚ)
  /-- the maximal root -/
  max : Fin m → ℚ

/-- `RootsWeightsA` (`/repo/lie_nn/_src/lie_algebra_utils.py` lines 4-19); `np.concatenate` of no array for rank 0. -/
def rootsA (rank : ℕ) : Py (RW (rank + 1)) :=
  if rank = 0 then .error .valueError
  else
    let m := rank + 1
    .ok {
      roots := (List.range (m - 1)).map fun i => e m i - e m (i + 1)
      pos := (List.range' 1 (m - 1)).flatMap fun i => (List.range i).map fun j => e m j - e m i
      fund := (List.range' 1 rank).map fun i => psum m i - ((i : ℚ) / (rank + 1)) • psum m m
      max := fun k => if k.1 = 0 then 1 else if k.1 < rank then 0 else -1 }

/-- `RootsWeightsB` (`/repo/lie_nn/_src/lie_algebra_utils.py` lines 22-40).  Rank 0: `epsilon[-1]` of an empty array.  Rank 1:
`np.concatenate` of a one- and a two-dimensional array. -/
def rootsB (rank : ℕ) : Py (RW rank) :=
  if rank = 0 then .error .indexError
  else if rank = 1 then .error .valueError
  else
    .ok {
      roots := ((List.range (rank - 1)).map fun i => e rank i - e rank (i + 1)) ++ [e rank (rank - 1)]
      pos := (pairs rank (fun i j => e rank j + e rank i) ++
        pairs rank (fun i j => e rank j - e rank i)) ++ (List.range rank).map (e rank)
      fund := ((List.range' 1 (rank - 1)).map fun i => psum rank i) ++ [(1 / 2 : ℚ) • psum rank rank]
      max := fun k => if k.1 < 2 then 1 else 0 }

/-- `RootsWeightsC` (`/repo/lie_nn/_src/lie_algebra_utils.py` lines 43-59). -/
def rootsC (rank : ℕ) : Py (RW rank) :=
  if rank = 0 then .error .indexError
  else if rank = 1 then .error .valueError
  else
    .ok {
      roots := ((List.range (rank - 1)).map fun i => e rank i - e rank (i + 1)) ++
        [(2 : ℚ) • e rank (rank - 1)]
      pos := (pairs rank (fun i j => e rank j + e rank i) ++
        pairs rank (fun i j => e rank j - e rank i)) ++ (List.range rank).map fun i => (2 : ℚ) • e rank i
      fund := (List.range' 1 rank).map fun i => psum rank i
      max := fun k => if k.1 < 1 then 2 else 0 }

/-- `RootsWeightsD` (`/repo/lie_nn/_src/lie_algebra_utils.py` lines 62-91), with the list
`weight_sum` inserted twice (lines 80-82).  Ranks 0 and 1: `epsilon[-2]` is out of range. -/
def rootsD (rank : ℕ) : Py (RW rank) :=
  if rank ≤ 1 then .error .indexError
  else
    let weightSum := (List.range' 1 (rank - 2)).map fun i => psum rank i
    let s₁ := (1 / 2 : ℚ) • psum rank rank - e rank (rank - 1)
    let s₂ := (1 / 2 : ℚ) • psum rank rank
    .ok {
      roots := ((List.range (rank - 1)).map fun i => e rank i - e rank (i + 1)) ++
        [e rank (rank - 1) + e rank (rank - 2)]
      pos := pairs rank (fun i j => e rank i + e rank j) ++ pairs rank (fun i j => e rank j - e rank i)
      fund := if weightSum.length = 0 then [s₁] ++ [s₂] else weightSum ++ [s₁] ++ weightSum ++ [s₂]
      max := fun k => if k.1 < 2 then 1 else 0 }

/-- `cartan_matrix` (`/repo/lie_nn/_src/lie_algebra_utils.py` lines 94-101). -/
def cartanMatrix {m : ℕ} (roots : List (Fin m → ℚ)) :
    Matrix (Fin roots.length) (Fin roots.length) ℚ :=
  Matrix.of fun i j => if i ≠ j then 2 * (roots.get i ⬝ᵥ roots.get j) / (roots.get i ⬝ᵥ roots.get i)
    else 2

/-- `weyl_dim` (`/repo/lie_nn/_src/lie_algebra_utils.py` lines 104-110). -/
def weylDim {m : ℕ} (weight : Fin m → ℚ) (pos : List (Fin m → ℚ)) (weyl : Fin m → ℚ) : ℚ :=
  (pos.map fun p => ((weight + weyl) ⬝ᵥ p) / (weyl ⬝ᵥ p)).prod

/-- `sum(PositiveRoots) / 2` (`/repo/lie_nn/_src/lie_algebra_utils.py` line 124, `/repo/lie_nn/_src/irreps/spn.py`
line 13, `/repo/lie_nn/_src/irreps/son.py` line 17). -/
def weylVector {m : ℕ} (pos : List (Fin m → ℚ)) : Fin m → ℚ := (1 / 2 : ℚ) • vsum pos

/-- `2 * len(PositiveRoots) / rank` (`/repo/lie_nn/_src/lie_algebra_utils.py` line 125). -/
def coxeterNumber {m : ℕ} (pos : List (Fin m → ℚ)) (rank : ℕ) : ℚ := 2 * pos.length / rank

/-- `weights` (`/repo/lie_nn/_src/irreps/spn.py` lines 17-19, `/repo/lie_nn/_src/irreps/son.py`
lines 21-23): `sum(S[i] * fundamental_weights[i] for i in range(len(S)))`. -/
def weights {m : ℕ} (S : List ℤ) (fund : List (Fin m → ℚ)) : Fin m → ℚ :=
  vsum ((List.range S.length).map fun i => ((S.getD i 0 : ℤ) : ℚ) • fund.getD i 0)

/-- `SPN.dim` (`/repo/lie_nn/_src/irreps/spn.py` lines 46-49): `int(weyl_dim(...))`. -/
def dimSP (S : List ℤ) : Py ℤ := do
  let rw ← rootsC S.length
  pure (SU2.trunc (weylDim (weights S rw.fund) rw.pos (weylVector rw.pos)))

/-- `root_weights` (`/repo/lie_nn/_src/irreps/son.py` lines 12-18): type D for an even number of labels and type B for an odd one. -/
def rootWeightsSO (rank : ℕ) : Py (RW rank) := if rank % 2 = 0 then rootsD rank else rootsB rank

/-- `SON.dim` (`/repo/lie_nn/_src/irreps/son.py` lines 50-53). -/
def dimSO (S : List ℤ) : Py ℤ := do
  let rw ← rootWeightsSO S.length
  pure (SU2.trunc (weylDim (weights S rw.fund) rw.pos (weylVector rw.pos)))

/-- `is_scalar` (`/repo/lie_nn/_src/irreps/spn.py` lines 51-53, `/repo/lie_nn/_src/irreps/son.py`
lines 55-57). -/
def isScalar (S : List ℤ) : Bool := S.all (· == 0)

end LieNN.Roots
