import Verif.Model.Reduced
import Verif.Spec.CG
/-!
# Specifications for `MulIrrep` and `ReducedRep`
-/
namespace LieNN.Spec

open Matrix

variable {n h : ℕ} {T : Table n h}

/-- The three arrays of the object `r` (`algebra()`, `continuous_generators()`,
`discrete_generators()`) are computed without an exception and are those of `R`. -/
def Acts (r : ReducedRep T) {d : ℕ} (R : Rep n h d) : Prop :=
  r.A = R.A ∧
  r.continuousGenerators = .ok (List.ofFn fun a => ⟨d, d, R.X a⟩) ∧
  r.discreteGenerators = .ok (List.ofFn fun a => ⟨d, d, R.H a⟩)

/-- Sum of the dimensions of a list of blocks. -/
def offset (l : List (MulIr T)) : ℕ := (l.map fun m => m.mul * T.dim m.ir).sum

/-- `M` is block diagonal: for every block `mul x ir` of the list, `mul` copies of the matrix `Y ir`
along the diagonal, at the offset of this block, and zeros elsewhere. -/
structure IsBlockDiag (l : List (MulIr T))
    (Y : (i : T.Ir) → Matrix (Fin (T.dim i)) (Fin (T.dim i)) ℂ) (M : SMat) : Prop where
  rows : M.rows = offset l
  cols : M.cols = offset l
  /-- copy `x` of a block -/
  diag : ∀ l₁ m l₂, l = l₁ ++ m :: l₂ → ∀ x < m.mul, ∀ k k' : Fin (T.dim m.ir),
    M.get (offset l₁ + (x * T.dim m.ir + k)) (offset l₁ + (x * T.dim m.ir + k')) = Y m.ir k k'
  /-- two different copies of the same block -/
  off_copy : ∀ l₁ m l₂, l = l₁ ++ m :: l₂ → ∀ x < m.mul, ∀ y < m.mul, x ≠ y →
    ∀ k < T.dim m.ir, ∀ k' < T.dim m.ir,
    M.get (offset l₁ + (x * T.dim m.ir + k)) (offset l₁ + (y * T.dim m.ir + k')) = 0
  /-- two different blocks -/
  off_block : ∀ l₁ m l₂ m' l₃, l = l₁ ++ m :: l₂ ++ m' :: l₃ →
    ∀ i < m.mul * T.dim m.ir, ∀ j < m'.mul * T.dim m'.ir,
    M.get (offset l₁ + i) (offset (l₁ ++ m :: l₂) + j) = 0 ∧
    M.get (offset (l₁ ++ m :: l₂) + j) (offset l₁ + i) = 0

/-- `mul` copies of a representation. -/
def IsCopies (mul : ℕ) {d : ℕ} (r : Rep n h d) (R : Rep n h (mul * d)) : Prop :=
  R.A = r.A ∧
  (∀ a x k y k', R.X a (finProdFinEquiv (x, k)) (finProdFinEquiv (y, k')) =
    if x = y then r.X a k k' else 0) ∧
  (∀ a x k y k', R.H a (finProdFinEquiv (x, k)) (finProdFinEquiv (y, k')) =
    if x = y then r.H a k k' else 0)

/-- The Clebsch-Gordan coefficients of `ir1 * ir2` are jointly invertible: there are as many of them
as `dim1 * dim2`, and only the zero tensor is annihilated by all of them. -/
def CGComplete (i j : T.Ir) : Prop :=
  ((T.prod i j).map fun k => (T.cg i j k).length * T.dim k).sum = T.dim i * T.dim j ∧
  ∀ t : Fin (T.dim i) → Fin (T.dim j) → ℂ,
    (∀ k ∈ T.prod i j, ∀ C ∈ T.cg i j k, ∀ l, ∑ x, ∑ y, C x y l * t x y = 0) → t = 0

/-- Hypotheses on the table for a pair of irreps: the same structure constants, at least one
solution for every listed irrep, all of them equivariant and jointly invertible. -/
structure GoodPair (i j : T.Ir) : Prop where
  algebra : AllCloseA (T.rep i).A (T.rep j).A
  nonempty : T.prod i j ≠ []
  sols : ∀ k ∈ T.prod i j, T.cg i j k ≠ []
  complete : CGComplete i j

/-- All tabulated Clebsch-Gordan coefficients are equivariant. -/
def Equivariant (T : Table n h) : Prop :=
  ∀ i j, ∀ k ∈ T.prod i j, ∀ C ∈ T.cg i j k, IsCG (T.rep i) (T.rep j) (T.rep k) C

/-- The tolerance tests of lines 93-96 of `tensor_product.py` only fire on exact equalities. -/
def RoundExact {p : ℕ} (Q : Matrix (Fin p) (Fin p) ℂ) : Prop :=
  (AllCloseM (Q.map fun z => (z.im : ℂ)) 0 → ∀ i j, (Q i j).im = 0) ∧ (AllCloseM Q 1 → Q = 1)

end LieNN.Spec
