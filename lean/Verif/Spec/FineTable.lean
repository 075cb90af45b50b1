import Verif.Spec.TensorBasis
import Verif.Spec.Rep
import Verif.Spec.LinAlg
import Verif.Model.LinAlg
/-!
# Specification vocabulary for products of groups
-/
namespace LieNN.Spec

open Matrix

variable {n h : ℕ}

/-- The arrays of a table are one orthonormal real array for every irrep of a product and none for the others, on
top of `GoodTable`; the generators are representations of one Lie algebra; and the eigenvalues of the normal matrix
of the intertwiner equations are zero or at least `1e-4`, the threshold of `clebsch_gordan`. -/
structure FineTable (T : Table n h) : Prop where
  good : GoodTable T
  alg : ∀ i j, (T.rep i).A = (T.rep j).A
  isRep : ∀ i, IsRep (T.rep i)
  one : ∀ i j, ∀ k ∈ T.prod i j, ∃ C : Fin (T.dim i) → Fin (T.dim j) → Fin (T.dim k) → ℝ,
    T.cg i j k = [fun x y z => (C x y z : ℂ)] ∧
      ∀ z z', ∑ x, ∑ y, C x y z * C x y z' = if z = z' then 1 else 0
  none : ∀ i j k, k ∉ T.prod i j → T.cg i j k = []
  gap : ∀ i j k, Gap (1 / 10 ^ 4) (icobMatrix (T.rep k).allGens ((T.rep i).tensorProduct (T.rep j)).allGens)

end LieNN.Spec
