import Mathlib.GroupTheory.Perm.Sign
import Mathlib.Algebra.Group.Subgroup.Lattice
import Mathlib.Data.Fintype.Perm

/-!
# Specification vocabulary for permutation tuples

The tuple `(σ 0, σ 1, …, σ (n-1))` of a bijection `σ` of `{0, …, n-1}`.
-/
namespace LieNN.Spec

/-- The tuple of values of a permutation of `{0,…,n-1}`. -/
def tup {n : ℕ} (σ : Equiv.Perm (Fin n)) : List ℕ := List.ofFn fun i => (σ i : ℕ)

end LieNN.Spec
