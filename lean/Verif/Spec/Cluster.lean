import Mathlib.Analysis.Normed.Module.Basic
/-!
# Specification of clusterings
-/
namespace LieNN.Spec

variable {E : Type*} [NormedAddCommGroup E] {n : ℕ}

/-- `inv` numbers the elements of `a` by `k` clusters.  `first c` is the first element of cluster
`c`; clusters are numbered by first appearance; an element is in cluster `c` exactly when its
distance to the first element of that cluster is less than `tol`. -/
structure IsClustering (tol : ℝ) (a : Fin n → E) (k : ℕ) (inv : Fin n → ℕ) (first : Fin k → Fin n) :
    Prop where
  lt : ∀ j, inv j < k
  mem_iff : ∀ j (c : Fin k), inv j = c ↔ ‖a (first c) - a j‖ < tol
  mono : StrictMono first
  first_le : ∀ j (c : Fin k), inv j = c → first c ≤ j

end LieNN.Spec
