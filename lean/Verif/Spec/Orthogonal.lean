import Verif.Model.Rep
/-!
# Orthogonal representations
-/
namespace LieNN.Spec

open Matrix

/-- The continuous generators are antisymmetric and the discrete ones orthogonal. -/
structure Orthogonal {n h d : ℕ} (R : Rep n h d) : Prop where
  X : ∀ a, (R.X a)ᵀ = -R.X a
  H : ∀ a, (R.H a)ᵀ * R.H a = 1

end LieNN.Spec
