import Verif.Spec.LinAlg
/-!
# Invariant complements
-/
namespace LieNN.Spec

open Matrix

/-- The subspace is mapped into itself by the family of matrices. -/
def Invariant {n d : ℕ} (X : Fin n → Matrix (Fin d) (Fin d) ℂ) (W : Submodule ℂ (Fin d → ℂ)) : Prop :=
  ∀ a, ∀ w ∈ W, X a *ᵥ w ∈ W

/-- Every invariant subspace has an invariant complement. -/
def Semisimple {n d : ℕ} (X : Fin n → Matrix (Fin d) (Fin d) ℂ) : Prop :=
  ∀ W, Invariant X W → ∃ W', Invariant X W' ∧ W ⊓ W' = ⊥ ∧ W ⊔ W' = ⊤

end LieNN.Spec
