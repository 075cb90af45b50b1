import Verif.Model.Rep
/-!
# Specification of Clebsch-Gordan tensors
-/
namespace LieNN.Spec

open Matrix

/-- `C[i, j, k]` is an equivariant map `rep1 ⊗ rep2 → rep3`: the identity tested by
`check_representation_triplet` for the continuous generators
(`/repo/lie_nn/_src/rep.py` lines 168-169), and its analogue for the discrete generators. -/
def IsCG {n h d₁ d₂ d₃ : ℕ} (r₁ : Rep n h d₁) (r₂ : Rep n h d₂) (r₃ : Rep n h d₃)
    (C : Fin d₁ → Fin d₂ → Fin d₃ → ℂ) : Prop :=
  (∀ a i j l, ∑ k, C i j k * r₃.X a l k =
    ∑ i', r₁.X a i' i * C i' j l + ∑ j', r₂.X a j' j * C i j' l) ∧
  (∀ a i j l, ∑ k, C i j k * r₃.H a l k =
    ∑ i', ∑ j', r₁.H a i' i * r₂.H a j' j * C i' j' l)

end LieNN.Spec
