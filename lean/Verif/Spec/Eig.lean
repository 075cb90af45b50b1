import Verif.Model.Decompose
/-!
# Specification of `numpy.linalg.eig`
-/
namespace LieNN.Spec

open Matrix

/-- A basis of eigenvectors of `M` with their eigenvalues. -/
def IsEigenbasis {d : ℕ} (M : Matrix (Fin d) (Fin d) ℂ) (e : (Fin d → ℂ) × (Fin d → Vec d)) : Prop :=
  LinearIndependent ℂ e.2 ∧ ∀ k, M *ᵥ (e.2 k).ofLp = e.1 k • (e.2 k).ofLp

/-- What is assumed of `numpy.linalg.eig`: it finds a basis of eigenvectors whenever there is one. -/
def EigSpec (eig : EigFn) : Prop :=
  ∀ (d : ℕ) (M : Matrix (Fin d) (Fin d) ℂ), (∃ e, IsEigenbasis M e) → IsEigenbasis M (eig d M)

end LieNN.Spec
