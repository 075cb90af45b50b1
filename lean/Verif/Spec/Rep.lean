import Verif.Model.Rep
/-!
# Specifications for representations

Textbook notions, stated without the helper functions of the model.
-/
namespace LieNN.Spec

open Matrix

/-- The generators satisfy the commutation relations of the structure constants. -/
def IsRep {n h d : ℕ} (r : Rep n h d) : Prop :=
  ∀ i j, r.X i * r.X j - r.X j * r.X i = ∑ k, r.A i j k • r.X k

/-- The four Penrose equations: `P` is the Moore-Penrose pseudo-inverse of `Q`. -/
structure IsPinv {m n : ℕ} (Q : Matrix (Fin m) (Fin n) ℂ) (P : Matrix (Fin n) (Fin m) ℂ) :
    Prop where
  qpq : Q * P * Q = Q
  pqp : P * Q * P = P
  qp_herm : (Q * P)ᴴ = Q * P
  pq_herm : (P * Q)ᴴ = P * Q

/-- Skew-Hermitian continuous generators and unitary discrete generators. -/
def IsUnitaryRep {n h d : ℕ} (r : Rep n h d) : Prop :=
  (∀ a, r.H a * (r.H a)ᴴ = 1) ∧ (∀ a, (r.X a)ᴴ = - r.X a)

end LieNN.Spec
