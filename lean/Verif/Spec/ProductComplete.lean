import Verif.Model.IrProduct
import Verif.Spec.Complete
import Verif.Spec.Semisimple
import Verif.Spec.LinAlg
/-!
# Classes of representations and tables that are complete for them
-/
namespace LieNN.Spec

open Matrix

variable {n h n₁ h₁ n₂ h₂ d e : ℕ}

/-- The generators of the first factor. -/
def leftPart (r : Rep (n₁ + n₂) (h₁ + h₂) d) : Rep n₁ h₁ d where
  A := fun i j k => r.A (Fin.castAdd n₂ i) (Fin.castAdd n₂ j) (Fin.castAdd n₂ k)
  X := fun a => r.X (Fin.castAdd n₂ a)
  H := fun a => r.H (Fin.castAdd h₂ a)

/-- The generators of the second factor. -/
def rightPart (r : Rep (n₁ + n₂) (h₁ + h₂) d) : Rep n₂ h₂ d where
  A := fun i j k => r.A (Fin.natAdd n₁ i) (Fin.natAdd n₁ j) (Fin.natAdd n₁ k)
  X := fun a => r.X (Fin.natAdd n₁ a)
  H := fun a => r.H (Fin.natAdd h₁ a)

/-- Representations of a product: the structure constants between the factors vanish, the factors act by commuting matrices, and
each of them acts by a representation of its own class. -/
structure OfProduct (rel₁ : ∀ {d : ℕ}, Rep n₁ h₁ d → Prop) (rel₂ : ∀ {d : ℕ}, Rep n₂ h₂ d → Prop) {d : ℕ}
    (r : Rep (n₁ + n₂) (h₁ + h₂) d) : Prop where
  zero : ∀ i j k, r.A i j k ≠ 0 → (i.1 < n₁ ∧ j.1 < n₁ ∧ k.1 < n₁) ∨ (n₁ ≤ i.1 ∧ n₁ ≤ j.1 ∧ n₁ ≤ k.1)
  xx : ∀ a b, r.X (Fin.castAdd n₂ a) * r.X (Fin.natAdd n₁ b) = r.X (Fin.natAdd n₁ b) * r.X (Fin.castAdd n₂ a)
  xh : ∀ a b, r.X (Fin.castAdd n₂ a) * r.H (Fin.natAdd h₁ b) = r.H (Fin.natAdd h₁ b) * r.X (Fin.castAdd n₂ a)
  hx : ∀ a b, r.H (Fin.castAdd h₂ a) * r.X (Fin.natAdd n₁ b) = r.X (Fin.natAdd n₁ b) * r.H (Fin.castAdd h₂ a)
  hh : ∀ a b, r.H (Fin.castAdd h₂ a) * r.H (Fin.natAdd h₁ b) = r.H (Fin.natAdd h₁ b) * r.H (Fin.castAdd h₂ a)
  left : rel₁ (leftPart r)
  right : rel₂ (rightPart r)

/-- The (allowed) labels of a table are all the irreducible representations of a class. -/
structure CompleteTable (T : Table n h) (ok : T.Ir → Prop) (rel : ∀ {d : ℕ}, Rep n h d → Prop) : Prop where
  /-- subspaces are in the class -/
  sub : ∀ {d e : ℕ} {r : Rep n h d} {s : Rep n h e} (V : Matrix (Fin d) (Fin e) ℂ) (P : Matrix (Fin e) (Fin d) ℂ), P * V = 1 →
    (∀ a, r.X a * V = V * s.X a) → (∀ a, r.H a * V = V * s.H a) → s.A = r.A → rel r → rel s
  /-- sums are in the class -/
  sum : ∀ {d : ℕ} {ι : Type} (_ : ι) {e : ι → ℕ} {r : Rep n h d} {s : ∀ k, Rep n h (e k)} (V : ∀ k, Matrix (Fin d) (Fin (e k)) ℂ),
    (∀ M N : Matrix (Fin d) (Fin d) ℂ, (∀ k, M * V k = N * V k) → M = N) →
    (∀ k a, r.X a * V k = V k * (s k).X a) → (∀ k a, r.H a * V k = V k * (s k).H a) → (∀ k, r.A = (s k).A) → (∀ k, rel (s k)) → rel r
  /-- invariant subspaces have complements -/
  semisimple : ∀ {d : ℕ} {r : Rep n h d}, rel r → Semisimple r.allGens
  /-- the irreducible ones are labels -/
  label : ∀ {d : ℕ} {r : Rep n h d}, rel r → IrreducibleFamily r.allGens → ∃ i, ok i ∧ Equivalent r.allGens (T.rep i).allGens
  /-- no label has dimension zero -/
  pos : ∀ i, 0 < T.dim i
  /-- the labels are in the class -/
  own : ∀ i, ok i → rel (T.rep i)

end LieNN.Spec
