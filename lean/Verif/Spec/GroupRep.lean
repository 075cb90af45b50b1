import Mathlib.RingTheory.MvPolynomial.Homogeneous
import Verif.Model.Rep
import Verif.Model.SUNGen
/-!
# Representations of the group, not only of its Lie algebra

`exp_map` takes parameters, not group elements.  Two lists of parameters stand for the same group element when
the products of the matrices of the defining representation agree.
-/
namespace LieNN.Spec

open Matrix

/-- The product of the matrices that `exp_map` returns for a list of parameters. -/
inductive WordVal {n h d : ℕ} (r : Rep n h d) :
    List ((Fin n → ℝ) × (Fin h → ℤ)) → Matrix (Fin d) (Fin d) ℂ → Prop
  | nil : WordVal r [] 1
  | cons {c : Fin n → ℝ} {k : Fin h → ℤ} {w : List ((Fin n → ℝ) × (Fin h → ℤ))}
      {g G : Matrix (Fin d) (Fin d) ℂ} (hg : r.expMap (fun a => (c a : ℂ)) k = .ok g) (hG : WordVal r w G) :
      WordVal r ((c, k) :: w) (g * G)

/-- A matrix of polynomials in the entries of `G`. -/
noncomputable def evalMat {b d : ℕ} (P : Fin d → Fin d → MvPolynomial (Fin b × Fin b) ℂ)
    (G : Matrix (Fin b) (Fin b) ℂ) : Matrix (Fin d) (Fin d) ℂ :=
  Matrix.of fun i j => MvPolynomial.eval (fun p => G p.1 p.2) (P i j)

/-- The matrices of `r` are fixed homogeneous polynomials of degree `e` in the matrices of `base`, along all products. -/
def PolyOf {n h b d : ℕ} (base : Rep n h b) (r : Rep n h d) (e : ℕ) : Prop :=
  ∃ P : Fin d → Fin d → MvPolynomial (Fin b × Fin b) ℂ, (∀ i j, (P i j).IsHomogeneous e) ∧
    ∀ w G, WordVal base w G → WordVal r w (evalMat P G)

end LieNN.Spec

namespace LieNN.SUN

/-- An accepted label with `n` entries, and a representation with its dimension and generators. -/
structure IsLabel (n : ℕ) (S : List ℤ) {d : ℕ} (r : Rep (n ^ 2 - 1) 0 d) : Prop where
  m : make S = .ok S
  l : S.length = n
  d : dim S = .ok (d : ℤ)
  g : ∃ L, generators _ S = .ok L ∧ r.X = genFn (n ^ 2 - 1) L

end LieNN.SUN
