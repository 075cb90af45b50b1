import Mathlib.Data.Complex.Basic
import Mathlib.Data.Matrix.Basic
import Mathlib.Logic.Equiv.Fin.Rotate
/-!
# Specification vocabulary for representations of the symmetric group
-/
namespace LieNN.Spec

open Matrix

/-- The matrix of `e_j ↦ e_{σ j}`. -/
def PMat {n : ℕ} (σ : Equiv.Perm (Fin n)) : Matrix (Fin n) (Fin n) ℂ :=
  Matrix.of fun i j => if σ j = i then 1 else 0

/-- The matrix whose columns are `f_{i+1} = e_{i+1} - e_0`, a basis of the vectors with entry sum 0. -/
def stdEmbed (n : ℕ) : Matrix (Fin n) (Fin (n - 1)) ℂ :=
  Matrix.of fun j i => (if j.1 = i.1 + 1 then 1 else 0) - (if j.1 = 0 then 1 else 0)

end LieNN.Spec
