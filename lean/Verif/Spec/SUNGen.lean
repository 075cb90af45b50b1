import Mathlib.Data.Matrix.Basis
import Mathlib.Data.Complex.Basic
/-!
# The Lie algebra of the special unitary group

Written without reference to the code.
-/
namespace LieNN.Spec

open Matrix

/-- The pairs `k < l < n`, in lexicographic order. -/
def pairsLT (n : ℕ) : List (ℕ × ℕ) :=
  (List.range n).flatMap fun k => (List.range' (k + 1) (n - (k + 1))).map fun l => (k, l)

/-- The matrix unit. -/
def unit (n k l : ℕ) : Matrix (Fin n) (Fin n) ℂ :=
  Matrix.of fun i j => if (i : ℕ) = k ∧ (j : ℕ) = l then 1 else 0

/-- A basis of the skew-Hermitian matrices of trace zero. -/
noncomputable def suBasis (n : ℕ) : List (Matrix (Fin n) (Fin n) ℂ) :=
  (pairsLT n).map (fun p => Complex.I • (unit n p.1 p.2 + unit n p.2 p.1)) ++
    (pairsLT n).map (fun p => unit n p.1 p.2 - unit n p.2 p.1) ++
      (List.range (n - 1)).map fun t => Complex.I • (unit n t t - unit n (t + 1) (t + 1))

end LieNN.Spec
