import Verif.Model.Mat
import Verif.Model.Decompose
/-!
# Blocks on the diagonal
-/
namespace LieNN.Spec

open Matrix

/-- The matrices of a list of families, as blocks on the diagonal. -/
noncomputable def blockSum {n : ℕ} : (l : List (Block n)) → Fin n → Matrix (Fin (l.map Sigma.fst).sum) (Fin (l.map Sigma.fst).sum) ℂ
  | [], _ => 0
  | Y :: l, a => dsum (Y.2 a) (blockSum l a)

end LieNN.Spec
