import Verif.Model.Reduced
/-!
# Multiplicity of an irrep
-/
namespace LieNN.Spec

variable {n h : ℕ} {T : Table n h}

open Classical in
/-- How often an irrep occurs in a list of blocks. -/
noncomputable def mult (l : List (MulIr T)) (i : T.Ir) : ℕ := (l.map fun m => if m.ir = i then m.mul else 0).sum

end LieNN.Spec
