import Verif.Model.Reduced
/-!
# The overloads of `change_basis` (`/repo/lie_nn/_src/change_basis.py`)

The overload for `Rep` is `Rep.changeBasis`.
-/
namespace LieNN

variable {n h : ℕ} {T : Table n h}

/-- `change_basis(rep, Q)` for a `ReducedRep` (`/repo/lie_nn/_src/change_basis.py` lines 30-33). -/
def ReducedRep.changeBasis (r : ReducedRep T) (Q : SMat) : Py (ReducedRep T) :=
  match r.Q with
  | none => .ok ⟨r.A, r.irreps, some Q⟩
  | some Q₀ => do
    let Q ← Q.mulP Q₀
    pure ⟨r.A, r.irreps, some Q⟩

/-- `change_basis(rep, Q)` for a `MulIrrep` (`/repo/lie_nn/_src/change_basis.py` lines 36-42);
`MulIrrep.algebra` is the one of the irrep (`/repo/lie_nn/_src/reduced_rep.py` lines 28-29). -/
def MulIr.changeBasis (m : MulIr T) (Q : SMat) : ReducedRep T := ⟨(T.rep m.ir).A, [m], some Q⟩

/-- `change_basis(rep, Q)` for a `TabulatedIrrep` (`/repo/lie_nn/_src/change_basis.py` lines 45-47). -/
def Table.changeBasis (T : Table n h) (ir : T.Ir) (Q : SMat) : ReducedRep T :=
  MulIr.changeBasis ⟨1, ir⟩ Q

end LieNN
