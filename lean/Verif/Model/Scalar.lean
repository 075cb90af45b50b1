import Verif.Model.SL2C
import Verif.Model.SO3
/-!
# `is_scalar` of the classes of irreps

`is_scalar` of `SUN` is `SUN.isScalar` (Model/Iter.lean), that of `SON` and `SPN` is `Roots.isScalar`
(Model/Roots.lean); `SO3`, `Z2`, `SU2Real` have no such method.
-/
namespace LieNN

/-- `SU2.is_scalar` (`/repo/lie_nn/_src/irreps/su2.py` lines 39-41). -/
def SU2.isScalar (j : ℕ) : Bool := j == 0

/-- `O3.is_scalar` (`/repo/lie_nn/_src/irreps/o3_real.py` lines 39-41). -/
def O3.isScalar (r : O3) : Bool := r.l == 0

/-- `SL2C.is_scalar` (`/repo/lie_nn/_src/irreps/sl2c.py` lines 47-49). -/
def SL2C.isScalar (r : SL2C) : Bool := r.l == 0 && r.k == 0

/-- `SO13.is_scalar` (`/repo/lie_nn/_src/irreps/so13.py` lines 49-51). -/
def SO13.isScalar (r : ℕ × ℕ) : Bool := r.1 == 0 && r.2 == 0

end LieNN
