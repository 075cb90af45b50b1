import Verif.Spec.Irreps
/-!
# Real irreps of `SU(2)`
-/
namespace LieNN.Spec

/-- How often the complex irrep of spin `n / 2` occurs in the real one: once for an integer spin, twice
otherwise. -/
def realMult (n : ℕ) : ℕ := if n % 2 = 0 then 1 else 2

end LieNN.Spec
