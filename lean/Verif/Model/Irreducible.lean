import Verif.Model.LinAlg
/-!
# `is_irreducible` of a representation
-/
namespace LieNN

/-- `is_irreducible(rep, epsilon=eps)` (`/repo/lie_nn/_src/is_irreducible.py` lines 7-9); the default `eps` is `1e-10`. -/
noncomputable def Rep.isIrreducible (eigh : EighFn) (eps : ℝ) {n h d : ℕ} (r : Rep n h d) : Py Bool :=
  LieNN.isIrreducible eigh eps r.allGens

end LieNN
