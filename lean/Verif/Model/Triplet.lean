import Verif.Model.Algebra
/-!
# `check_representation_triplet` (`/repo/lie_nn/_src/rep.py` lines 138-190)

Simplifications: exact arithmetic; the three representations have the same number of continuous
generators, which is at least one (`vmap` on no generator calls `np.empty(None)`); what is printed is left
out. The coefficients, which are computed by the overload of `clebsch_gordan` for the classes of the three
arguments (`/repo/lie_nn/_src/clebsch_gordan.py`), are an argument.
-/
namespace LieNN

variable {n h d d₁ d₂ d₃ : ℕ}

open Classical in
/-- `Rep.check_algebra_vs_generators` (`/repo/lie_nn/_src/rep.py` lines 84-87):
`np.testing.assert_allclose` in `check_algebra_vs_generators` (`/repo/lie_nn/_src/util.py` lines 442-449). -/
noncomputable def Rep.checkAlgebra (rtol atol : ℝ) (r : Rep n h d) : Py Unit :=
  pyAssert (CheckAlgebra rtol atol r.A r.X)

/-- `left_side[solution][i]` (`/repo/lie_nn/_src/rep.py` line 168). -/
def tripletLeft (r₃ : Rep n h d₃) (C : Fin d₁ → Fin d₂ → Fin d₃ → ℂ) (a : Fin n) (i : Fin d₁) (j : Fin d₂) (l : Fin d₃) : ℂ :=
  ∑ k, C i j k * r₃.X a l k

/-- `right_side[solution][i]` (`/repo/lie_nn/_src/rep.py` line 169). -/
def tripletRight (r₁ : Rep n h d₁) (r₂ : Rep n h d₂) (C : Fin d₁ → Fin d₂ → Fin d₃ → ℂ) (a : Fin n) (l : Fin d₁)
    (m : Fin d₂) (k : Fin d₃) : ℂ :=
  ∑ i, r₁.X a i l * C i m k + ∑ j, r₂.X a j m * C l j k

open Classical in
/-- `check_representation_triplet(rep1, rep2, rep3, rtol, atol)` (`/repo/lie_nn/_src/rep.py` lines
138-190); `cg` is the call of line 154. -/
noncomputable def checkTriplet (rtol atol : ℝ) (r₁ : Rep n h d₁) (r₂ : Rep n h d₂) (r₃ : Rep n h d₃)
    (cg : Py (List (Fin d₁ → Fin d₂ → Fin d₃ → ℂ))) : Py Unit := do
  pyAssert (∀ i j k, IsClose atol rtol (r₁.A i j k) (r₂.A i j k))
  pyAssert (∀ i j k, IsClose atol rtol (r₁.A i j k) (r₃.A i j k))
  r₁.checkAlgebra rtol atol
  r₂.checkAlgebra rtol atol
  r₃.checkAlgebra rtol atol
  let sols ← cg
  pyAssert (∀ C ∈ sols, ∀ a i j l, IsClose atol rtol (tripletLeft r₃ C a i j l) (tripletRight r₁ r₂ C a i j l))

end LieNN
