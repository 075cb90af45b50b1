import Mathlib.Data.Multiset.MapFold
import Mathlib.Algebra.BigOperators.Group.Multiset.Basic
import Verif.Model.Triplet
/-!
# Runs of `check_algebra_vs_generators` and `check_representation_triplet` in floating point

The models of these functions in `Model/Algebra.lean` and `Model/Triplet.lean` compute in exact
arithmetic.  Here every operation on floats may have a relative error of `u` (the unit roundoff, `2⁻⁵³`
for `float64`), in any direction and different at every step.  A run is a relation between the input and
the possible outcomes, so that a theorem about all runs covers every rounding mode, every order of the
additions inside `@` and `np.einsum`, and fused multiply-add.

Simplification: no overflow and no underflow, so that a relative error is right.
-/
namespace LieNN

open Matrix

/-- `y` is a computed value of `x`. -/
def Rnd {E : Type*} [NormedAddCommGroup E] (u : ℝ) (x y : E) : Prop := ‖y - x‖ ≤ u * ‖x‖

/-- `z` is a computed sum of the terms, in any order and with any parentheses.  Adding a zero is exact. -/
inductive SumRun (u : ℝ) : Multiset ℝ → ℝ → Prop
  | nil : SumRun u 0 0
  | one (t : ℝ) : SumRun u {t} t
  | add {s t : Multiset ℝ} {x y z : ℝ} (hx : SumRun u s x) (hy : SumRun u t y) (hz : Rnd u (x + y) z)
      (h₁ : x = 0 → z = y) (h₂ : y = 0 → z = x) : SumRun u (s + t) z

/-- `z` is a computed value of `∑ k, a k * b k` in complex floats: the real part and the imaginary part are
sums of `2 n` computed products.  A product that is fused with an addition has no error of its own. -/
def DotRun (u : ℝ) {n : ℕ} (a b : Fin n → ℂ) (z : ℂ) : Prop :=
  ∃ t₁ t₂ t₃ t₄ : Fin n → ℝ,
    (∀ k, Rnd u ((a k).re * (b k).re) (t₁ k)) ∧ (∀ k, Rnd u (-((a k).im * (b k).im)) (t₂ k)) ∧
    (∀ k, Rnd u ((a k).re * (b k).im) (t₃ k)) ∧ (∀ k, Rnd u ((a k).im * (b k).re) (t₄ k)) ∧
    SumRun u (Finset.univ.val.map t₁ + Finset.univ.val.map t₂) z.re ∧
    SumRun u (Finset.univ.val.map t₃ + Finset.univ.val.map t₄) z.im

/-- One comparison of `np.allclose` or `np.testing.assert_allclose`,
`abs(x - y) <= atol + rtol * abs(y)`, has the outcome `b`; each side has at most five rounding errors. -/
def CloseRun (u atol rtol : ℝ) (x y : ℂ) (b : Bool) : Prop :=
  ∃ d s : ℝ, Rnd (5 * u) ‖x - y‖ d ∧ Rnd (5 * u) (atol + rtol * ‖y‖) s ∧ (b = true ↔ d ≤ s)

variable {n h d d₁ d₂ d₃ : ℕ}

/-- The computed generators: an entry of `continuous_generators` has one rounding error.  This is so for
`SU2` (`/repo/lie_nn/_src/irreps/su2.py` lines 54-70) and labels below `2²⁵`: the argument of `np.sqrt` is
an integer divided by four, and the products with `0.5` and `-0.5j` are exact. -/
def GensRun (u : ℝ) (X Y : Fin n → Matrix (Fin d) (Fin d) ℂ) : Prop := ∀ a i j, Rnd u (X a i j) (Y a i j)

/-- `commutator(X1, X2)` (`/repo/lie_nn/_src/util.py` lines 175-176) computes `L`. -/
def CommRun (u : ℝ) (X Y L : Matrix (Fin d) (Fin d) ℂ) : Prop :=
  ∃ P Q : Matrix (Fin d) (Fin d) ℂ, (∀ a b, DotRun u (fun k => X a k) (fun k => Y k b) (P a b)) ∧
    (∀ a b, DotRun u (fun k => Y a k) (fun k => X k b) (Q a b)) ∧ ∀ a b, Rnd u (P a b - Q a b) (L a b)

/-- `check_algebra_vs_generators(A, X, rtol, atol)` (`/repo/lie_nn/_src/util.py` lines 442-449) has the
outcome `b`. -/
def CheckAlgebraRun (u rtol atol : ℝ) (A : Fin n → Fin n → Fin n → ℂ) (X : Fin n → Matrix (Fin d) (Fin d) ℂ)
    (b : Bool) : Prop :=
  ∃ (L R : Fin n → Fin n → Matrix (Fin d) (Fin d) ℂ) (c : Fin n → Fin n → Fin d → Fin d → Bool),
    (∀ i j, CommRun u (X i) (X j) (L i j)) ∧
    (∀ i j p q, DotRun u (A i j) (fun k => X k p q) (R i j p q)) ∧
    (∀ i j p q, CloseRun u atol rtol (L i j p q) (R i j p q) (c i j p q)) ∧
    (b = true ↔ ∀ i j p q, c i j p q = true)

/-- `(C * S**2) ** 0.5` with the sign of `S` (`/repo/lie_nn/_src/irreps/su2.py` lines 217-220) computes
`y`, where `x` is the exact coefficient: `C * S**2` is an exact `Fraction`, its conversion to a float has
one rounding error and the power is off by at most one unit in the last place. -/
def PowRun (u x y : ℝ) : Prop :=
  ∃ q p : ℝ, Rnd u (x ^ 2) q ∧ Rnd (2 * u) (√q) p ∧ y = if 0 < x then p else -p

/-- The computed coefficients; an exception is passed on. -/
def CoeffRun (u : ℝ) : Py (List (Fin d₁ → Fin d₂ → Fin d₃ → ℝ)) → Py (List (Fin d₁ → Fin d₂ → Fin d₃ → ℝ)) → Prop
  | .error e, r => r = .error e
  | .ok L, r => ∃ L', r = .ok L' ∧ List.Forall₂ (fun C C' => ∀ i j k, PowRun u (C i j k) (C' i j k)) L L'

/-- One solution in the loop of `check_representation_triplet` (`/repo/lie_nn/_src/rep.py` lines 168-190)
has the outcome `b`. -/
def SolutionRun (u rtol atol : ℝ) (X₁ : Fin n → Matrix (Fin d₁) (Fin d₁) ℂ) (X₂ : Fin n → Matrix (Fin d₂) (Fin d₂) ℂ)
    (X₃ : Fin n → Matrix (Fin d₃) (Fin d₃) ℂ) (C : Fin d₁ → Fin d₂ → Fin d₃ → ℝ) (b : Bool) : Prop :=
  ∃ (L P Q R : Fin n → Fin d₁ → Fin d₂ → Fin d₃ → ℂ) (c : Fin n → Fin d₁ → Fin d₂ → Fin d₃ → Bool),
    (∀ a i j l, DotRun u (fun k => ((C i j k : ℝ) : ℂ)) (fun k => X₃ a l k) (L a i j l)) ∧
    (∀ a l j k, DotRun u (fun i => X₁ a i l) (fun i => ((C i j k : ℝ) : ℂ)) (P a l j k)) ∧
    (∀ a i l k, DotRun u (fun j => X₂ a j l) (fun j => ((C i j k : ℝ) : ℂ)) (Q a i l k)) ∧
    (∀ a i j k, Rnd u (P a i j k + Q a i j k) (R a i j k)) ∧
    (∀ a i j k, CloseRun u atol rtol (L a i j k) (R a i j k) (c a i j k)) ∧
    (b = true ↔ ∀ a i j k, c a i j k = true)

/-- The comparison of two algebras (`/repo/lie_nn/_src/rep.py` lines 139-140) has the outcome `b`. -/
def CloseAlgebraRun (u rtol atol : ℝ) (A B : Fin n → Fin n → Fin n → ℂ) (b : Bool) : Prop :=
  ∃ c : Fin n → Fin n → Fin n → Bool, (∀ i j k, CloseRun u atol rtol (A i j k) (B i j k) (c i j k)) ∧
    (b = true ↔ ∀ i j k, c i j k = true)

/-- `check_representation_triplet(rep1, rep2, rep3, rtol, atol)` (`/repo/lie_nn/_src/rep.py` lines 138-190)
has the result `res`; `r₁`, `r₂`, `r₃` and `cg` have the exact values of the generators and of the
coefficients.  The structure constants are stored without errors. -/
def TripletRun (u rtol atol : ℝ) (r₁ : Rep n h d₁) (r₂ : Rep n h d₂) (r₃ : Rep n h d₃)
    (cg : Py (List (Fin d₁ → Fin d₂ → Fin d₃ → ℝ))) (res : Py Unit) : Prop :=
  ∃ Y₁ Y₂ Y₃, GensRun u r₁.X Y₁ ∧ GensRun u r₂.X Y₂ ∧ GensRun u r₃.X Y₃ ∧
  ∃ a₂ a₃ b₁ b₂ b₃, CloseAlgebraRun u rtol atol r₁.A r₂.A a₂ ∧ CloseAlgebraRun u rtol atol r₁.A r₃.A a₃ ∧
    CheckAlgebraRun u rtol atol r₁.A Y₁ b₁ ∧ CheckAlgebraRun u rtol atol r₂.A Y₂ b₂ ∧
    CheckAlgebraRun u rtol atol r₃.A Y₃ b₃ ∧
  ∃ cg' bs, CoeffRun u cg cg' ∧
    (∀ L, cg' = .ok L → List.Forall₂ (SolutionRun u rtol atol Y₁ Y₂ Y₃) L bs) ∧
    res = do
      pyAssert (a₂ = true)
      pyAssert (a₃ = true)
      pyAssert (b₁ = true)
      pyAssert (b₂ = true)
      pyAssert (b₃ = true)
      let _ ← cg'
      pyAssert (∀ b ∈ bs, b = true)

end LieNN
