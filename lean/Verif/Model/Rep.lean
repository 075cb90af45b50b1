import Mathlib.Analysis.Normed.Algebra.MatrixExponential
import Mathlib.Analysis.Complex.Basic
import Mathlib.LinearAlgebra.Matrix.ZPow
import Verif.Model.Mat
/-!
# Representations (`/repo/lie_nn/_src/rep.py`) and the operations on them

`Rep n h d` is a `GenericRep` whose arrays have the shapes `A : (n, n, n)`, `X : (n, d, d)`,
`H : (h, d, d)`.  `GRep` packs the shapes as run-time data, so that the guards of the Python code
can be written.

Simplifications: entries are exact complex numbers; `scipy.linalg.expm` is the matrix exponential;
`np.linalg.pinv(Q)` is passed as an argument `iQ` (its specification, the four Penrose equations,
is `LieNN.Spec.IsPinv`).  NumPy broadcasting between algebras of different `lie_dim` where one
`lie_dim` is 1 is not modelled (`GRep` functions return `ValueError` there).
-/
namespace LieNN

open Matrix NormedSpace

/-- `GenericRep` (`/repo/lie_nn/_src/rep.py` lines 90-103): the arrays `_A`, `_X`, `_H`. -/
@[ext]
structure Rep (n h d : ℕ) where
  /-- structure constants, `[X_i, X_j] = A_ijk X_k` -/
  A : Fin n → Fin n → Fin n → ℂ
  /-- continuous generators -/
  X : Fin n → Matrix (Fin d) (Fin d) ℂ
  /-- discrete generators -/
  H : Fin h → Matrix (Fin d) (Fin d) ℂ

/-- A `GenericRep` with run-time shapes. -/
structure GRep where
  /-- `lie_dim` -/
  n : ℕ
  /-- `H.shape[0]` -/
  h : ℕ
  /-- `dim` -/
  d : ℕ
  /-- the arrays -/
  rep : Rep n h d

/-- `np.isclose(a, b)`: `|a - b| <= atol + rtol * |b|`. -/
def IsClose (atol rtol : ℝ) (a b : ℂ) : Prop := ‖a - b‖ ≤ atol + rtol * ‖b‖

/-- `np.allclose(A1, A2)` with the default tolerances, on arrays of structure constants. -/
def AllCloseA {n : ℕ} (A B : Fin n → Fin n → Fin n → ℂ) : Prop :=
  ∀ i j k, IsClose (1 / 10 ^ 8) (1 / 10 ^ 5) (A i j k) (B i j k)

/-- `np.linalg.matrix_power(M, k)`: a negative power inverts first and raises `LinAlgError`
(a subclass of `ValueError`) on a singular matrix. -/
noncomputable def matrixPower {d : ℕ} (M : Matrix (Fin d) (Fin d) ℂ) (k : ℤ) :
    Py (Matrix (Fin d) (Fin d) ℂ) :=
  open Classical in
  if 0 ≤ k then .ok (M ^ k.toNat)
  else if IsUnit M then .ok (M⁻¹ ^ (-k).toNat)
  else .error .valueError

namespace Rep

variable {n h d n₁ n₂ h₁ h₂ d₁ d₂ d' : ℕ}

/-- `Rep.exp_map` (`/repo/lie_nn/_src/rep.py` lines 57-72): `expm` of the linear combination, then
from the last discrete generator to the first `output = matrix_power(h, k) @ output`. -/
noncomputable def expMap (r : Rep n h d) (c : Fin n → ℂ) (k : Fin h → ℤ) :
    Py (Matrix (Fin d) (Fin d) ℂ) :=
  (List.finRange h).foldr
    (fun i out => do
      let o ← out
      let p ← matrixPower (r.H i) (k i)
      pure (p * o))
    (.ok (exp (∑ a, c a • r.X a)))

/-- `Rep.is_trivial` (`/repo/lie_nn/_src/rep.py` lines 77-82). -/
def isTrivial (r : Rep n h d) : Prop :=
  d = 1 ∧ (∀ a i j, r.X a i j = 0) ∧ (∀ a i j, r.H a i j = 1)

/-- `GenericRep.create_trivial` (`/repo/lie_nn/_src/rep.py` lines 127-132). -/
def createTrivial (r : Rep n h d) : Rep n h 1 where
  A := r.A
  X := fun _ _ _ => 0
  H := fun _ _ _ => 1

/-- `change_basis(rep, Q)` for a generic representation
(`/repo/lie_nn/_src/change_basis.py` lines 9-27); `iQ` is `np.linalg.pinv(Q)`. -/
def changeBasis (r : Rep n h d) (Q : Matrix (Fin d') (Fin d) ℂ) (iQ : Matrix (Fin d) (Fin d') ℂ) :
    Rep n h d' where
  A := r.A
  X := fun a => Q * r.X a * iQ
  H := fun a => Q * r.H a * iQ

/-- `change_algebra(rep, Q)` (`/repo/lie_nn/_src/change_algebra.py` lines 6-23);
`iQ` is `np.linalg.pinv(Q)`. -/
def changeAlgebra (r : Rep n h d) (Q : Matrix (Fin n₁) (Fin n) ℂ) (iQ : Matrix (Fin n) (Fin n₁) ℂ) :
    Rep n₁ h d where
  A := fun i j k => ∑ a, ∑ b, ∑ c, Q i a * Q j b * r.A a b c * iQ c k
  X := fun i u v => ∑ a, Q i a * r.X a u v
  H := r.H

/-- `conjugate(rep)` (`/repo/lie_nn/_src/conjugate.py` lines 9-15). -/
def conjugate (r : Rep n h d) : Rep n h d where
  A := r.A
  X := fun a i j => starRingEnd ℂ (r.X a i j)
  H := fun a i j => starRingEnd ℂ (r.H a i j)

/-- `direct_sum(rep1, rep2)` after its guards (`/repo/lie_nn/_src/direct_sum.py` lines 12-16). -/
def directSum (r₁ : Rep n h d₁) (r₂ : Rep n h d₂) : Rep n h (d₁ + d₂) where
  A := r₁.A
  X := fun a => dsum (r₁.X a) (r₂.X a)
  H := fun a => dsum (r₁.H a) (r₂.H a)

/-- `tensor_product(rep1, rep2)` (generic) after its guards
(`/repo/lie_nn/_src/tensor_product.py` lines 14-24). -/
def tensorProduct (r₁ : Rep n h d₁) (r₂ : Rep n h d₂) : Rep n h (d₁ * d₂) where
  A := r₁.A
  X := fun a => kron (r₁.X a) 1 + kron 1 (r₂.X a)
  H := fun a => kron (r₁.H a) (r₂.H a)

/-- `group_product(rep1, rep2)` (generic, `/repo/lie_nn/_src/group_product.py` lines 20-45). -/
def groupProduct (r₁ : Rep n₁ h₁ d₁) (r₂ : Rep n₂ h₂ d₂) :
    Rep (n₁ + n₂) (h₁ + h₂) (d₁ * d₂) where
  A := fun i j k => Fin.addCases
    (fun i => Fin.addCases
      (fun j => Fin.addCases (fun k => r₁.A i j k) (fun _ => 0) k) (fun _ => 0) j)
    (fun i => Fin.addCases
      (fun _ => 0) (fun j => Fin.addCases (fun _ => 0) (fun k => r₂.A i j k) k) j) i
  X := Fin.addCases (fun a => kron (r₁.X a) 1) (fun a => kron 1 (r₂.X a))
  H := Fin.addCases (fun a => kron (r₁.H a) 1) (fun a => kron 1 (r₂.H a))

/-- The arrays `algebra()`, `continuous_generators()`, `discrete_generators()` of
`TabulatedIrrepProduct(rep1, rep2)` (`/repo/lie_nn/_src/group_product.py` lines 95-126); its `dim`
is `rep1.dim * rep2.dim` (lines 84-86). -/
def tabulatedProduct (r₁ : Rep n₁ h₁ d₁) (r₂ : Rep n₂ h₂ d₂) :
    Rep (n₁ + n₂) (h₁ + h₂) (d₁ * d₂) where
  A := fun i j k => if hi : i.1 < n₁ then
      if hj : j.1 < n₁ then if hk : k.1 < n₁ then r₁.A ⟨i, hi⟩ ⟨j, hj⟩ ⟨k, hk⟩ else 0 else 0
    else if _ : j.1 < n₁ then 0 else if _ : k.1 < n₁ then 0
      else r₂.A ⟨i - n₁, by omega⟩ ⟨j - n₁, by omega⟩ ⟨k - n₁, by omega⟩
  X := fun a => if ha : a.1 < n₁ then kron (r₁.X ⟨a, ha⟩) 1 else kron 1 (r₂.X ⟨a - n₁, by omega⟩)
  H := fun a => if ha : a.1 < h₁ then kron (r₁.H ⟨a, ha⟩) 1 else kron 1 (r₂.H ⟨a - h₁, by omega⟩)

/-- `is_unitary(rep)` (`/repo/lie_nn/_src/properties.py` lines 6-13), with its tolerances
`atol=1e-13`, `rtol=1e-5`. -/
def isUnitary (r : Rep n h d) : Prop :=
  (∀ a i j, IsClose (1 / 10 ^ 13) (1 / 10 ^ 5) ((r.H a * (r.H a)ᴴ) i j)
    ((1 : Matrix (Fin d) (Fin d) ℂ) i j)) ∧
  (∀ a i j, IsClose (1 / 10 ^ 13) (1 / 10 ^ 5) ((r.X a + (r.X a)ᴴ) i j) 0)

end Rep

namespace GRep

open Classical in
/-- The guards shared by `direct_sum` (`/repo/lie_nn/_src/direct_sum.py` lines 10-11) and
`tensor_product` (`/repo/lie_nn/_src/tensor_product.py` lines 13-16): algebras `allclose`, same
number of discrete generators.  `np.allclose` on shapes that do not broadcast raises
`ValueError`. -/
noncomputable def guarded (r₁ r₂ : GRep) (f : ∀ {n h d₁ d₂ : ℕ}, Rep n h d₁ → Rep n h d₂ → GRep) :
    Py GRep :=
  if hn : r₂.n = r₁.n then
    if AllCloseA r₁.rep.A (hn ▸ r₂.rep.A) then
      if hh : r₂.h = r₁.h then .ok (f r₁.rep (hn ▸ hh ▸ r₂.rep))
      else .error .assertionError
    else .error .assertionError
  else .error .valueError

/-- `direct_sum(rep1, rep2)` (`/repo/lie_nn/_src/direct_sum.py` lines 8-16). -/
noncomputable def directSum (r₁ r₂ : GRep) : Py GRep :=
  guarded r₁ r₂ fun a b => ⟨_, _, _, a.directSum b⟩

/-- `tensor_product(rep1, rep2)` (`/repo/lie_nn/_src/tensor_product.py` lines 11-24). -/
noncomputable def tensorProduct (r₁ r₂ : GRep) : Py GRep :=
  guarded r₁ r₂ fun a b => ⟨_, _, _, a.tensorProduct b⟩

/-- `GenericRep.create_trivial` (`/repo/lie_nn/_src/rep.py` lines 127-132). -/
def createTrivial (r : GRep) : GRep := ⟨r.n, r.h, 1, r.rep.createTrivial⟩

/-- The loop of `tensor_power` (`/repo/lie_nn/_src/tensor_product.py` lines 134-141), run for at
most `fuel` iterations; `none` means that it has not returned yet. -/
noncomputable def tensorPowerLoop : ℕ → GRep → GRep → ℤ → Option (Py GRep)
  | 0, _, _, _ => none
  | fuel + 1, rep, result, n =>
    match (if n % 2 = 1 then tensorProduct rep result else .ok result) with
    | .error e => some (.error e)
    | .ok result =>
      if n / 2 = 0 then some (.ok result)
      else match tensorProduct rep rep with
        | .error e => some (.error e)
        | .ok rep => tensorPowerLoop fuel rep result (n / 2)

/-- `tensor_power(rep, n)` (`/repo/lie_nn/_src/tensor_product.py` lines 131-141). -/
noncomputable def tensorPower (fuel : ℕ) (rep : GRep) (n : ℤ) : Option (Py GRep) :=
  tensorPowerLoop fuel rep rep.createTrivial n

end GRep

end LieNN
