import Verif.Model.TensorPower
import Verif.Spec.Reduced
import Mathlib.Algebra.Polynomial.Laurent
/-!
# What the arrays of an object are, and sums over its blocks
-/
namespace LieNN.Spec

variable {n h : ℕ} {T : Table n h}

/-- `algebra()`, `continuous_generators()` and `discrete_generators()` of the object are those
of `R`. -/
def ActsAs : IrRep T → (d : ℕ) → Rep n h d → Prop
  | .tab i, d, R => (⟨d, R⟩ : Σ d, Rep n h d) = ⟨T.dim i, T.rep i⟩
  | .mul m, d, R => (T.rep m.ir).A = R.A ∧
      m.gens (fun ir => (T.rep ir).X) = .ok (List.ofFn fun a => ⟨d, d, R.X a⟩) ∧
      m.gens (fun ir => (T.rep ir).H) = .ok (List.ofFn fun a => ⟨d, d, R.H a⟩)
  | .red r, _, R => Acts r R

/-- The blocks of an object: multiplicity and label. -/
def blocksOf : IrRep T → List (ℕ × T.Ir)
  | .tab i => [(1, i)]
  | .mul m => [(m.mul, m.ir)]
  | .red r => r.irreps.map fun m => (m.mul, m.ir)

/-- The sum of `mul * f ir` over the blocks. -/
def total {M : Type*} [Semiring M] (x : IrRep T) (f : T.Ir → M) : M :=
  ((blocksOf x).map fun b => (b.1 : M) * f b.2).sum

open Classical in
/-- How often the label `k` occurs, multiplicities included. -/
noncomputable def timesIn (k : T.Ir) (x : IrRep T) : ℕ :=
  ((blocksOf x).map fun b => if b.2 = k then b.1 else 0).sum

/-- The change of basis of a `ReducedRep` has the right shape. -/
def Shaped : IrRep T → Prop
  | .tab _ => True
  | .mul _ => True
  | .red r => r.irreps ≠ [] ∧ ∀ Q ∈ r.Q, Q.rows = r.dim ∧ Q.cols = r.dim

/-- The tolerance tests of lines 93-96 of `tensor_product.py` only fire on exact equalities in the
product of these two `ReducedRep`s. -/
def RawExact (r₁ r₂ : ReducedRep T) : Prop :=
  ∀ out Q, tpRedRaw r₁ r₂ = .ok (out, Q) → RoundExact Q

/-- The same for the call `tensor_product(x, y)`: only the overloads with a `ReducedRep` round, and
those whose second argument alone is not one call with the arguments exchanged (lines 103-127). -/
def TpExact : IrRep T → IrRep T → Prop
  | .red r, .red s => RawExact r s
  | .tab i, .red s => RawExact (MulIr.toReduced ⟨1, i⟩) s
  | .mul m, .red s => RawExact m.toReduced s
  | .red r, .tab j => RawExact (MulIr.toReduced ⟨1, j⟩) r
  | .red r, .mul m => RawExact m.toReduced r
  | _, _ => True

/-- The values that `rep` and `result` can take in the loop of `tensor_power(x, n)` over all `n`. -/
inductive LoopState (x t : IrRep T) : IrRep T → IrRep T → Prop
  | start : LoopState x t x t
  | odd {rep result : IrRep T} {u v : ReducedRep T} : LoopState x t rep result →
      rep.tensorProduct result = .ok u → rep.tensorProduct rep = .ok v →
      LoopState x t (.red v) (.red u)
  | even {rep result : IrRep T} {v : ReducedRep T} : LoopState x t rep result →
      rep.tensorProduct rep = .ok v → LoopState x t (.red v) result

/-- All roundings in all powers of `x` are exact. -/
def PowExact (x t : IrRep T) : Prop :=
  ∀ rep result, LoopState x t rep result → TpExact rep result ∧ TpExact rep rep

/-- The label is a trivial representation. -/
def IsTrivialLabel (t : T.Ir) : Prop :=
  T.dim t = 1 ∧ (∀ a, (T.rep t).X a = 0) ∧ ∀ a, (T.rep t).H a = 1

/-- The character of the irrep of dimension `j + 1` of `SU(2)`: the formal sum of its weights
`j, j - 2, …, -j`. -/
noncomputable def su2Char (j : ℕ) : LaurentPolynomial ℤ :=
  ∑ t ∈ Finset.range (j + 1), LaurentPolynomial.T ((j : ℤ) - 2 * t)

end LieNN.Spec
