import Verif.Model.Dtype
/-!
# What a dtype promises about the entries of an array
-/
namespace LieNN.Spec

open LieNN.Jax

/-- An array of this dtype can hold the number exactly. -/
def Holds : Dtype → ℂ → Prop
  | .int, z => ∃ k : ℤ, z = k
  | .float, z => z.im = 0
  | .complex, _ => True

/-- Every entry of the arrays can be held by their dtypes. -/
structure WellTyped {n h d : ℕ} (r : Dt.TRep n h d) : Prop where
  /-- structure constants -/
  A : ∀ i j k, Holds r.tA (r.rep.A i j k)
  /-- continuous generators -/
  X : ∀ a i j, Holds r.tX (r.rep.X a i j)
  /-- discrete generators -/
  H : ∀ a i j, Holds r.tH (r.rep.H a i j)

/-- The dtype recorded for `Q` fits: there is one exactly when there is a `Q`, and it holds its
entries. -/
def QTyped (Q : Option SMat) (tQ : Option Dtype) : Prop :=
  match Q, tQ with
  | none, none => True
  | some Q, some t => ∀ i j, Holds t (Q.mat i j)
  | _, _ => False

end LieNN.Spec
