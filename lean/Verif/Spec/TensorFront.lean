import Verif.Spec.TensorBasis
import Verif.Model.TensorFront

/-!
# Specification vocabulary for `reduced_tensor_product_basis`
-/
namespace LieNN.Spec

open LieNN.TFront

variable {n h : ℕ} {T : Table n h} {m : ℕ}

/-- The slice of the array at the position `c` of the last axis, as a tensor of shape `δ`. -/
def slice (δ : Fin m → ℕ) (x : RepArray T m) (c : ℕ) : Box δ → ℂ := fun p => (x.array p.1).getD c 0

/-- What the result of a reduced tensor product is: the representation `rep` is the direct sum of the
irreps of the blocks, in the standard basis; the last axis of `array` has its dimension; `array`
intertwines `rep` and the tensor product of the representations; its slices are a basis of the tensors
with the symmetry `G`; `list` cuts `array` into blocks, one per irrep. -/
structure IsReducedArray (δ : Fin m → ℕ) (N : Fin m → NRep n h) (G : Set (SignedPerm m))
    [LinearOrder T.Ir] (x : RepArray T m) : Prop where
  blocks : IsReducedBasis δ N G x.list
  irreps : x.rep.irreps = x.list.map fun b => ⟨b.mul, b.ir⟩
  Q : x.rep.Q = none
  length : ∀ p, (x.array p).length = x.rep.dim
  acts : ∃ S : Rep n h x.rep.dim, ActsG x.rep S ∧
    (∀ a, ∀ p ∈ box δ, ∀ c : Fin x.rep.dim, ∑ c' : Fin x.rep.dim, (x.array p).getD c' 0 * S.X a c c' =
      ∑ q ∈ box δ, (tensorRep Finset.univ N).X a q p * (x.array q).getD c 0) ∧
    ∀ a, ∀ p ∈ box δ, ∀ c : Fin x.rep.dim, ∑ c' : Fin x.rep.dim, (x.array p).getD c' 0 * S.H a c c' =
      ∑ q ∈ box δ, (tensorRep Finset.univ N).H a q p * (x.array q).getD c 0
  indep : LinearIndependent ℂ fun c : Fin x.rep.dim => slice δ x c
  span : Submodule.span ℂ (Set.range fun c : Fin x.rep.dim => slice δ x c) = symC G δ

/-- The index `k'` is the image of `k` under an element of `G`. -/
def Linked (G : Set (SignedPerm m)) (k k' : Fin m) : Prop := ∃ g ∈ G, g.2 k = k'

/-- The arguments `a`, `a'` of the keywords `c`, `c'` are the same object. -/
def SameObject (c : Char) (a : Arg T) (c' : Char) (a' : Arg T) : Prop :=
  c = c' ∨ ∃ x, a = .reduced x ∧ a' = .reduced x

/-- The keywords determine the representation of every index: they are letters of the formula, every
index is linked to an index with a keyword, and keywords of linked indices are the same object. -/
structure Determined (f0 : List Char) (G : Set (SignedPerm f0.length)) (kw : List (Char × Arg T)) : Prop where
  letters : ∀ ca ∈ kw, ca.1 ∈ f0
  covered : ∀ k, ∃ k', Linked G k k' ∧ ∃ ca ∈ kw, ca.1 = f0[k']
  same : ∀ ca ∈ kw, ∀ ca' ∈ kw, ∀ k k' : Fin f0.length, f0[k] = ca.1 → f0[k'] = ca'.1 → Linked G k k' →
    SameObject ca.1 ca.2 ca'.1 ca'.2

end LieNN.Spec
