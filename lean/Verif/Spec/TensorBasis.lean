import Verif.Model.TensorBasis
import Verif.Spec.IrrepsArray
import Verif.Spec.BasisInter
import Verif.Spec.PermRepr
import Verif.Spec.Reduced
import Mathlib.LinearAlgebra.LinearIndependent.Defs

/-!
# Specification vocabulary for reduced tensor products
-/
namespace LieNN.Spec

open Matrix

variable {n h : ℕ} {T : Table n h} {m : ℕ}

/-- The generators of the object `r` are computed without an exception and are those of `R`.  (With no
continuous generator `np.stack` has nothing to stack, and only the discrete ones are asked for.) -/
def ActsG (r : ReducedRep T) {d : ℕ} (R : Rep n h d) : Prop :=
  (n ≠ 0 → r.continuousGenerators = .ok (List.ofFn fun a => ⟨d, d, R.X a⟩)) ∧
  r.discreteGenerators = .ok (List.ofFn fun a => ⟨d, d, R.H a⟩)

/-- At least one block, no multiplicity zero, and the change of basis, if there is one, is a real
invertible matrix. -/
structure GoodRed (r : ReducedRep T) : Prop where
  ne : r.irreps ≠ []
  mul : ∀ m ∈ r.irreps, m.mul ≠ 0
  Q : ∀ Q ∈ r.Q, ∃ q : Matrix (Fin r.dim) (Fin r.dim) ℂ, Q = ⟨r.dim, r.dim, q⟩ ∧ IsUnit q ∧
    ∀ i j, (q i j).im = 0

/-- The matrices of a representation with natural numbers as indices; zero outside. -/
structure NRep (n h : ℕ) where
  /-- continuous generators -/
  X : Fin n → ℕ → ℕ → ℂ
  /-- discrete generators -/
  H : Fin h → ℕ → ℕ → ℂ

/-- The entries of the matrices of `R`. -/
def NRep.of {d : ℕ} (R : Rep n h d) : NRep n h where
  X := fun a q p => if hh : q < d ∧ p < d then R.X a ⟨q, hh.1⟩ ⟨p, hh.2⟩ else 0
  H := fun a q p => if hh : q < d ∧ p < d then R.H a ⟨q, hh.1⟩ ⟨p, hh.2⟩ else 0

/-- The tensor product of the representations `N i`, for `i` in `f`, on the axes of `f`: the
continuous generators act by the Leibniz rule, the discrete ones by the product. -/
noncomputable def tensorRep (f : Finset (Fin m)) (N : Fin m → NRep n h) : LeadRep n h m where
  X := fun a q p => ∑ i ∈ f, (N i).X a (q i) (p i) * if ∀ j, j ≠ i → q j = p j then 1 else 0
  H := fun a q p => (∏ i ∈ f, (N i).H a (q i) (p i)) * if ∀ j, j ∉ f → q j = p j then 1 else 0

/-- The complex tensors of shape `δ` with `T[x ∘ σ] = s T[x]` for every `(s, σ)` of `G`. -/
def symC (G : Set (SignedPerm m)) (δ : Fin m → ℕ) : Submodule ℂ (Box δ → ℂ) where
  carrier := {t | ∀ g ∈ G, ∀ ξ η : Box δ, η.1 = ξ.1 ∘ g.2 → t η = ((g.1 : ℤ) : ℂ) * t ξ}
  add_mem' := fun {a b} ha hb g hg ξ η h => by
    simp only [Pi.add_apply, ha g hg ξ η h, hb g hg ξ η h]; ring
  zero_mem' := fun g _ ξ η _ => by simp
  smul_mem' := fun c a ha g hg ξ η h => by
    simp only [Pi.smul_apply, ha g hg ξ η h, smul_eq_mul]; ring

/-- The positions of the last axis of the arrays of a list of blocks: block, copy, component. -/
abbrev Cols (l : List (Blk T m)) : Type :=
  Σ b : Fin l.length, Fin (l[b].mul) × Fin (T.dim l[b].ir)

/-- The slice of the arrays at a position of the last axis, as a tensor of shape `δ`. -/
def col (δ : Fin m → ℕ) (l : List (Blk T m)) (c : Cols l) : Box δ → ℂ :=
  fun p => l[c.1].x p.1 c.2.1 c.2.2

/-- What a reduced tensor product basis is: every block is equivariant for the tensor product of the
representations, the slices along the last axis form a basis of the tensors with the symmetry `G`,
blocks are sorted by irrep and every irrep occurs in one block. -/
structure IsReducedBasis (δ : Fin m → ℕ) (N : Fin m → NRep n h) (G : Set (SignedPerm m))
    [LinearOrder T.Ir] (l : List (Blk T m)) : Prop where
  equi : ∀ b ∈ l, EquiBlk δ (tensorRep Finset.univ N) b
  indep : LinearIndependent ℂ (col δ l)
  span : Submodule.span ℂ (Set.range (col δ l)) = symC G δ
  sorted : l.Pairwise fun a b => a.ir < b.ir
  mul : ∀ b ∈ l, b.mul ≠ 0

/-- The irreps of the table have scalar commutant and there is no map between two different ones. -/
structure Schur (T : Table n h) : Prop where
  scalar : ∀ (i : T.Ir) (M : Matrix (Fin (T.dim i)) (Fin (T.dim i)) ℂ),
    (∀ a, (T.rep i).X a * M = M * (T.rep i).X a) → (∀ a, (T.rep i).H a * M = M * (T.rep i).H a) →
    ∃ c : ℂ, M = c • (1 : Matrix _ _ ℂ)
  differ : ∀ (i j : T.Ir), i ≠ j → ∀ M : Matrix (Fin (T.dim i)) (Fin (T.dim j)) ℂ,
    (∀ a, (T.rep i).X a * M = M * (T.rep j).X a) → (∀ a, (T.rep i).H a * M = M * (T.rep j).H a) →
    M = 0

/-- Hypotheses on the table of irreps: no irrep of dimension zero, Schur's lemma, equivariant and
complete Clebsch-Gordan coefficients with real entries. -/
structure GoodTable (T : Table n h) : Prop where
  pos : ∀ i, 0 < T.dim i
  schur : Schur T
  equi : Equivariant T
  pair : ∀ i j : T.Ir, GoodPair i j
  real : ∀ i j k, ∀ C ∈ T.cg i j k, ∀ x y z, (C x y z).im = 0

/-- The frozensets of at most `M` indices are iterated in increasing order. -/
def SortedOrder (M : ℕ) (ord : TBasis.SetOrder) : Prop :=
  ∀ m ≤ M, ∀ f : Finset (Fin m), ∀ j, ord m f j = f.orderEmbOfFin rfl j

/-- `inter` computes intersections of row spaces of real bases with at least one row. -/
structure InterSpec (inter : TBasis.InterFn) : Prop where
  ok : ∀ {n₁ n₂ D : ℕ} (B₁ : Matrix (Fin n₁) (Fin D) ℂ) (B₂ : Matrix (Fin n₂) (Fin D) ℂ), RealMat B₁ →
    RealMat B₂ → n₁ ≠ 0 → n₂ ≠ 0 →
    ∃ P₁ P₂, inter n₁ n₂ D B₁ B₂ = .ok (P₁, P₂) ∧ IsIntersection B₁ B₂ P₁ P₂
  empty : ∀ {n₁ n₂ D : ℕ} (B₁ : Matrix (Fin n₁) (Fin D) ℂ) (B₂ : Matrix (Fin n₂) (Fin D) ℂ),
    n₁ = 0 ∨ n₂ = 0 → inter n₁ n₂ D B₁ B₂ = .error .valueError

end LieNN.Spec
