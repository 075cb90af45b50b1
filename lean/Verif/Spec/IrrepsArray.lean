import Verif.Model.IrrepsArray
import Verif.Spec.CG

/-!
# Specification vocabulary for `IrrepsArray`
-/
namespace LieNN.Spec

open Matrix

variable {n h : ℕ} {T : Table n h} {m : ℕ}

/-- The multi-indices of a shape. -/
def box (s : Fin m → ℕ) : Finset (Fin m → ℕ) := Fintype.piFinset fun k => Finset.range (s k)

/-- A family of square matrices indexed by multi-indices: the generators of a representation on the
tensors of a given shape. -/
structure LeadRep (n h m : ℕ) where
  /-- continuous generators -/
  X : Fin n → (Fin m → ℕ) → (Fin m → ℕ) → ℂ
  /-- discrete generators -/
  H : Fin h → (Fin m → ℕ) → (Fin m → ℕ) → ℂ

/-- For every copy `u` the array `x[..., u, :]` of a block of leading shape `s` intertwines the irrep
with `Y`: `x Xᵀ = Yᵀ x`. -/
structure EquiBlk (s : Fin m → ℕ) (Y : LeadRep n h m) (b : Blk T m) : Prop where
  shape : b.shape = s
  X : ∀ a, ∀ p ∈ box s, ∀ u l, ∑ k, b.x p u k * (T.rep b.ir).X a l k =
    ∑ q ∈ box s, Y.X a q p * b.x q u l
  H : ∀ a, ∀ p ∈ box s, ∀ u l, ∑ k, b.x p u k * (T.rep b.ir).H a l k =
    ∑ q ∈ box s, Y.H a q p * b.x q u l

/-- The part of a multi-index on the axes where `s` is not `1`. -/
def part (s p : Fin m → ℕ) : Fin m → ℕ := fun k => if s k = 1 then 0 else p k

/-- The tensor product of two representations living on disjoint axes. -/
def LeadRep.tensor (s t : Fin m → ℕ) (Y Z : LeadRep n h m) : LeadRep n h m where
  X := fun a q p =>
    Y.X a (part s q) (part s p) * (if part t q = part t p then 1 else 0) +
    (if part s q = part s p then 1 else 0) * Z.X a (part t q) (part t p)
  H := fun a q p => Y.H a (part s q) (part s p) * Z.H a (part t q) (part t p)

/-- The irreps of a list of blocks, one entry for each copy. -/
def copies (l : List (Blk T m)) : List T.Ir := l.flatMap fun b => List.replicate b.mul b.ir

end LieNN.Spec
