import Verif.Spec.TensorBasis

/-!
# Specification vocabulary for the multiplicities of a reduced tensor product
-/
namespace LieNN.Spec

open LieNN.IArr

variable {n h : ℕ} {T : Table n h} {m : ℕ}

/-- The equivariant maps from the irrep `i` to the tensors with the symmetry `G`: arrays with one more axis
that belongs to the irrep, whose slices have the symmetry, and where acting on the last axis is the same
as acting on the others. -/
def equiMaps (T : Table n h) (δ : Fin m → ℕ) (Y : LeadRep n h m) (G : Set (SignedPerm m)) (i : T.Ir) :
    Submodule ℂ (Box δ → Fin (T.dim i) → ℂ) where
  carrier := {B | (∀ l, (fun p => B p l) ∈ symC G δ) ∧
    (∀ a p l, ∑ k, B p k * (T.rep i).X a l k = ∑ q : Box δ, Y.X a q.1 p.1 * B q l) ∧
    ∀ a p l, ∑ k, B p k * (T.rep i).H a l k = ∑ q : Box δ, Y.H a q.1 p.1 * B q l}
  add_mem' := by
    rintro B C ⟨h1, h2, h3⟩ ⟨g1, g2, g3⟩
    refine ⟨fun l => (symC G δ).add_mem (h1 l) (g1 l), fun a p l => ?_, fun a p l => ?_⟩
    · simp only [Pi.add_apply, add_mul, mul_add, Finset.sum_add_distrib, h2, g2]
    · simp only [Pi.add_apply, add_mul, mul_add, Finset.sum_add_distrib, h3, g3]
  zero_mem' := ⟨fun l => (symC G δ).zero_mem, fun a p l => by simp, fun a p l => by simp⟩
  smul_mem' := by
    rintro c B ⟨h1, h2, h3⟩
    refine ⟨fun l => (symC G δ).smul_mem c (h1 l), fun a p l => ?_, fun a p l => ?_⟩
    · simp only [Pi.smul_apply, smul_eq_mul, mul_assoc, mul_left_comm _ c, ← Finset.mul_sum, h2]
    · simp only [Pi.smul_apply, smul_eq_mul, mul_assoc, mul_left_comm _ c, ← Finset.mul_sum, h3]

/-- The multiplicity of an irrep in a list of blocks. -/
def multOf [DecidableEq T.Ir] (l : List (Blk T m)) (i : T.Ir) : ℕ :=
  ((l.filter fun b => b.ir = i).map Blk.mul).sum

end LieNN.Spec
