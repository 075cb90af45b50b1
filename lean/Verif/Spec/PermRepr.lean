import Verif.Spec.Perm
import Mathlib.Algebra.Group.Int.Units
import Mathlib.Data.Real.Basic
import Mathlib.Algebra.Module.Pi
import Mathlib.Data.Fintype.Pi
import Mathlib.Data.Finset.Sort
import Mathlib.LinearAlgebra.Span.Basic
import Mathlib.Tactic.Ring
import Mathlib.Algebra.BigOperators.Group.Finset.Defs

/-!
# Specification vocabulary for signed permutations

A signed permutation of `n` indices is an element of the group `ℤˣ × Perm (Fin n)`.
-/
namespace LieNN.Spec

/-- Signed permutations of `n` indices. -/
abbrev SignedPerm (n : ℕ) : Type := ℤˣ × Equiv.Perm (Fin n)

/-- The pair of the sign and the tuple of values. -/
def stup {n : ℕ} (g : SignedPerm n) : ℤ × List ℕ := ((g.1 : ℤ), tup g.2)

/-- A term of a formula, without its `=`: the sign is `-1` when it starts with `-`. -/
def termSign (t : List Char) : ℤˣ := if t.head? = some '-' then -1 else 1

/-- The letters of a term. -/
def termWord (t : List Char) : List Char := t.filter (· ≠ '-')

/-- The signed permutations that a list of terms with the reference word `f0` describes: the letter `i`
of `f0` is the letter `g i` of the word of the term. -/
def termPerms (n : ℕ) (f0 : List Char) (ts : List (List Char)) : Set (SignedPerm n) :=
  {g | ∃ t ∈ ts, g.1 = termSign t ∧ ∀ i : Fin n, (termWord t)[(g.2 i : ℕ)]? = f0[(i : ℕ)]?}

/-- The signed permutations of the positions of `sub`, numbered in increasing order, that come from an
element of `G` fixing every other index. -/
def restrictPerms {n : ℕ} (sub : Finset (Fin n)) (G : Set (SignedPerm n)) :
    Set (SignedPerm sub.card) :=
  {h | ∃ g ∈ G, (∀ k, k ∉ sub → g.2 k = k) ∧ h.1 = g.1 ∧
    ∀ j, g.2 (sub.orderEmbOfFin rfl j) = sub.orderEmbOfFin rfl (h.2 j)}

/-- The multi-indices of an array of shape `δ`. -/
abbrev Box {n : ℕ} (δ : Fin n → ℕ) : Type :=
  ↥(Fintype.piFinset fun k => Finset.range (δ k))

/-- Row-major (C order) position of a multi-index in an array of shape `δ`. -/
def rowMajor {n : ℕ} (δ : Fin n → ℕ) (ξ : Fin n → ℕ) : ℕ :=
  ∑ k, ξ k * ∏ j ∈ Finset.univ.filter (k < ·), δ j

/-- The tensors of shape `δ` with `T[x ∘ σ] = s T[x]` for every `(s, σ)` of `G`. -/
def symTensors {n : ℕ} (G : Set (SignedPerm n)) (δ : Fin n → ℕ) : Submodule ℝ (Box δ → ℝ) where
  carrier := {T | ∀ g ∈ G, ∀ ξ η : Box δ, η.1 = ξ.1 ∘ g.2 → T η = ((g.1 : ℤ) : ℝ) * T ξ}
  add_mem' := fun {a b} ha hb g hg ξ η h => by
    simp only [Pi.add_apply, ha g hg ξ η h, hb g hg ξ η h]; ring
  zero_mem' := fun g _ ξ η _ => by simp
  smul_mem' := fun c a ha g hg ξ η h => by
    simp only [Pi.smul_apply, ha g hg ξ η h, smul_eq_mul]; ring

end LieNN.Spec
