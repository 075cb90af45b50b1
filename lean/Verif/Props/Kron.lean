import Verif.Proofs.MatKron
import Verif.Props.Mat
import Mathlib.LinearAlgebra.Matrix.Trace
import Mathlib.Tactic.NoncommRing
/-!
# C71: `kron` of several arguments and `commutator`
-/
namespace LieNN.Props

open Matrix

/-- C71 (entries): the shape is the product of the shapes and the entry at the row-major position of the
row indices and of the column indices is the product of the entries, first argument most significant. -/
theorem C71_kron_entries (l : List (SMat × ℕ × ℕ)) (hl : l ≠ [])
    (h : ∀ t ∈ l, t.2.1 < t.1.rows ∧ t.2.2 < t.1.cols) :
    ∃ S, kronMats (l.map fun t => t.1) = .ok S ∧
      S.rows = (l.map fun t => t.1.rows).prod ∧ S.cols = (l.map fun t => t.1.cols).prod ∧
      S.get (l.foldl (fun a t => a * t.1.rows + t.2.1) 0)
        (l.foldl (fun a t => a * t.1.cols + t.2.2) 0) = (l.map fun t => t.1.get t.2.1 t.2.2).prod := by
  refine ⟨_, kronMats_ok (by simpa using hl), ?_, ?_, krons_get l h⟩
  · rw [krons_rows, List.map_map]; rfl
  · rw [krons_cols, List.map_map]; rfl

/-- `kron()` without argument is a `TypeError`. -/
theorem C71_kron_empty : kronMats [] = .error .typeError := rfl

/-- C71 (multiplicative): the product of two Kronecker products with matching shapes is the Kronecker
product of the products, for any number of arguments. -/
theorem C71_kron_mul (l : List (SMat × SMat × SMat)) (hl : l ≠ [])
    (hmul : ∀ t ∈ l, IsMatmul t.1 t.2.1 t.2.2) :
    ∃ S T U, kronMats (l.map fun t => t.1) = .ok S ∧
      kronMats (l.map fun t => t.2.1) = .ok T ∧
      kronMats (l.map fun t => t.2.2) = .ok U ∧ IsMatmul S T U := by
  refine ⟨_, _, _, kronMats_ok (by simpa using hl), kronMats_ok (by simpa using hl),
    kronMats_ok (by simpa using hl), ?_⟩
  clear hl
  induction l with
  | nil => exact ⟨1, 1, 1, 1, 1, rfl, rfl, by simp [krons, SMat.unit]⟩
  | cons t l ih =>
    obtain ⟨m, n, p, a, b, h1, h2, h3⟩ := hmul t (by simp)
    obtain ⟨m', n', p', a', b', h1', h2', h3'⟩ := ih fun t ht => hmul t (by simp [ht])
    refine ⟨m * m', n * n', p * p', kron a a', kron b b', ?_, ?_, ?_⟩
    · show SMat.kron t.1 (krons _) = _
      rw [h1, h1']; rfl
    · show SMat.kron t.2.1 (krons _) = _
      rw [h2, h2']; rfl
    · show SMat.kron t.2.2 (krons _) = _
      rw [h3, h3', kron_mul]; rfl

/-- C71 (associative): grouping the arguments does not change the result. -/
theorem C71_kron_assoc (l₁ l₂ : List SMat) (h₁ : l₁ ≠ []) (h₂ : l₂ ≠ []) :
    ∃ S₁ S₂ S, kronMats l₁ = .ok S₁ ∧ kronMats l₂ = .ok S₂ ∧
      kronMats (l₁ ++ l₂) = .ok S ∧ kronMats [S₁, S₂] = .ok S := by
  refine ⟨_, _, _, kronMats_ok h₁, kronMats_ok h₂, kronMats_ok (by simp [h₁]), ?_⟩
  rw [kronMats_ok (by simp), krons_append]
  simp [krons, SMat.kron_unit]

/-- C71 (identities): a Kronecker product of identity matrices is the identity matrix. -/
theorem C71_kron_one (l : List ℕ) (hl : l ≠ []) :
    kronMats (l.map fun m => ⟨m, m, 1⟩) = .ok ⟨l.prod, l.prod, 1⟩ := by
  rw [kronMats_ok (by simpa using hl)]
  congr 1
  clear hl
  induction l with
  | nil => rfl
  | cons m l ih =>
    show SMat.kron _ (krons _) = _
    rw [ih]
    simp only [SMat.kron, kron_one]
    rfl

/-- C71 (`commutator`): antisymmetric, trace free, satisfies the Jacobi identity, and zero exactly on
commuting matrices. -/
theorem C71_commutator {d : ℕ} (A B C : Matrix (Fin d) (Fin d) ℂ) :
    commutator A B = - commutator B A ∧ (commutator A B).trace = 0 ∧
      commutator A (commutator B C) + commutator B (commutator C A) +
        commutator C (commutator A B) = 0 ∧
      (commutator A B = 0 ↔ A * B = B * A) ∧
      ∀ i j, commutator A B i j = ∑ k, (A i k * B k j - B i k * A k j) := by
  refine ⟨?_, ?_, ?_, ?_, fun i j => ?_⟩
  · simp [commutator]
  · rw [commutator, Matrix.trace_sub, Matrix.trace_mul_comm, sub_self]
  · simp only [commutator]; noncomm_ring
  · rw [commutator, sub_eq_zero]
  · simp [commutator, Matrix.mul_apply, Finset.sum_sub_distrib]

/-- Three factors of different shapes with an entry of each. -/
example : ∀ t ∈ ([(⟨1, 2, 0⟩, 0, 1), (⟨2, 1, fun _ _ => 1⟩, 1, 0), (⟨3, 3, 1⟩, 2, 1)] :
    List (SMat × ℕ × ℕ)), t.2.1 < t.1.rows ∧ t.2.2 < t.1.cols := by
  simp

end LieNN.Props
