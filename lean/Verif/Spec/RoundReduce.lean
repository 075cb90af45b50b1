import Verif.Model.Reduce
/-!
# Vocabulary for `reduce` with rounding errors
-/
namespace LieNN.Spec

/-- Two pieces of a reduced representation have the same size and algebra, and their generators and columns
differ by at most `τ` in every entry. -/
def PieceClose {n h d : ℕ} (τ : ℝ) (p q : Piece n h d) : Prop :=
  ∃ e : p.1 = q.1, p.2.1.A = q.2.1.A ∧
    (∀ a i j, ‖p.2.1.X a i j - q.2.1.X a (Fin.cast e i) (Fin.cast e j)‖ ≤ τ) ∧
    (∀ a i j, ‖p.2.1.H a i j - q.2.1.H a (Fin.cast e i) (Fin.cast e j)‖ ≤ τ) ∧
    ∀ i j, ‖p.2.2 i j - q.2.2 i (Fin.cast e j)‖ ≤ τ

end LieNN.Spec
