import Verif.Model.Basic
import Mathlib.Data.List.Forall2

/-! # `List.mapM` in the exception monad -/
namespace LieNN

theorem mapM_forall₂ {α β : Type} (f : α → Py β) (P : α → β → Prop) (L : List α)
    (h : ∀ x ∈ L, ∃ q, f x = .ok q ∧ P x q) : ∃ Q, L.mapM f = .ok Q ∧ List.Forall₂ P L Q := by
  induction L with
  | nil => exact ⟨[], rfl, .nil⟩
  | cons x L ih =>
    obtain ⟨q, h1, h2⟩ := h x (by simp)
    obtain ⟨Q, h3, h4⟩ := ih fun y hy => h y (by simp [hy])
    refine ⟨q :: Q, ?_, .cons h2 h4⟩
    rw [List.mapM_cons, h1, h3]
    rfl

end LieNN
