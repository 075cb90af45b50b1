import Mathlib.LinearAlgebra.FiniteDimensional.Lemmas
import Mathlib.LinearAlgebra.Dimension.Constructions
import Mathlib.LinearAlgebra.Dimension.Free
import Mathlib.Data.Complex.Basic
import Mathlib.LinearAlgebra.Basis.VectorSpace
import Mathlib.LinearAlgebra.Projection
import Mathlib.Tactic.Ring

/-! # Tensor products of spaces of functions -/
namespace LieNN.TBasis

open Module

variable {α β : Type} [Fintype α] [Fintype β]

/-- The functions of two variables spanned by products. -/
def tens (V : Submodule ℂ (α → ℂ)) (W : Submodule ℂ (β → ℂ)) : Submodule ℂ (α × β → ℂ) :=
  Submodule.span ℂ {t | ∃ v ∈ V, ∃ w ∈ W, t = fun ab => v ab.1 * w ab.2}

theorem mul_mem_tens {V : Submodule ℂ (α → ℂ)} {W : Submodule ℂ (β → ℂ)} {v : α → ℂ} {w : β → ℂ}
    (hv : v ∈ V) (hw : w ∈ W) : (fun ab : α × β => v ab.1 * w ab.2) ∈ tens V W :=
  Submodule.subset_span ⟨v, hv, w, hw, rfl⟩

omit [Fintype α] [Fintype β] in
/-- To check an inclusion of `tens` it is enough to look at products of spanning sets. -/
theorem tens_span_le {S : Set (α → ℂ)} {S' : Set (β → ℂ)} {U : Submodule ℂ (α × β → ℂ)}
    (h : ∀ v ∈ S, ∀ w ∈ S', (fun ab : α × β => v ab.1 * w ab.2) ∈ U) :
    tens (Submodule.span ℂ S) (Submodule.span ℂ S') ≤ U := by
  rw [tens, Submodule.span_le]
  rintro t ⟨v, hv, w, hw, rfl⟩
  have h1 : ∀ v ∈ S, (fun ab : α × β => v ab.1 * w ab.2) ∈ U := by
    intro v hv
    induction hw using Submodule.span_induction with
    | mem w hw => exact h v hv w hw
    | zero => simp only [Pi.zero_apply, mul_zero]; exact U.zero_mem
    | add a b _ _ ha hb =>
      have := U.add_mem ha hb
      convert this using 1
      funext ab
      simp [mul_add]
    | smul c a _ ha =>
      have := U.smul_mem c ha
      convert this using 1
      funext ab
      simp
      ring
  show (fun ab : α × β => v ab.1 * w ab.2) ∈ U
  induction hv using Submodule.span_induction with
  | mem v hv => exact h1 v hv
  | zero => simp only [Pi.zero_apply, zero_mul]; exact U.zero_mem
  | add a b _ _ ha hb =>
    have := U.add_mem ha hb
    convert this using 1
    funext ab
    simp [add_mul]
  | smul c a _ ha =>
    have := U.smul_mem c ha
    convert this using 1
    funext ab
    simp
    ring

theorem finrank_tens (V : Submodule ℂ (α → ℂ)) (W : Submodule ℂ (β → ℂ)) :
    finrank ℂ (tens V W) = finrank ℂ V * finrank ℂ W := by
  let bV := Module.finBasis ℂ V
  let bW := Module.finBasis ℂ W
  have hli : LinearIndependent ℂ fun (ij : Fin (finrank ℂ V) × Fin (finrank ℂ W)) (ab : α × β) =>
      (bV ij.1 : α → ℂ) ab.1 * (bW ij.2 : β → ℂ) ab.2 := by
    rw [Fintype.linearIndependent_iff]
    intro c hc ij
    have h1 : ∀ a, ∀ j, ∑ i, c (i, j) * (bV i : α → ℂ) a = 0 := by
      intro a
      have hw : ∑ j, (∑ i, c (i, j) * (bV i : α → ℂ) a) • bW j = 0 := by
        apply Subtype.ext
        funext b
        have := congrFun hc (a, b)
        simp only [Finset.sum_apply, Pi.smul_apply, smul_eq_mul, Pi.zero_apply,
          Fintype.sum_prod_type] at this
        rw [Finset.sum_comm] at this
        simp only [Submodule.coe_sum, Submodule.coe_smul, Finset.sum_apply, Pi.smul_apply, smul_eq_mul,
          ZeroMemClass.coe_zero, Pi.zero_apply, Finset.sum_mul]
        rw [← this]
        refine Finset.sum_congr rfl fun j _ => Finset.sum_congr rfl fun i _ => ?_
        ring
      exact fun j => Fintype.linearIndependent_iff.1 bW.linearIndependent _ hw j
    have h2 : ∑ i, c (i, ij.2) • bV i = 0 := by
      apply Subtype.ext
      funext a
      have := h1 a ij.2
      simp only [Submodule.coe_sum, Submodule.coe_smul, Finset.sum_apply, Pi.smul_apply, smul_eq_mul,
          ZeroMemClass.coe_zero, Pi.zero_apply]
      exact this
    exact Fintype.linearIndependent_iff.1 bV.linearIndependent _ h2 ij.1
  have hspan : Submodule.span ℂ (Set.range fun (ij : Fin (finrank ℂ V) × Fin (finrank ℂ W))
      (ab : α × β) => (bV ij.1 : α → ℂ) ab.1 * (bW ij.2 : β → ℂ) ab.2) = tens V W := by
    apply le_antisymm
    · rw [Submodule.span_le]
      rintro _ ⟨ij, rfl⟩
      exact mul_mem_tens (bV ij.1).2 (bW ij.2).2
    · have eV : V = Submodule.span ℂ (Set.range fun i => (bV i : α → ℂ)) := by
        have := bV.span_eq
        have h2 := congrArg (Submodule.map V.subtype) this
        rw [Submodule.map_span, Submodule.map_top, Submodule.range_subtype, ← Set.range_comp] at h2
        exact h2.symm
      have eW : W = Submodule.span ℂ (Set.range fun i => (bW i : β → ℂ)) := by
        have := bW.span_eq
        have h2 := congrArg (Submodule.map W.subtype) this
        rw [Submodule.map_span, Submodule.map_top, Submodule.range_subtype, ← Set.range_comp] at h2
        exact h2.symm
      conv_lhs => rw [eV, eW]
      apply tens_span_le
      rintro _ ⟨i, rfl⟩ _ ⟨j, rfl⟩
      exact Submodule.subset_span ⟨(i, j), rfl⟩
  rw [← hspan, finrank_span_eq_card hli, Fintype.card_prod, Fintype.card_fin, Fintype.card_fin]

/-- A function of two variables with all its slices in `V` and `W`. -/
theorem mem_tens_of_slices [DecidableEq α] [DecidableEq β] {V : Submodule ℂ (α → ℂ)}
    {W : Submodule ℂ (β → ℂ)} {t : α × β → ℂ}
    (h1 : ∀ b, (fun a => t (a, b)) ∈ V) (h2 : ∀ a, (fun b => t (a, b)) ∈ W) : t ∈ tens V W := by
  obtain ⟨P, hP⟩ := V.exists_isCompl
  obtain ⟨Q, hQ⟩ := W.exists_isCompl
  let pV : (α → ℂ) →ₗ[ℂ] V := Submodule.linearProjOfIsCompl V P hP
  let pW : (β → ℂ) →ₗ[ℂ] W := Submodule.linearProjOfIsCompl W Q hQ
  have e1 : ∀ b a, t (a, b) = ∑ a', t (a', b) * (pV (Pi.single a' 1) : α → ℂ) a := by
    intro b a
    have h : (pV (fun a => t (a, b)) : α → ℂ) = fun a => t (a, b) := by
      have := Submodule.linearProjOfIsCompl_apply_left hP ⟨_, h1 b⟩
      exact congrArg Subtype.val this
    have h3 : (fun a => t (a, b)) = ∑ a', t (a', b) • (Pi.single a' 1 : α → ℂ) := by
      funext a
      simp [Finset.sum_apply, Pi.single_apply]
    have h4 := congrFun h a
    rw [h3, map_sum] at h4
    simp only [map_smul, Submodule.coe_sum, Submodule.coe_smul, Finset.sum_apply, Pi.smul_apply,
      smul_eq_mul] at h4
    rw [h4]
  have e2 : ∀ a b, t (a, b) = ∑ b', t (a, b') * (pW (Pi.single b' 1) : β → ℂ) b := by
    intro a b
    have h : (pW (fun b => t (a, b)) : β → ℂ) = fun b => t (a, b) := by
      have := Submodule.linearProjOfIsCompl_apply_left hQ ⟨_, h2 a⟩
      exact congrArg Subtype.val this
    have h3 : (fun b => t (a, b)) = ∑ b', t (a, b') • (Pi.single b' 1 : β → ℂ) := by
      funext b
      simp [Finset.sum_apply, Pi.single_apply]
    have h4 := congrFun h b
    rw [h3, map_sum] at h4
    simp only [map_smul, Submodule.coe_sum, Submodule.coe_smul, Finset.sum_apply, Pi.smul_apply,
      smul_eq_mul] at h4
    rw [h4]
  have : t = ∑ a', ∑ b', t (a', b') • fun ab : α × β =>
      (pV (Pi.single a' 1) : α → ℂ) ab.1 * (pW (Pi.single b' 1) : β → ℂ) ab.2 := by
    funext ⟨a, b⟩
    simp only [Finset.sum_apply, Pi.smul_apply, smul_eq_mul]
    rw [e1 b a]
    refine Finset.sum_congr rfl fun a' _ => ?_
    rw [e2 a' b, Finset.sum_mul]
    refine Finset.sum_congr rfl fun b' _ => ?_
    ring
  rw [this]
  exact Submodule.sum_mem _ fun a' _ => Submodule.sum_mem _ fun b' _ =>
    Submodule.smul_mem _ _ (mul_mem_tens (pV _).2 (pW _).2)

end LieNN.TBasis
