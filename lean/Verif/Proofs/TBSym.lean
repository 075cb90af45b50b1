import Verif.Proofs.TBCommut
import Verif.Proofs.TBProduct
import Verif.Proofs.PermBase
import Mathlib.Algebra.BigOperators.Field

/-! # The projector on the tensors with a symmetry -/
namespace LieNN.TBasis
open LieNN.Spec LieNN.IArr Module

variable {n h : ℕ} {T : Table n h} {m : ℕ} {δ : Fin m → ℕ}

/-- The permutation of the multi-indices. -/
def pull (σ : Equiv.Perm (Fin m)) (hσ : ∀ k, δ (σ k) = δ k) : Box δ ≃ Box δ where
  toFun p := ⟨p.1 ∘ σ, by
    show _ ∈ box δ
    rw [memb]
    intro k
    have := memb.1 p.2 (σ k)
    rw [hσ] at this
    exact this⟩
  invFun p := ⟨p.1 ∘ σ.symm, by
    show _ ∈ box δ
    rw [memb]
    intro k
    have := memb.1 p.2 (σ.symm k)
    rw [← hσ, Equiv.apply_symm_apply] at this
    exact this⟩
  left_inv p := by
    apply Subtype.ext
    funext k
    simp
  right_inv p := by
    apply Subtype.ext
    funext k
    simp

theorem pull_val (σ : Equiv.Perm (Fin m)) (hσ : ∀ k, δ (σ k) = δ k) (p : Box δ) :
    (pull σ hσ p).1 = p.1 ∘ σ := rfl

variable {G : Subgroup (SignedPerm m)} (hδ : ∀ g ∈ G, ∀ k, δ (g.2 k) = δ k)

open Classical in
/-- The average over the group. -/
noncomputable def symProj : (Box δ → ℂ) →ₗ[ℂ] (Box δ → ℂ) where
  toFun t p := (Fintype.card G : ℂ)⁻¹ * ∑ g : G, ((g.1.1 : ℤ) : ℂ) * t (pull g.1.2 (hδ g.1 g.2) p)
  map_add' := fun a b => by
    funext p
    simp only [Pi.add_apply, mul_add, Finset.sum_add_distrib]
  map_smul' := fun c a => by
    funext p
    simp only [Pi.smul_apply, smul_eq_mul, RingHom.id_apply, Finset.mul_sum]
    refine Finset.sum_congr rfl fun _ _ => ?_
    ring

open Classical in
theorem symProj_apply (t : Box δ → ℂ) (p : Box δ) : symProj hδ t p =
    (Fintype.card G : ℂ)⁻¹ * ∑ g : G, ((g.1.1 : ℤ) : ℂ) * t (pull g.1.2 (hδ g.1 g.2) p) := rfl

theorem sign_sq (u : ℤˣ) : ((u : ℤ) : ℂ) * ((u : ℤ) : ℂ) = 1 := by
  rcases Int.units_eq_one_or u with rfl | rfl <;> simp

open Classical in
theorem symProj_fix {t : Box δ → ℂ} (ht : t ∈ symC (G : Set (SignedPerm m)) δ) : symProj hδ t = t := by
  funext p
  rw [symProj_apply]
  have h1 : ∀ g : G, ((g.1.1 : ℤ) : ℂ) * t (pull g.1.2 (hδ g.1 g.2) p) = t p := by
    intro g
    rw [ht g.1 g.2 p _ (pull_val _ _ _), ← mul_assoc, sign_sq, one_mul]
  rw [Finset.sum_congr rfl fun g _ => h1 g, Finset.sum_const, Finset.card_univ, nsmul_eq_mul,
    ← mul_assoc, inv_mul_cancel₀, one_mul]
  exact_mod_cast Fintype.card_ne_zero

open Classical in
theorem symProj_mem (t : Box δ → ℂ) : symProj hδ t ∈ symC (G : Set (SignedPerm m)) δ := by
  intro g0 hg0 ξ η he
  rw [symProj_apply, symProj_apply, mul_left_comm]
  congr 1
  rw [Finset.mul_sum, ← Equiv.sum_comp (Equiv.mulLeft (⟨g0, hg0⟩ : G)) fun g : G =>
    ((g0.1 : ℤ) : ℂ) * (((g.1.1 : ℤ) : ℂ) * t (pull g.1.2 (hδ g.1 g.2) ξ))]
  refine Finset.sum_congr rfl fun g _ => ?_
  have h1 : pull g.1.2 (hδ g.1 g.2) η =
      pull ((Equiv.mulLeft (⟨g0, hg0⟩ : G)) g).1.2 (hδ _ ((Equiv.mulLeft (⟨g0, hg0⟩ : G)) g).2) ξ := by
    apply Subtype.ext
    rw [pull_val, pull_val, he]
    funext k
    simp
  rw [h1]
  simp only [Equiv.coe_mulLeft, Subgroup.coe_mul, Prod.fst_mul, Units.val_mul, Int.cast_mul]
  rw [← mul_assoc, ← mul_assoc, sign_sq, one_mul]

theorem symProj_iff (t : Box δ → ℂ) : t ∈ symC (G : Set (SignedPerm m)) δ ↔ symProj hδ t = t :=
  ⟨symProj_fix hδ, fun he => he ▸ symProj_mem hδ t⟩

open Classical in
theorem symProj_act {Y : (Fin m → ℕ) → (Fin m → ℕ) → ℂ}
    (hY : ∀ g ∈ G, ∀ q p : Fin m → ℕ, Y (q ∘ g.2) (p ∘ g.2) = Y q p) (t : Box δ → ℂ) :
    symProj hδ (act δ Y t) = act δ Y (symProj hδ t) := by
  funext p
  rw [symProj_apply, act_apply]
  simp only [act_apply, symProj_apply]
  have h1 : ∀ g : G, ∑ q : Box δ, Y q.1 (pull g.1.2 (hδ g.1 g.2) p).1 * t q =
      ∑ q : Box δ, Y q.1 p.1 * t (pull g.1.2 (hδ g.1 g.2) q) := by
    intro g
    rw [← (pull g.1.2 (hδ g.1 g.2)).sum_comp]
    refine Finset.sum_congr rfl fun q _ => ?_
    rw [pull_val, pull_val, hY g.1 g.2]
  simp only [h1, Finset.mul_sum]
  rw [Finset.sum_comm]
  refine Finset.sum_congr rfl fun q _ => Finset.sum_congr rfl fun g _ => ?_
  ring

theorem tensorRep_X_perm {N : Fin m → NRep n h} (g : Equiv.Perm (Fin m)) (hN : ∀ k, N (g k) = N k)
    (a : Fin n) (q p : Fin m → ℕ) :
    (tensorRep Finset.univ N).X a (q ∘ g) (p ∘ g) = (tensorRep Finset.univ N).X a q p := by
  simp only [tensorRep]
  rw [← Equiv.sum_comp g fun i => (N i).X a (q i) (p i) * if ∀ j, j ≠ i → q j = p j then 1 else 0]
  refine Finset.sum_congr rfl fun i _ => ?_
  rw [hN]
  have : (∀ j, j ≠ i → (q ∘ g) j = (p ∘ g) j) ↔ ∀ j, j ≠ g i → q j = p j := by
    constructor
    · intro hh j hj
      have := hh (g.symm j) (fun e => hj (by rw [← e, Equiv.apply_symm_apply]))
      simpa using this
    · intro hh j hj
      exact hh (g j) (fun e => hj (g.injective e))
  rw [if_congr this rfl rfl]
  rfl

theorem tensorRep_H_perm {N : Fin m → NRep n h} (g : Equiv.Perm (Fin m)) (hN : ∀ k, N (g k) = N k)
    (a : Fin h) (q p : Fin m → ℕ) :
    (tensorRep Finset.univ N).H a (q ∘ g) (p ∘ g) = (tensorRep Finset.univ N).H a q p := by
  simp only [tensorRep, Finset.mem_univ, not_true_eq_false, false_imp_iff, implies_true, if_true,
    mul_one]
  rw [← Equiv.prod_comp g fun i => (N i).H a (q i) (p i)]
  refine Finset.prod_congr rfl fun i _ => ?_
  rw [hN]
  rfl

/-- Real rows that span the real tensors with the symmetry span the complex ones. -/
theorem span_symC {ι : Type} {G : Set (SignedPerm m)} (r : ι → Box δ → ℝ)
    (hr : Submodule.span ℝ (Set.range r) = symTensors G δ) :
    Submodule.span ℂ (Set.range fun i (p : Box δ) => (r i p : ℂ)) = symC G δ := by
  apply le_antisymm
  · rw [Submodule.span_le]
    rintro _ ⟨i, rfl⟩ g hg ξ η he
    have h1 : r i ∈ symTensors G δ := by
      rw [← hr]; exact Submodule.subset_span ⟨i, rfl⟩
    have := h1 g hg ξ η he
    simp only
    rw [this]
    push_cast
    rfl
  · intro t ht
    let L : (Box δ → ℝ) →ₗ[ℝ] (Box δ → ℂ) :=
      { toFun := fun v p => (v p : ℂ)
        map_add' := fun a b => by funext p; simp
        map_smul' := fun c a => by funext p; simp }
    have h1 : symTensors G δ ≤ ((Submodule.span ℂ (Set.range fun i (p : Box δ) => (r i p : ℂ))).restrictScalars
        ℝ).comap L := by
      rw [← hr, Submodule.span_le]
      rintro _ ⟨i, rfl⟩
      exact Submodule.subset_span ⟨i, rfl⟩
    have hre : (fun p => (t p).re) ∈ symTensors G δ := by
      intro g hg ξ η he
      have := congrArg Complex.re (ht g hg ξ η he)
      simp only
      rw [this, ← Complex.ofReal_intCast, Complex.re_ofReal_mul]
    have him : (fun p => (t p).im) ∈ symTensors G δ := by
      intro g hg ξ η he
      have := congrArg Complex.im (ht g hg ξ η he)
      simp only
      rw [this, ← Complex.ofReal_intCast, Complex.im_ofReal_mul]
    have h2 : t = L (fun p => (t p).re) + Complex.I • L fun p => (t p).im := by
      funext p
      show t p = ((t p).re : ℂ) + Complex.I * ((t p).im : ℂ)
      rw [mul_comm, Complex.re_add_im]
    rw [h2]
    exact Submodule.add_mem _ (h1 hre) (Submodule.smul_mem _ _ (h1 him))

end LieNN.TBasis
