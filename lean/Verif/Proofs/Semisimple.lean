import Verif.Spec.Semisimple
import Verif.Proofs.Generic
import Verif.Proofs.HighestSUN
/-!
# Semisimple families are sums of irreducible ones
-/
namespace LieNN.Semi

open Matrix LieNN LieNN.Spec Module

variable {N d : ℕ} {X : Fin N → Matrix (Fin d) (Fin d) ℂ}

theorem semisimple_of_unitary (hX : ∀ a, (X a)ᴴ = -X a ∨ (X a)ᴴ * X a = 1) : Semisimple X := by
  intro W hW
  obtain ⟨P, hP, h1, h2⟩ := exists_projection hX W hW
  refine ⟨LinearMap.ker P.mulVecLin, fun a w hw => ?_, ?_, ?_⟩
  · rw [LinearMap.mem_ker, mulVecLin_apply] at hw ⊢
    rw [mulVec_mulVec, ← hP a, ← mulVec_mulVec, hw, mulVec_zero]
  · rw [Submodule.eq_bot_iff]
    rintro x ⟨hx, hx'⟩
    rw [SetLike.mem_coe, LinearMap.mem_ker, mulVecLin_apply, h1 x hx] at hx'
    exact hx'
  · rw [Submodule.eq_top_iff']
    intro x
    have : x = P *ᵥ x + (x - P *ᵥ x) := by abel
    rw [this]
    refine Submodule.add_mem_sup (h2 x) ?_
    rw [LinearMap.mem_ker, mulVecLin_apply, mulVec_sub, h1 _ (h2 x), sub_self]

/-- A smallest invariant subspace that is not zero. -/
structure Minimal (X : Fin N → Matrix (Fin d) (Fin d) ℂ) (U : Submodule ℂ (Fin d → ℂ)) : Prop where
  inv : Invariant X U
  ne : U ≠ ⊥
  min : ∀ W, Invariant X W → W ≤ U → W = ⊥ ∨ W = U

theorem exists_minimal (W : Submodule ℂ (Fin d → ℂ)) (hW : Invariant X W) (hne : W ≠ ⊥) : ∃ U ≤ W, Minimal X U := by
  induction h : finrank ℂ W using Nat.strong_induction_on generalizing W with
  | _ k ih =>
    by_cases hm : ∀ W', Invariant X W' → W' ≤ W → W' = ⊥ ∨ W' = W
    · exact ⟨W, le_rfl, hW, hne, hm⟩
    · push Not at hm
      obtain ⟨W', h1, h2, h3, h4⟩ := hm
      obtain ⟨U, hU, hU'⟩ := ih _ (h ▸ Submodule.finrank_lt_finrank_of_lt (lt_of_le_of_ne h2 h4)) W' h1 h3 rfl
      exact ⟨U, hU.trans h2, hU'⟩

/-- The list of summands. -/
theorem exists_summands (hX : Semisimple X) (W : Submodule ℂ (Fin d → ℂ)) (hW : Invariant X W) :
    ∃ l : List (Submodule ℂ (Fin d → ℂ)), (∀ U ∈ l, Minimal X U) ∧ (l.map fun U : Submodule ℂ (Fin d → ℂ) => finrank ℂ U).sum = finrank ℂ W ∧
      l.foldr (· ⊔ ·) ⊥ = W := by
  induction h : finrank ℂ W using Nat.strong_induction_on generalizing W with
  | _ k ih =>
    by_cases hne : W = ⊥
    · subst hne
      rw [finrank_bot] at h
      exact ⟨[], by simp, by simp [h], rfl⟩
    · obtain ⟨U, hU, hm⟩ := exists_minimal W hW hne
      obtain ⟨U', hi, h1, h2⟩ := hX U hm.inv
      have hd : U ⊓ (U' ⊓ W) = ⊥ := by rw [← inf_assoc, h1, bot_inf_eq]
      have hs : U ⊔ U' ⊓ W = W := by rw [← sup_inf_assoc_of_le _ hU, h2, top_inf_eq]
      have hf : finrank ℂ U + finrank ℂ (U' ⊓ W : Submodule ℂ (Fin d → ℂ)) = finrank ℂ W := by
        have := Submodule.finrank_sup_add_finrank_inf_eq U (U' ⊓ W)
        rw [hd, hs, finrank_bot] at this
        omega
      have hp : 0 < finrank ℂ U := by
        rw [Nat.pos_iff_ne_zero]
        intro h0
        exact hm.ne (Submodule.finrank_eq_zero.1 h0)
      obtain ⟨l, l1, l2, l3⟩ := ih (finrank ℂ (U' ⊓ W : Submodule ℂ (Fin d → ℂ))) (by omega) (U' ⊓ W)
        (fun a w hw => ⟨hi a w hw.1, hW a w hw.2⟩) rfl
      refine ⟨U :: l, ?_, ?_, ?_⟩
      · intro V hV
        rcases List.mem_cons.1 hV with rfl | hV
        · exact hm
        · exact l1 V hV
      · rw [List.map_cons, List.sum_cons, l2, hf, h]
      · rw [List.foldr_cons, l3, hs]

/-- The matrices of the family on a smallest subspace. -/
theorem Minimal.block {U : Submodule ℂ (Fin d → ℂ)} (hU : Minimal X U) :
    ∃ (V : Matrix (Fin d) (Fin (finrank ℂ U)) ℂ) (P : Matrix (Fin (finrank ℂ U)) (Fin d) ℂ)
      (Y : Fin N → Matrix (Fin (finrank ℂ U)) (Fin (finrank ℂ U)) ℂ), P * V = 1 ∧ (∀ a, X a * V = V * Y a) ∧
      LinearMap.range V.mulVecLin = U ∧ IrreducibleFamily Y := by
  let b := finBasis ℂ U
  let V : Matrix (Fin d) (Fin (finrank ℂ U)) ℂ := Matrix.of fun i j => (b j : Fin d → ℂ) i
  have hV : ∀ x, V *ᵥ x = ((b.equivFun.symm x : U) : Fin d → ℂ) := by
    intro x
    rw [Basis.equivFun_symm_apply]
    funext i
    simp [V, mulVec, dotProduct, mul_comm]
  have hr : LinearMap.range V.mulVecLin = U := by
    ext x
    constructor
    · rintro ⟨y, rfl⟩
      rw [mulVecLin_apply, hV]
      exact Subtype.mem _
    · intro hx
      exact ⟨b.equivFun ⟨x, hx⟩, by rw [mulVecLin_apply, hV, LinearEquiv.symm_apply_apply]⟩
  have hinj : Function.Injective V.mulVecLin := by
    intro x y h
    rw [mulVecLin_apply, mulVecLin_apply, hV, hV] at h
    exact b.equivFun.symm.injective (Subtype.ext h)
  obtain ⟨g, hg⟩ := LinearMap.exists_leftInverse_of_injective V.mulVecLin (LinearMap.ker_eq_bot.2 hinj)
  let P := LinearMap.toMatrix' g
  have hPV : P * V = 1 := by
    apply Matrix.toLin'.injective
    rw [Matrix.toLin'_mul, Matrix.toLin'_toMatrix', Matrix.toLin'_one]
    exact hg
  have hVP : ∀ u ∈ U, V *ᵥ (P *ᵥ u) = u := by
    intro u hu
    rw [← hr] at hu
    obtain ⟨y, rfl⟩ := hu
    rw [mulVecLin_apply, mulVec_mulVec y P V, hPV, one_mulVec]
  have hVU : ∀ x, V *ᵥ x ∈ U := fun x => by rw [hV]; exact Subtype.mem _
  have hXV : ∀ a, X a * V = V * (P * X a * V) := by
    intro a
    apply Matrix.toLin'.injective
    refine LinearMap.ext fun x => ?_
    rw [toLin'_apply, toLin'_apply, ← mulVec_mulVec, ← mulVec_mulVec, ← mulVec_mulVec, ← mulVec_mulVec, hVP]
    exact hU.inv a _ (hVU x)
  refine ⟨V, P, fun a => P * X a * V, hPV, hXV, hr, ?_, fun W hW => ?_⟩
  · rw [Nat.pos_iff_ne_zero]
    intro h0
    exact hU.ne (Submodule.finrank_eq_zero.1 h0)
  · rcases hU.min (W.map V.mulVecLin) (by
      rintro a _ ⟨w, hw, rfl⟩
      refine ⟨(P * X a * V) *ᵥ w, hW a w hw, ?_⟩
      rw [mulVecLin_apply, mulVecLin_apply, mulVec_mulVec, mulVec_mulVec, hXV]) (by
      rintro _ ⟨w, -, rfl⟩
      exact hVU w) with h | h
    · left
      refine Submodule.map_injective_of_injective hinj ?_
      rw [h, Submodule.map_bot]
    · right
      refine Submodule.map_injective_of_injective hinj ?_
      rw [Submodule.map_top, hr, h]

end LieNN.Semi
