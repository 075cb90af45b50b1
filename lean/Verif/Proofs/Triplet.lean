import Verif.Model.Triplet
import Verif.Props.SUNCG
/-!
# Helper lemmas for `check_representation_triplet`
-/
namespace LieNN

open Matrix Spec

theorem pyAssert_bind {α : Type} {c : Prop} [Decidable c] (f : Unit → Py α) :
    (pyAssert c >>= f) = if c then f () else .error .assertionError := by
  unfold pyAssert
  split_ifs <;> rfl

theorem pyAssert_ok_iff {c : Prop} {_ : Decidable c} : pyAssert c = .ok () ↔ c := by
  unfold pyAssert
  split_ifs with h
  · simp [h]
  · simp [h]

theorem pyAssert_ne {c : Prop} {_ : Decidable c} (hne : ¬ pyAssert c = .ok ()) : pyAssert c = .error .assertionError := by
  unfold pyAssert at hne ⊢
  split_ifs at hne ⊢ with h
  · exact absurd rfl hne
  · rfl

theorem isClose_of_eq {rtol atol : ℝ} (hr : 0 ≤ rtol) (ha : 0 ≤ atol) {x y : ℂ} (h : x = y) : IsClose atol rtol x y := by
  unfold IsClose
  rw [h, sub_self, norm_zero]
  positivity

theorem isClose_zero {x y : ℂ} : IsClose 0 0 x y ↔ x = y := by
  unfold IsClose
  rw [zero_mul, add_zero, norm_le_zero_iff, sub_eq_zero]

namespace SUN

theorem zweight_half (M : Pat) (k : ℕ) : ∃ m : ℤ, 2 * (mToZWeight M).getD k 0 = m := by
  have key : ∀ x ∈ mToZWeight M, ∃ m : ℤ, 2 * x = m := by
    intro x hx
    unfold mToZWeight at hx
    rw [List.mem_reverse] at hx
    obtain ⟨p, -, rfl⟩ := List.mem_map.1 hx
    exact ⟨_, mul_div_cancel₀ _ two_ne_zero⟩
  rw [List.getD_eq_getElem?_getD]
  rcases hk : (mToZWeight M)[k]? with _ | x
  · exact ⟨0, by simp⟩
  · exact key x (List.mem_of_getElem? hk)

/-- Some lowering operator moves the highest state by a vector of norm at least one. -/
theorem low_top {S : List ℤ} (hS : IsWeight S) (hne : (pats S).length ≠ 1) :
    ∃ k < S.length - 1, 1 ≤ ∑ l, ‖(Jp S k)ᴴ l (topIdx hS)‖ ^ 2 := by
  by_contra hcon
  push Not at hcon
  have hs := sys_Jp hS
  have ht := top_Jp hS
  have hz : ∀ k < S.length - 1, (Jp S k)ᴴ *ᵥ Pi.single (topIdx hS) 1 = 0 := by
    intro k hk
    have h1 : ((∑ l, ‖(Jp S k)ᴴ l (topIdx hS)‖ ^ 2 : ℝ) : ℂ) = (Jp S k * (Jp S k)ᴴ) (topIdx hS) (topIdx hS) := by
      rw [Matrix.mul_apply, Complex.ofReal_sum]
      refine Finset.sum_congr rfl fun l _ => ?_
      rw [conjTranspose_apply, norm_star, Complex.ofReal_pow, ← Complex.mul_conj']
      rfl
    have h2 : ((Jp S k)ᴴ * Jp S k) (topIdx hS) (topIdx hS) = 0 := by
      have := congrFun (congrArg (fun v => (Jp S k)ᴴ *ᵥ v) (ht.killed k hk)) (topIdx hS)
      rwa [mulVec_mulVec, mulVec_zero, mulVec_single_one] at this
    have h3 := congrFun₂ (hs.comm k k hk hk) (topIdx hS) (topIdx hS)
    rw [if_pos rfl, Matrix.sub_apply, h2, sub_zero, ← h1, Matrix.smul_apply] at h3
    have h4 := congrFun (Jz_top' hS k) (topIdx hS)
    rw [mulVec_single_one, Pi.smul_apply, Pi.single_eq_same, smul_eq_mul, mul_one] at h4
    change Jz S k (topIdx hS) (topIdx hS) = _ at h4
    obtain ⟨m, hm⟩ := zweight_half (topPat S) k
    rw [h4, smul_eq_mul] at h3
    have h5 : ((∑ l, ‖(Jp S k)ᴴ l (topIdx hS)‖ ^ 2 : ℝ) : ℂ) = ((m : ℝ) : ℂ) := by
      rw [h3]
      have : ((2 * (mToZWeight (topPat S)).getD k 0 : ℚ) : ℂ) = ((m : ℚ) : ℂ) := by rw [hm]
      push_cast at this ⊢
      exact this
    have h6 : ∑ l, ‖(Jp S k)ᴴ l (topIdx hS)‖ ^ 2 = (m : ℝ) := by exact_mod_cast h5
    have h7 := hcon k hk
    have h8 : 0 ≤ ∑ l, ‖(Jp S k)ᴴ l (topIdx hS)‖ ^ 2 := Finset.sum_nonneg fun _ _ => by positivity
    rw [h6] at h7 h8
    have h9 : m = 0 := by
      have : m < 1 := by exact_mod_cast h7
      have : 0 ≤ m := by exact_mod_cast h8
      omega
    rw [h9, Int.cast_zero, Finset.sum_eq_zero_iff_of_nonneg fun _ _ => by positivity] at h6
    rw [mulVec_single_one]
    funext l
    simpa using h6 l (Finset.mem_univ l)
  have hU := Ladder.cyclic hs ht (Submodule.span ℂ {Pi.single (topIdx hS) 1})
    (fun k hk x hx => by
      obtain ⟨c, rfl⟩ := Submodule.mem_span_singleton.1 hx
      rw [mulVec_smul, ht.killed k hk, smul_zero]
      exact Submodule.zero_mem _)
    (fun k hk x hx => by
      obtain ⟨c, rfl⟩ := Submodule.mem_span_singleton.1 hx
      rw [mulVec_smul, hz k hk, smul_zero]
      exact Submodule.zero_mem _)
    (Submodule.mem_span_singleton_self _)
  have h10 := finrank_span_singleton (K := ℂ) (v := (Pi.single (topIdx hS) 1 : Fin (pats S).length → ℂ)) (by simp)
  rw [hU, finrank_top, Module.finrank_fin_fun] at h10
  exact hne h10

/-- The same for one of the generators. -/
theorem gen_low_top {n : ℕ} {S : List ℤ} (hS : IsWeight S) (h0 : ∀ s ∈ S, 0 ≤ s) (hl : S.length = n) (h2 : 2 ≤ n)
    (hne : (pats S).length ≠ 1) {L} (hL : generators (pats S).length S = .ok L) :
    ∃ a : Fin (n ^ 2 - 1), 1 ≤ ∑ l ∈ Finset.univ.erase (topIdx hS), ‖genFn (n ^ 2 - 1) L a l (topIdx hS)‖ ^ 2 := by
  obtain ⟨k, hk, hs⟩ := low_top hS hne
  subst hl
  rw [generators_eq hS h0 h2] at hL
  obtain rfl := Except.ok.inj hL
  have hmem : unit S.length k (k + 1) - unit S.length (k + 1) k ∈ suBasis S.length := by
    unfold suBasis
    refine List.mem_append_left _ (List.mem_append_right _ (List.mem_map.2 ⟨(k, k + 1), ?_, rfl⟩))
    rw [mem_pairsLT]
    omega
  obtain ⟨i, hi, e⟩ := List.getElem_of_mem hmem
  refine ⟨⟨i, by rw [← length_suBasis' S.length]; exact hi⟩, ?_⟩
  have hX : genFn (S.length ^ 2 - 1) ((suBasis S.length).map (Phi S)) ⟨i, by rw [← length_suBasis' S.length]; exact hi⟩ =
      Jp S k - (Jp S k)ᴴ := by
    rw [genFn_map]
    change Phi S ((suBasis S.length).getD i 0) = _
    rw [List.getD_eq_getElem _ _ hi, e, map_sub, Phi_unit S (by omega) (by omega), Phi_unit S (by omega) (by omega),
      GG_up, GG_dn]
  have hkill : ∀ l, Jp S k l (topIdx hS) = 0 := by
    intro l
    have := congrFun ((top_Jp hS).killed k hk) l
    rwa [mulVec_single_one] at this
  rw [hX]
  refine hs.trans (le_of_eq ?_)
  rw [← Finset.add_sum_erase _ _ (Finset.mem_univ (topIdx hS)), conjTranspose_apply, hkill, star_zero, norm_zero]
  rw [zero_pow two_ne_zero, zero_add]
  refine Finset.sum_congr rfl fun l _ => ?_
  rw [Matrix.sub_apply, hkill, zero_sub, norm_neg]

end SUN

end LieNN
