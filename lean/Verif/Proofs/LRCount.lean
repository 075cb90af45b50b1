import Verif.Proofs.LRSplit
/-!
# The number of highest vectors of a weight is the number of patterns that satisfy the row conditions
-/
namespace LieNN.LR

open Finset Spec SUN Matrix AddMonoidAlgebra

variable {n m : ℕ} {S₁ S₂ : List ℤ}

theorem coeff_sum_single {P : Type*} (s : Finset P) (w : P → Fin n → ℤ) (κ : Fin n → ℤ) :
    (∑ p ∈ s, single (w p) (1 : ℤ) : GRing n).coeff κ = ∑ p ∈ s, if w p = κ then 1 else 0 := by
  classical
  rw [coeff_sum, Finsupp.finsetSum_apply]
  refine sum_congr rfl fun p _ => ?_
  simp [Finsupp.single_apply]

/-- The product of the characters. -/
theorem chr_mul (h : Two n S₁ S₂) : chr (patSet S₁) (wv n) * chr (patSet S₂) (wv n) =
    ∑ S ∈ lams n S₁ S₂, Module.finrank ℂ (HW n S₁ S₂ S) • chr (patSet S) (wv n) := by
  classical
  have e1 : chr (patSet S₁) (wv n) * chr (patSet S₂) (wv n) =
      ∑ x : KK S₁ S₂, single (fun k : Fin n => WN n S₁ S₂ x k) (1 : ℤ) := by
    rw [chr, chr, ← sum_pats' h.w₁ fun M => single (wv n M) (1 : ℤ), ← sum_pats' h.w₂ fun M => single (wv n M) (1 : ℤ),
      sum_mul_sum, Fintype.sum_prod_type]
    refine sum_congr rfl fun i _ => sum_congr rfl fun j _ => ?_
    rw [single_mul_single, mul_one]
    rfl
  rw [e1]
  ext κ
  rw [coeff_sum_single, coeff_sum, Finsupp.finsetSum_apply]
  have h2 := sum_decomp h fun f => if f = κ then 1 else 0
  have e2 : ∀ S ∈ lams n S₁ S₂, (Module.finrank ℂ (HW n S₁ S₂ S) • chr (patSet S) (wv n)).coeff κ =
      (Module.finrank ℂ (HW n S₁ S₂ S) : ℤ) * ∑ M ∈ patSet S, if wv n M = κ then 1 else 0 := by
    intro S _
    rw [chr, ← coeff_sum_single, ← nsmul_eq_mul]
    rfl
  rw [sum_congr rfl e2]
  have : Function.Injective (Int.cast : ℤ → ℂ) := Int.cast_injective
  apply this
  push_cast
  exact h2

theorem vec_anti {S : List ℤ} (hw : IsWeight S) (hl : S.length = n) : Antitone (vec n fun i => S.getD i 0) := by
  intro i j hij
  exact getD_mono hw hij (by omega)

theorem anti_of_step {κ : Fin (m + 1) → ℤ} (h : ∀ k (hk : k + 1 < m + 1), κ ⟨k + 1, hk⟩ ≤ κ ⟨k, by omega⟩) : Antitone κ := by
  refine Fin.antitone_iff_succ_le.2 fun i => ?_
  exact h i (by omega)

/-- The row conditions make the sum of the weights a weight. -/
theorem row_anti {S : List ℤ} (hn : S.length = m + 1) (hw : IsWeight S) (h0 : ∀ s ∈ S, 0 ≤ s) {M : Pat} (hM : IsGT S M)
    {μ : ℕ → ℤ} (hr : Row (m + 1) μ (xs (m + 1) M)) : Antitone (vec (m + 1) μ + wv (m + 1) M) := by
  have hg := gtf_of hn hw h0 hM
  refine anti_of_step fun k hk => ?_
  have h1 := hr k (by omega) (m + 1) le_rfl
  simp only [Pi.add_apply, vec, wv, wt, rsum]
  rw [sum_sub_distrib, sum_sub_distrib] at h1
  have h2 := sum_range_succ (xs (m + 1) M k) (m + 1)
  have h3 := sum_range_succ (xs (m + 1) M (k + 1)) (m + 1)
  rw [hg.zero k (m + 1) (by omega) (by omega)] at h2
  have h4 := hg.zero (k + 1) (m + 1) (by omega) (by omega)
  rw [h4] at h3
  rw [h2]
  linarith

open Classical in
/-- The number of good patterns that lead to the label `S`. -/
theorem lr_count (h : Two (m + 1) S₁ S₂) {S : List ℤ} (hw : IsWeight S) (hl : S.length = m + 1) :
    #{M ∈ patSet S₁ | Row (m + 1) (fun i => S₂.getD i 0) (xs (m + 1) M) ∧
      vec (m + 1) (fun i => S₂.getD i 0) + wv (m + 1) M = vec (m + 1) (fun i => S.getD i 0)} =
      if S ∈ lams (m + 1) S₁ S₂ then Module.finrank ℂ (HW (m + 1) S₁ S₂ S) else 0 := by
  have hμ : ∀ k, k + 2 ≤ m + 1 → S₂.getD (k + 1) 0 ≤ S₂.getD k 0 := fun k hk =>
    getD_mono h.w₂ (by omega) (by rw [h.l₂]; omega)
  have e1 : alt (vec (m + 1) (fun i => S₂.getD i 0) + rho (m + 1)) * chr (patSet S₁) (wv (m + 1)) =
      ∑ S ∈ lams (m + 1) S₁ S₂, Module.finrank ℂ (HW (m + 1) S₁ S₂ S) •
        alt (vec (m + 1) (fun i => S.getD i 0) + rho (m + 1)) := by
    rw [← weyl h.l₂ h.w₂ h.p₂, mul_assoc, mul_comm (chr (patSet S₂) _), chr_mul h, mul_sum]
    refine sum_congr rfl fun S hS => ?_
    have hS' := lams_one h hS
    rw [mul_smul_comm, weyl hS'.l hS'.w hS'.p]
  rw [alt_mul_pats h.l₁ h.w₁ h.p₁ hμ] at e1
  have e2 := congrArg (fun x : GRing (m + 1) => x.coeff (vec (m + 1) (fun i => S.getD i 0) + rho (m + 1))) e1
  beta_reduce at e2
  rw [coeff_sum, Finsupp.finsetSum_apply, coeff_sum, Finsupp.finsetSum_apply] at e2
  have hκ := rho_add_strictAnti (vec_anti hw hl)
  rw [sum_congr rfl (g := fun M => if vec (m + 1) (fun i => S₂.getD i 0) + wv (m + 1) M =
    vec (m + 1) (fun i => S.getD i 0) then (1 : ℤ) else 0)] at e2
  · rw [← sum_filter, sum_const, nsmul_eq_mul, mul_one, filter_filter] at e2
    rw [sum_congr rfl (g := fun S' => if S' = S then (Module.finrank ℂ (HW (m + 1) S₁ S₂ S') : ℤ) else 0)] at e2
    · rw [sum_ite_eq'] at e2
      have := e2
      split_ifs at this ⊢ with hin
      · exact_mod_cast this
      · exact_mod_cast this
    · intro S' hS'
      have h1 := lams_one h hS'
      change Module.finrank ℂ (HW (m + 1) S₁ S₂ S') • (alt (vec (m + 1) (fun i => S'.getD i 0) + rho (m + 1))).coeff _ = _
      rw [alt_coeff (rho_add_strictAnti (vec_anti h1.w h1.l)) hκ]
      by_cases e : S' = S
      · subst e; simp
      · rw [if_neg e, if_neg, smul_zero]
        intro e'
        apply e
        have e'' := add_right_cancel e'
        refine List.ext_getElem (h1.l.trans hl.symm) fun k h2 h3 => ?_
        have := congrFun e'' ⟨k, by omega⟩
        simp only [vec] at this
        rwa [List.getD_eq_getElem _ _ h2, List.getD_eq_getElem _ _ h3] at this
  · intro M hM
    obtain ⟨h1, h2⟩ := mem_filter.1 hM
    have h3 := row_anti h.l₁ h.w₁ h.p₁ ((mem_patSet h.w₁).1 h1) h2
    rw [add_right_comm, alt_coeff (rho_add_strictAnti h3) hκ]
    simp only [add_left_inj]

/-! ## Labels up to a shift -/

/-- The label of a good pattern. -/
def lab (n : ℕ) (S₂ : List ℤ) (M : Pat) : List ℤ := List.ofFn fun k : Fin n => S₂.getD k 0 + wt n (xs n M) k

theorem lab_getD {M : Pat} {k : ℕ} (hk : k < n) : (lab n S₂ M).getD k 0 = S₂.getD k 0 + wt n (xs n M) k :=
  getD_ofFn (n := n) (fun k => S₂.getD k 0 + wt n (xs n M) k) hk

theorem lab_length (M : Pat) : (lab n S₂ M).length = n := by simp [lab]

theorem lab_one (h : Two (m + 1) S₁ S₂) {M : Pat} (hM : IsGT S₁ M)
    (hr : Row (m + 1) (fun i => S₂.getD i 0) (xs (m + 1) M)) : One (m + 1) (lab (m + 1) S₂ M) := by
  have ha := row_anti h.l₁ h.w₁ h.p₁ hM hr
  refine ⟨⟨?_, ?_⟩, fun s hs => ?_, lab_length M⟩
  · intro e
    have := congrArg List.length e
    rw [lab_length] at this
    simp at this
  · rw [lab, List.pairwise_ofFn]
    intro i j hij
    exact ha hij.le
  · obtain ⟨k, rfl⟩ := (List.mem_ofFn' _ _).1 hs
    exact add_nonneg (getD_nonneg h.p₂ _) (wt_nonneg h.l₁ h.w₁ h.p₁ hM k.2)

theorem lab_sum (h : Two n S₁ S₂) {M : Pat} (hM : IsGT S₁ M) :
    ∑ k ∈ range n, (lab n S₂ M).getD k 0 = ∑ k ∈ range n, (S₁.getD k 0 + S₂.getD k 0) := by
  rw [sum_congr rfl fun k hk => lab_getD (mem_range.1 hk), sum_add_distrib, sum_add_distrib,
    sum_wt h.l₁ h.w₁ h.p₁ hM, add_comm]

theorem HW_congr {S S' : List ℤ} (hz : ∀ i < n - 1, zOf n (fun k => S.getD k 0) i = zOf n (fun k => S'.getD k 0) i) :
    HW n S₁ S₂ S = HW n S₁ S₂ S' := by
  ext x
  rw [mem_HW, mem_HW]
  refine and_congr_right fun _ => forall₂_congr fun i hi => ?_
  rw [hz i hi]

open Classical in
/-- The number of good patterns that lead to `S` up to a shift. -/
theorem lr_z (h : Two (m + 1) S₁ S₂) (S : List ℤ) :
    #{M ∈ patSet S₁ | Row (m + 1) (fun i => S₂.getD i 0) (xs (m + 1) M) ∧
      ∀ i < m, zOf (m + 1) (fun k => (lab (m + 1) S₂ M).getD k 0) i = zOf (m + 1) (fun k => S.getD k 0) i} =
      Module.finrank ℂ (HW (m + 1) S₁ S₂ S) := by
  have hvec : ∀ M, vec (m + 1) (fun i => S₂.getD i 0) + wv (m + 1) M =
      vec (m + 1) (fun i => (lab (m + 1) S₂ M).getD i 0) := by
    intro M
    funext k
    simp only [vec, Pi.add_apply, wv]
    rw [lab_getD k.2]
  by_cases hex : ∃ S' ∈ lams (m + 1) S₁ S₂,
      ∀ i < m, zOf (m + 1) (fun k => S.getD k 0) i = zOf (m + 1) (fun k => S'.getD k 0) i
  · obtain ⟨S', hS', hz⟩ := hex
    have hS1 := lams_one h hS'
    have := lr_count h hS1.w hS1.l
    rw [if_pos hS'] at this
    rw [HW_congr (S := S) (S' := S') hz, ← this]
    congr 1
    refine filter_congr fun M hM => and_congr_right fun _ => ?_
    have hM' := (mem_patSet h.w₁).1 hM
    constructor
    · intro h1
      have : lab (m + 1) S₂ M = S' := label_ext (lab_length M) hS1.l ((lab_sum h hM').trans (lams_sum h hS').symm)
        fun i hi => (h1 i hi).trans (hz i hi)
      rw [hvec, this]
    · intro h1 i hi
      rw [hz i hi]
      unfold zOf
      have h2 : ∀ k < m + 1, (lab (m + 1) S₂ M).getD k 0 = S'.getD k 0 := by
        intro k hk
        have := congrFun h1 ⟨k, hk⟩
        rw [hvec] at this
        exact this
      beta_reduce
      rw [h2 _ (by omega), h2 _ (by omega)]
  · have h0 : HW (m + 1) S₁ S₂ S = ⊥ := by
      rw [Submodule.eq_bot_iff]
      intro x hx
      by_contra hne
      exact hex (lams_of_killed h hne (mem_HW.1 hx).1 (mem_HW.1 hx).2)
    rw [h0, finrank_bot, card_eq_zero, filter_eq_empty_iff]
    rintro M hM ⟨hr, hz⟩
    have hM' := (mem_patSet h.w₁).1 hM
    have h1 := lab_one h hM' hr
    have h2 := lr_count h h1.w h1.l
    by_cases hin : lab (m + 1) S₂ M ∈ lams (m + 1) S₁ S₂
    · exact hex ⟨_, hin, fun i hi => (hz i hi).symm⟩
    · rw [if_neg hin, card_eq_zero, filter_eq_empty_iff] at h2
      exact h2 hM ⟨hr, hvec M⟩

end LieNN.LR
