import Verif.Proofs.LRLoop
/-!
# The labels of `mul_rep` with their multiplicities
-/
namespace LieNN.LR

open Finset Spec SUN Matrix

variable {n m : ℕ} {S₁ S₂ : List ℤ}

/-- The last entry is made zero. -/
def norm (t : List ℤ) : List ℤ := t.map fun x => x - t.getD (t.length - 1) 0

theorem norm_length (t : List ℤ) : (norm t).length = t.length := by simp [norm]

theorem norm_getD {t : List ℤ} {k : ℕ} (hk : k < t.length) : (norm t).getD k 0 = t.getD k 0 - t.getD (t.length - 1) 0 := by
  rw [List.getD_eq_getElem _ _ (by rw [norm_length]; exact hk), List.getD_eq_getElem _ _ hk]
  simp [norm]

theorem norm_eq_iff {t S : List ℤ} (ht : t.length = n) (hl : S.length = n) (hn : 0 < n) (hlast : S.getD (n - 1) 0 = 0) :
    norm t = S ↔ ∀ i < n - 1, zOf n (fun k => t.getD k 0) i = zOf n (fun k => S.getD k 0) i := by
  constructor
  · rintro rfl i hi
    unfold zOf
    beta_reduce
    rw [norm_getD (by omega), norm_getD (by omega)]
    push_cast
    ring
  · intro h
    have h1 : ∀ i, i + 1 < n → t.getD (n - 2 - i) 0 - t.getD (n - 1 - i) 0 = S.getD (n - 2 - i) 0 - S.getD (n - 1 - i) 0 := by
      intro i hi
      have := h i (by omega)
      unfold zOf at this
      have := (div_left_inj' (two_ne_zero (α := ℂ))).1 this
      exact_mod_cast this
    have h2 : ∀ j < n, t.getD (n - 1 - j) 0 - S.getD (n - 1 - j) 0 = t.getD (n - 1) 0 := by
      intro j
      induction j with
      | zero => intro _; rw [Nat.sub_zero, hlast, sub_zero]
      | succ j ih =>
        intro hj
        have a := h1 j hj
        have b := ih (by omega)
        rw [show n - 1 - (j + 1) = n - 2 - j by omega]
        omega
    refine List.ext_getElem (by rw [norm_length, ht, hl]) fun k h3 h4 => ?_
    rw [← List.getD_eq_getElem _ 0 h3, ← List.getD_eq_getElem _ 0 h4, norm_getD (by omega), ht]
    have := h2 (n - 1 - k) (by omega)
    rw [show n - 1 - (n - 1 - k) = k by omega] at this
    omega

open Classical in
/-- The list of `mul_rep`. -/
noncomputable def good (n : ℕ) (S₁ S₂ : List ℤ) : List Pat :=
  (pats S₁).filter fun M => decide (Row n (fun i => S₂.getD i 0) (xs n M))

theorem mulRep_eq (h : Two n S₁ S₂) : mulRep S₁ S₂ = .ok ((good n S₁ S₂).map fun M => norm (lab n S₂ M)) := by
  classical
  unfold mulRep
  rw [sToMs_eq S₁ h.w₁]
  simp only [SU2.ok_bind', h.l₁]
  rw [LieNN.mapM_ok (g := fun M => if Row n (fun i => S₂.getD i 0) (xs n M) then lab n S₂ M else [])
    fun M hM => mulLoop_row h.l₁ h.w₁ h.p₁ ((mem_pats S₁ h.w₁ M).1 hM) h.l₂]
  simp only [SU2.ok_bind', pure, Except.pure]
  congr 1
  unfold good
  induction pats S₁ with
  | nil => rfl
  | cons M Ms ih =>
    rw [List.map_cons, List.filterMap_cons, List.filter_cons, ih]
    by_cases hr : Row n (fun i => S₂.getD i 0) (xs n M)
    · rw [if_pos hr, if_pos (decide_eq_true hr), List.map_cons]
      have hne : lab n S₂ M ≠ [] := by
        intro e
        have := congrArg List.length e
        rw [lab_length] at this
        have := h.two
        simp at *
        omega
      rw [List.getLast?_eq_some_getLast hne, Option.map_some]
      have : (lab n S₂ M).getLast hne = (lab n S₂ M).getD ((lab n S₂ M).length - 1) 0 := by
        rw [List.getLast_eq_getElem, List.getD_eq_getElem]
      rw [this]
      rfl
    · rw [if_neg hr, if_neg (by simpa using hr)]
      rfl

theorem good_nodup (h : Two n S₁ S₂) : (good n S₁ S₂).Nodup := by
  have hnd : (pats S₁).Nodup := (pats_sorted S₁ h.w₁).imp fun h => ne_of_lt h
  exact hnd.filter _

/-- How often a label occurs. -/
theorem count_good (h : Two (m + 1) S₁ S₂) {S : List ℤ} (hl : S.length = m + 1) (hlast : S.getD m 0 = 0) :
    ((good (m + 1) S₁ S₂).map fun M => norm (lab (m + 1) S₂ M)).count S = Module.finrank ℂ (HW (m + 1) S₁ S₂ S) := by
  classical
  rw [← lr_z h S, List.count, List.countP_map, List.countP_eq_length_filter,
    ← List.toFinset_card_of_nodup ((good_nodup h).filter _)]
  congr 1
  ext M
  rw [List.mem_toFinset, List.mem_filter, mem_filter, good, List.mem_filter, patSet, List.mem_toFinset, and_assoc]
  refine and_congr_right fun _ => ?_
  rw [decide_eq_true_eq]
  refine and_congr_right fun _ => ?_
  rw [Function.comp_apply, beq_iff_eq, norm_eq_iff (n := m + 1) (lab_length M) hl (by omega) hlast]
  rfl

/-! ## The dimension -/

theorem dimProd_norm (S : List ℤ) : dimProd (norm S) = dimProd S := by
  unfold dimProd
  rw [norm_length]
  refine List.foldl_ext _ _ _ fun d p hp => ?_
  unfold dimPairs at hp
  obtain ⟨i, hi, hm⟩ := List.mem_flatMap.1 hp
  obtain ⟨j, hj, rfl⟩ := List.mem_map.1 hm
  rw [List.mem_range] at hi
  rw [List.mem_range'_1] at hj
  dsimp only
  rw [norm_getD hi, norm_getD (by omega), sub_sub_sub_cancel_right]

theorem pats_norm {S : List ℤ} (hw : IsWeight S) : (pats (norm S)).length = (pats S).length := by
  have h2 : IsWeight (norm S) := by
    refine ⟨by simpa [norm] using hw.1, ?_⟩
    rw [norm, List.pairwise_map]
    exact hw.2.imp fun {a b} h => by omega
  have := dimProd_norm S
  rw [dimProd_eq S hw, dimProd_eq _ h2] at this
  exact_mod_cast this

theorem sum_dim (h : Two (m + 1) S₁ S₂) :
    (((good (m + 1) S₁ S₂).map fun M => norm (lab (m + 1) S₂ M)).map fun S => (pats S).length).sum =
      (pats S₁).length * (pats S₂).length := by
  classical
  have h1 := sum_decomp h fun _ => 1
  have e1 : ∑ S ∈ lams (m + 1) S₁ S₂, Module.finrank ℂ (HW (m + 1) S₁ S₂ S) * (pats S).length =
      (pats S₁).length * (pats S₂).length := by
    have : ∀ S ∈ lams (m + 1) S₁ S₂, ∑ M ∈ patSet S, (1 : ℂ) = ((pats S).length : ℂ) := by
      intro S hS
      rw [← sum_pats' (lams_one h hS).w fun _ => (1 : ℂ)]
      simp
    have e := sum_congr (rfl : lams (m + 1) S₁ S₂ = _)
      fun S hS => congrArg (fun x => (Module.finrank ℂ (HW (m + 1) S₁ S₂ S) : ℂ) * x) (this S hS)
    rw [e] at h1
    simp only [sum_const, card_univ, Fintype.card_prod, Fintype.card_fin, nsmul_eq_mul, mul_one] at h1
    exact_mod_cast h1.symm
  rw [← e1, List.map_map, ← List.sum_toFinset _ (good_nodup h)]
  have hmem : ∀ M ∈ (good (m + 1) S₁ S₂).toFinset, IsGT S₁ M ∧ Row (m + 1) (fun i => S₂.getD i 0) (xs (m + 1) M) := by
    intro M hM
    rw [List.mem_toFinset, good, List.mem_filter, decide_eq_true_eq] at hM
    exact ⟨(mem_pats S₁ h.w₁ M).1 hM.1, hM.2⟩
  have hvec : ∀ M S, S.length = m + 1 → (vec (m + 1) (fun i => S₂.getD i 0) + wv (m + 1) M = vec (m + 1) (fun i => S.getD i 0) ↔
      lab (m + 1) S₂ M = S) := by
    intro M S hl
    constructor
    · intro e
      refine List.ext_getElem ((lab_length M).trans hl.symm) fun k h3 h4 => ?_
      have := congrFun e ⟨k, by omega⟩
      simp only [vec, Pi.add_apply, wv] at this
      rw [← lab_getD (by omega), List.getD_eq_getElem _ _ h3, List.getD_eq_getElem _ _ h4] at this
      exact this
    · rintro rfl
      funext k
      simp only [vec, Pi.add_apply, wv]
      rw [lab_getD k.2]
  have hcount : ∀ S, IsWeight S → S.length = m + 1 → #{M ∈ (good (m + 1) S₁ S₂).toFinset | lab (m + 1) S₂ M = S} =
      if S ∈ lams (m + 1) S₁ S₂ then Module.finrank ℂ (HW (m + 1) S₁ S₂ S) else 0 := by
    intro S hw hl
    rw [← lr_count h hw hl]
    congr 1
    ext M
    rw [mem_filter, List.mem_toFinset, mem_filter, good, List.mem_filter, patSet, List.mem_toFinset, and_assoc,
      decide_eq_true_eq, hvec M S hl]
  have hin : ∀ M ∈ (good (m + 1) S₁ S₂).toFinset, lab (m + 1) S₂ M ∈ lams (m + 1) S₁ S₂ := by
    intro M hM
    obtain ⟨a, b⟩ := hmem M hM
    have ho := lab_one h a b
    have := hcount _ ho.w ho.l
    by_contra hno
    rw [if_neg hno, card_eq_zero, filter_eq_empty_iff] at this
    exact this hM rfl
  rw [← sum_fiberwise_of_maps_to hin]
  refine sum_congr rfl fun S hS => ?_
  have ho := lams_one h hS
  have := hcount S ho.w ho.l
  rw [if_pos hS] at this
  rw [← this, card_eq_sum_ones, sum_mul]
  refine sum_congr rfl fun M hM => ?_
  rw [Function.comp_apply, (mem_filter.1 hM).2, pats_norm ho.w, one_mul]

/-! ## Equivariant arrays -/

/-- The dimension of the equivariant arrays. -/
theorem finrank_HW (h : Two n S₁ S₂) {S : List ℤ} (hS : One n S)
    (V : Submodule ℂ (Fin (pats S₁).length → Fin (pats S₂).length → Fin (pats S).length → ℂ))
    (hV : ∀ C, C ∈ V ↔ LadderInt S₁ S₂ S (cgMat C)) : Module.finrank ℂ V = Module.finrank ℂ (HW n S₁ S₂ S) := by
  have hV' : ∀ C, C ∈ V ↔ LadderInt S₁ S₂ S (Matrix.of fun x k => C x.1 x.2 k) := by
    intro C
    rw [hV]
    constructor
    · intro hc
      have := hc.conj
      refine cast (congrArg _ ?_) this
      ext x k
      simp [cgMat]
    · intro hc
      have := hc.conj
      refine cast (congrArg _ ?_) this
      ext x k
      simp [cgMat]
  let f : V →ₗ[ℂ] HW n S₁ S₂ S := {
    toFun := fun C => ⟨fun x => C.1 x.1 x.2 (topIdx hS.w), by
      have := HW_of_int h hS ((hV' C.1).1 C.2)
      rw [mulVec_single_one] at this
      exact this⟩
    map_add' := fun _ _ => rfl
    map_smul' := fun _ _ => rfl }
  refine LinearEquiv.finrank_eq (LinearEquiv.ofBijective f ⟨?_, ?_⟩)
  · rw [← LinearMap.ker_eq_bot, LinearMap.ker_eq_bot']
    intro C hC
    have h1 := LadderInt.zero_of_top (h.labels hS) ((hV' C.1).1 C.2) fun x => congrFun (congrArg Subtype.val hC) x
    ext i j k
    exact congrFun₂ h1 (i, j) k
  · rintro ⟨x, hx⟩
    obtain ⟨T, hT, htop⟩ := HW_lift h hS hx
    refine ⟨⟨fun i j k => T (i, j) k, (hV' _).2 hT⟩, Subtype.ext ?_⟩
    rw [mulVec_single_one] at htop
    exact htop

/-! ## Exchange of the factors -/

theorem tens_swap {ι κ : Type} [Fintype ι] [DecidableEq ι] [Fintype κ] [DecidableEq κ] (A : Matrix ι ι ℂ) (B : Matrix κ κ ℂ)
    (x : ι × κ → ℂ) : Ladder.tens B A *ᵥ (x ∘ Prod.swap) = (Ladder.tens A B *ᵥ x) ∘ Prod.swap := by
  funext p
  simp only [mulVec, dotProduct, Function.comp_apply]
  refine Fintype.sum_equiv (Equiv.prodComm κ ι) _ _ fun q => ?_
  rw [Ladder.tens_apply, Ladder.tens_apply, add_comm]
  rfl

theorem finrank_HW_comm (S : List ℤ) : Module.finrank ℂ (HW n S₁ S₂ S) = Module.finrank ℂ (HW n S₂ S₁ S) := by
  have hmem : ∀ (S₁ S₂ : List ℤ) (x), x ∈ HW n S₁ S₂ S → x ∘ Prod.swap ∈ HW n S₂ S₁ S := by
    intro S₁ S₂ x hx
    refine ⟨fun l hl => ?_, fun i hi => ?_⟩
    · have := hx.1 l hl
      exact (tens_swap (Jp S₁ l) (Jp S₂ l) x).trans (by
        change (JT S₁ S₂ l *ᵥ x) ∘ Prod.swap = 0
        rw [this]; rfl)
    · have := hx.2 i hi
      exact (tens_swap (Jz S₁ i) (Jz S₂ i) x).trans (by
        change (ZT S₁ S₂ i *ᵥ x) ∘ Prod.swap = _
        rw [this]; rfl)
  refine LinearEquiv.finrank_eq ({
    toFun := fun x => ⟨x.1 ∘ Prod.swap, hmem _ _ _ x.2⟩
    invFun := fun x => ⟨x.1 ∘ Prod.swap, hmem _ _ _ x.2⟩
    map_add' := fun _ _ => rfl
    map_smul' := fun _ _ => rfl
    left_inv := fun x => Subtype.ext (by funext p; rfl)
    right_inv := fun x => Subtype.ext (by funext p; rfl) } : HW n S₁ S₂ S ≃ₗ[ℂ] HW n S₂ S₁ S)

end LieNN.LR
