import Verif.Proofs.LRDecomp
/-!
# The tensor product of two representations of `SU(N)`: the decomposition and its weights
-/
namespace LieNN.LR

open Finset Spec SUN Matrix

variable {n : ℕ} {S₁ S₂ : List ℤ}

theorem sum_pats' {R : Type*} [AddCommMonoid R] {S : List ℤ} (hS : IsWeight S) (f : Pat → R) :
    ∑ i : Fin (pats S).length, f (pats S)[i] = ∑ Q ∈ patSet S, f Q := by
  have hnd : (pats S).Nodup := (pats_sorted S hS).imp fun h => ne_of_lt h
  rw [patSet, List.sum_toFinset _ hnd]
  exact Fin.sum_univ_fun_getElem _ _

/-- The weights of the tensor product that are labels. -/
def lams (n : ℕ) (S₁ S₂ : List ℤ) : Finset (List ℤ) :=
  (univ.image fun x : KK S₁ S₂ => List.ofFn fun k : Fin n => WN n S₁ S₂ x k).filter IsWeight

theorem getD_ofFn (f : ℕ → ℤ) {k : ℕ} (hk : k < n) : (List.ofFn fun k : Fin n => f k).getD k 0 = f k := by
  rw [List.getD_eq_getElem _ _ (by simpa using hk)]; simp

theorem lams_one (h : Two n S₁ S₂) {S : List ℤ} (hS : S ∈ lams n S₁ S₂) : One n S := by
  obtain ⟨h1, h2⟩ := mem_filter.1 hS
  obtain ⟨x, _, rfl⟩ := mem_image.1 h1
  refine ⟨h2, fun s hs => ?_, by simp⟩
  obtain ⟨k, rfl⟩ := (List.mem_ofFn' _ _).1 hs
  exact add_nonneg (wt_nonneg h.l₁ h.w₁ h.p₁ (idx_gt h.w₁ x.1) k.2) (wt_nonneg h.l₂ h.w₂ h.p₂ (idx_gt h.w₂ x.2) k.2)

theorem lams_sum (h : Two n S₁ S₂) {S : List ℤ} (hS : S ∈ lams n S₁ S₂) :
    ∑ k ∈ range n, S.getD k 0 = ∑ k ∈ range n, (S₁.getD k 0 + S₂.getD k 0) := by
  obtain ⟨h1, h2⟩ := mem_filter.1 hS
  obtain ⟨x, _, rfl⟩ := mem_image.1 h1
  rw [← sum_WN h x]
  exact sum_congr rfl fun k hk => getD_ofFn (WN n S₁ S₂ x) (mem_range.1 hk)

/-- Labels with the same weights of `Jz` and the same total are equal. -/
theorem label_ext {S S' : List ℤ} (hl : S.length = n) (hl' : S'.length = n)
    (hs : ∑ k ∈ range n, S.getD k 0 = ∑ k ∈ range n, S'.getD k 0)
    (hz : ∀ i < n - 1, zOf n (fun k => S.getD k 0) i = zOf n (fun k => S'.getD k 0) i) : S = S' := by
  have := eq_of_z (n := n) (fun i hi => hz i (by omega)) hs
  refine List.ext_getElem (hl.trans hl'.symm) fun k h1 h2 => ?_
  have := this k (by omega)
  rwa [List.getD_eq_getElem _ _ h1, List.getD_eq_getElem _ _ h2] at this

/-- A highest vector with a weight has one of these weights. -/
theorem lams_of_killed (h : Two n S₁ S₂) {u : KK S₁ S₂ → ℂ} (hu : u ≠ 0) (hk : Ladder.Killed (n - 1) (JT S₁ S₂) u)
    {w : ℕ → ℂ} (hw : ∀ i < n - 1, ZT S₁ S₂ i *ᵥ u = w i • u) :
    ∃ S ∈ lams n S₁ S₂, ∀ i < n - 1, w i = zOf n (fun k => S.getD k 0) i := by
  obtain ⟨x, hx⟩ := Function.ne_iff.1 hu
  have h1 : ∀ i < n - 1, w i = zOf n (WN n S₁ S₂ x) i := by
    intro i hi
    have := congrFun (hw i hi) x
    rw [ZT_diag h i hi, mulVec_diagonal, Pi.smul_apply, smul_eq_mul] at this
    exact (mul_right_cancel₀ hx this).symm
  have h2 : ∀ k, k + 1 < n → WN n S₁ S₂ x (k + 1) ≤ WN n S₁ S₂ x k := by
    intro k hk'
    have hi : n - 2 - k < n - 1 := by omega
    have e : w (n - 2 - k) = (((WN n S₁ S₂ x k - WN n S₁ S₂ x (k + 1) : ℤ) : ℝ) / 2 : ℝ) := by
      rw [h1 _ hi, zOf, show n - 2 - (n - 2 - k) = k by omega, show n - 1 - (n - 2 - k) = k + 1 by omega]
      push_cast; rfl
    have := Ladder.weight_nonneg (sysTwo h) hk hu hi (w := ((WN n S₁ S₂ x k - WN n S₁ S₂ x (k + 1) : ℤ) : ℝ) / 2)
      (by rw [hw _ hi, e])
    have h3 : (0 : ℝ) ≤ ((WN n S₁ S₂ x k - WN n S₁ S₂ x (k + 1) : ℤ) : ℝ) := by linarith
    have := Int.cast_nonneg_iff.1 h3
    omega
  have h3 : ∀ i j, i < j → j < n → WN n S₁ S₂ x j ≤ WN n S₁ S₂ x i := by
    intro i j hij
    induction j, hij using Nat.le_induction with
    | base => intro hj; exact h2 i hj
    | succ j hj ih => intro hj'; exact (h2 j hj').trans (ih (by omega))
  refine ⟨List.ofFn fun k : Fin n => WN n S₁ S₂ x k, mem_filter.2 ⟨mem_image_of_mem _ (mem_univ x), ?_, ?_⟩,
    fun i hi => ?_⟩
  · intro e
    have := congrArg List.length e
    have := h.two
    simp at *
    omega
  · rw [List.pairwise_ofFn]
    intro i j hij
    exact h3 i j hij j.2
  · rw [h1 i hi]
    unfold zOf
    beta_reduce
    rw [getD_ofFn (WN n S₁ S₂ x) (by omega), getD_ofFn (WN n S₁ S₂ x) (by omega)]

/-- The summands: a label and the number of a copy. -/
abbrev AA (n : ℕ) (S₁ S₂ : List ℤ) : Type := Σ S : lams n S₁ S₂, Fin (Module.finrank ℂ (HW n S₁ S₂ S.1))

/-- The sum over the weights of the tensor product. -/
theorem sum_decomp (h : Two n S₁ S₂) (F : (Fin n → ℤ) → ℂ) :
    ∑ x : KK S₁ S₂, F (fun k => WN n S₁ S₂ x k) =
      ∑ S ∈ lams n S₁ S₂, (Module.finrank ℂ (HW n S₁ S₂ S) : ℂ) * ∑ M ∈ patSet S, F (wv n M) := by

  choose v hv hspan using fun S : lams n S₁ S₂ => Ladder.exists_onb (HW n S₁ S₂ S.1)
  have hone : ∀ S : lams n S₁ S₂, One n S.1 := fun S => lams_one h S.2
  have hmem : ∀ S α, v S α ∈ HW n S₁ S₂ S.1 := fun S α => by
    rw [← hspan S]; exact Submodule.subset_span ⟨α, rfl⟩
  choose U hU htop using fun (S : lams n S₁ S₂) (α : Fin (Module.finrank ℂ (HW n S₁ S₂ S.1))) =>
    HW_lift h (hone S) (hmem S α)
  obtain ⟨T, hTU⟩ : ∃ T : ∀ a : AA n S₁ S₂, Matrix (KK S₁ S₂) (Fin (pats a.1.1).length) ℂ,
    ∀ S α, T ⟨S, α⟩ = U S α := ⟨fun a => U a.1 a.2, fun _ _ => rfl⟩
  have hTi : ∀ a : AA n S₁ S₂, LadderInt S₁ S₂ a.1.1 (T a) := fun a => by
    obtain ⟨S, α⟩ := a
    rw [hTU]; exact hU S α
  have hPl : ∀ (a : AA n S₁ S₂) l, l < n - 1 → T a * Jp a.1.1 l = JT S₁ S₂ l * T a := fun a l hl =>
    (hTi a).1 l (by rw [(hone a.1).l]; exact hl)
  have hMl : ∀ (a : AA n S₁ S₂) l, l < n - 1 → T a * (Jp a.1.1 l)ᴴ = (JT S₁ S₂ l)ᴴ * T a := fun a l hl =>
    (hTi a).2 l (by rw [(hone a.1).l]; exact hl)
  have hP' : ∀ (a b : AA n S₁ S₂) l, l < n - 1 → (T a)ᴴ * T b * Jp b.1.1 l = Jp a.1.1 l * ((T a)ᴴ * T b) := by
    intro a b l hl
    have := congrArg conjTranspose (hMl a l hl)
    rw [conjTranspose_mul, conjTranspose_mul, conjTranspose_conjTranspose, conjTranspose_conjTranspose] at this
    rw [Matrix.mul_assoc, hPl b l hl, ← Matrix.mul_assoc, ← this, Matrix.mul_assoc]
  have hM' : ∀ (a b : AA n S₁ S₂) l, l < n - 1 → (T a)ᴴ * T b * (Jp b.1.1 l)ᴴ = (Jp a.1.1 l)ᴴ * ((T a)ᴴ * T b) := by
    intro a b l hl
    have := congrArg conjTranspose (hPl a l hl)
    rw [conjTranspose_mul, conjTranspose_mul] at this
    rw [Matrix.mul_assoc, hMl b l hl, ← Matrix.mul_assoc, ← this, Matrix.mul_assoc]
  have horth : (Ladder.side T)ᴴ * Ladder.side T = 1 := by
    ext ⟨⟨S, α⟩, p⟩ ⟨⟨S', β⟩, q⟩
    have hPU := hP' ⟨S, α⟩ ⟨S', β⟩
    have hMU := hM' ⟨S, α⟩ ⟨S', β⟩
    rw [hTU, hTU] at hPU hMU
    change ((T ⟨S, α⟩)ᴴ * T ⟨S', β⟩) p q = _
    rw [hTU, hTU]
    by_cases hS : S = S'
    · subst hS
      obtain ⟨c, hc⟩ := Ladder.commutant (sys_of_one (hone S)) (top_of_one (hone S)) ((U S α)ᴴ * U S β) hPU hMU
      have hc' : c = if α = β then 1 else 0 := by
        rw [← hv S α β, ← htop S α, ← htop S β, Ladder.adj_dot, mulVec_mulVec]
        have := congrArg conjTranspose hc
        rw [conjTranspose_mul, conjTranspose_conjTranspose] at this
        rw [this, conjTranspose_smul, conjTranspose_one, smul_mulVec, one_mulVec, star_smul, star_star,
          smul_dotProduct, Pi.star_single, star_one, single_dotProduct, one_mul, Pi.single_eq_same, smul_eq_mul, mul_one]
      rw [hc, hc', Matrix.smul_apply, one_apply, one_apply]
      by_cases h1 : α = β
      · subst h1
        by_cases h2 : p = q
        · subst h2; simp
        · have : (⟨⟨S, α⟩, p⟩ : Σ a : AA n S₁ S₂, Fin (pats a.1.1).length) ≠ ⟨⟨S, α⟩, q⟩ := by
            intro e; exact h2 (eq_of_heq (Sigma.mk.inj e).2)
          rw [if_neg h2, if_neg this]; simp
      · have : (⟨⟨S, α⟩, p⟩ : Σ a : AA n S₁ S₂, Fin (pats a.1.1).length) ≠ ⟨⟨S, β⟩, q⟩ := by
          intro e; exact h1 (eq_of_heq (Sigma.mk.inj (Sigma.mk.inj e).1).2)
        rw [if_neg h1, if_neg this]; simp
    · have hne : (⟨⟨S, α⟩, p⟩ : Σ a : AA n S₁ S₂, Fin (pats a.1.1).length) ≠ ⟨⟨S', β⟩, q⟩ := by
        intro e; exact hS (Sigma.mk.inj (Sigma.mk.inj e).1).1
      rw [one_apply_ne hne]
      have : ∃ i < n - 1, zOf n (fun k => S'.1.getD k 0) i ≠ zOf n (fun k => S.1.getD k 0) i := by
        by_contra hcon
        push Not at hcon
        exact hS (Subtype.ext (label_ext (hone S).l (hone S').l ((lams_sum h S.2).trans (lams_sum h S'.2).symm)
          fun i hi => (hcon i hi).symm))
      obtain ⟨i, hi, hz⟩ := this
      rw [Ladder.intertwiner_zero (sys_of_one (hone S')) (sys_of_one (hone S)) (top_of_one (hone S')) (top_of_one (hone S))
        hPU hMU hi (Jz_top_of_one (hone S') hi) (Jz_top_of_one (hone S) hi) hz]
      rfl
  have hfull : Ladder.side T * (Ladder.side T)ᴴ = 1 := by
    refine Ladder.complete (sysTwo h) (ZT_diag h) (A := AA n S₁ S₂)
      (ι := fun a => Fin (pats a.1.1).length) (T := T) (PA := fun a => Jp a.1.1)
      (zA := fun a i p => zOf n (wt n (xs n (pats a.1.1)[p])) i) hMl
      (fun a k p hne i hi => int_weight h (hone a.1) (hTi a) hne i hi) horth ?_
    intro u hu hk w hw
    obtain ⟨S, hS, hz⟩ := lams_of_killed h hu hk hw
    have h1 : u ∈ HW n S₁ S₂ S := ⟨hk, fun i hi => by rw [hw i hi, hz i hi]⟩
    have h2 : HW n S₁ S₂ S ≤ LinearMap.range (Ladder.side T).mulVecLin := by
      rw [← hspan ⟨S, hS⟩, Submodule.span_le]
      rintro _ ⟨α, rfl⟩
      refine ⟨Pi.single ⟨⟨⟨S, hS⟩, α⟩, topIdx (hone ⟨S, hS⟩).w⟩ 1, ?_⟩
      rw [← htop, mulVecLin_apply, mulVec_single_one, mulVec_single_one, ← hTU]
      rfl
    obtain ⟨y, hy⟩ := h2 h1
    exact ⟨y, hy.symm⟩
  have hcount := Ladder.count_eq horth hfull (F := fun x => F (fun k => WN n S₁ S₂ x k))
    (G := fun p => F (wv n (pats p.1.1.1)[p.2])) ?_
  · rw [hcount, Fintype.sum_sigma, Fintype.sum_sigma, ← sum_coe_sort (lams n S₁ S₂)]
    refine sum_congr rfl fun S _ => ?_
    change ∑ α : Fin (Module.finrank ℂ (HW n S₁ S₂ S.1)), ∑ p : Fin (pats S.1).length, F (wv n (pats S.1)[p]) = _
    rw [sum_pats' (hone S).w fun M => F (wv n M), sum_const, card_univ, Fintype.card_fin, nsmul_eq_mul]
  · rintro x ⟨⟨S, α⟩, p⟩ hne
    have h1 := int_weight h (hone S) (hTi ⟨S, α⟩) hne
    have h2 := eq_of_z (n := n) (fun i hi => h1 i (by omega)) (by
      rw [sum_WN h, sum_wt (hone S).l (hone S).w (hone S).p (idx_gt (hone S).w p), lams_sum h S.2])
    dsimp only
    congr 1
    funext k
    exact h2 k k.2

end LieNN.LR
