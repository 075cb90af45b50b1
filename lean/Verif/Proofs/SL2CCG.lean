import Verif.Proofs.SL2C
/-!
# `SL2C`: equivariance, orthonormality and completeness of the Clebsch-Gordan coefficients
-/
namespace LieNN

open Finset Matrix

namespace SL2C

theorem cm_conj (j₁ j₂ j₃ : ℕ) : (SU2.cm j₁ j₂ j₃).map star = SU2.cm j₁ j₂ j₃ := by
  ext c ab
  exact Complex.conj_ofReal _

/-- The coefficients of `SU2` also intertwine the conjugate generators. -/
theorem cm_tg_conj {j₁ j₂ j₃ : ℕ} (h : j₃ ∈ SU2.mulL j₁ j₂) (x : Fin 3) :
    (SU2.gens j₃ x).map star * SU2.cm j₁ j₂ j₃ = SU2.cm j₁ j₂ j₃ * (SU2.tg j₁ j₂ x).map star := by
  have e := congrArg (fun M : Matrix _ _ ℂ => M.map (starRingEnd ℂ)) (SU2.cm_tg h x)
  simp only [Matrix.map_mul] at e
  have hc : (SU2.cm j₁ j₂ j₃).map (starRingEnd ℂ) = SU2.cm j₁ j₂ j₃ := cm_conj j₁ j₂ j₃
  rw [hc] at e
  exact e

/-- Action on the product of two pairs. -/
noncomputable def ZZ (r₁ r₂ : SL2C) (i : Fin 6) :=
  kroneckerMap (· * ·) (Z r₁.l r₁.k i) (1 : Matrix (Fin (r₂.l + 1) × Fin (r₂.k + 1)) _ ℂ) +
  kroneckerMap (· * ·) (1 : Matrix (Fin (r₁.l + 1) × Fin (r₁.k + 1)) _ ℂ) (Z r₂.l r₂.k i)

theorem mul_submatrix_id {α β γ δ : Type*} [Fintype β] (A : Matrix α β ℂ) (M : Matrix β γ ℂ) (e : δ → γ) :
    A * M.submatrix id e = (A * M).submatrix id e := rfl

theorem Zl_G {r₁ r₂ r₃ : SL2C} (h : r₃.l ∈ SU2.mulL r₁.l r₂.l) (a : Fin 3) :
    Zl r₃.l r₃.k a * G r₁ r₂ r₃ = G r₁ r₂ r₃ *
      (kroneckerMap (· * ·) (Zl r₁.l r₁.k a) 1 + kroneckerMap (· * ·) 1 (Zl r₂.l r₂.k a)) := by
  have hsub : kroneckerMap (· * ·) (Zl r₁.l r₁.k a) (1 : Matrix (Fin (r₂.l + 1) × Fin (r₂.k + 1)) _ ℂ) +
      kroneckerMap (· * ·) (1 : Matrix (Fin (r₁.l + 1) × Fin (r₁.k + 1)) _ ℂ) (Zl r₂.l r₂.k a) =
      (kroneckerMap (· * ·) (SU2.tg r₁.l r₂.l a)
        (1 : Matrix (Fin (r₁.k + 1) × Fin (r₂.k + 1)) _ ℂ)).submatrix
        (Equiv.prodProdProdComm _ _ _ _) (Equiv.prodProdProdComm _ _ _ _) := by
    ext ⟨⟨d, g⟩, e, h⟩ ⟨⟨d', g'⟩, e', h'⟩
    simp only [Zl, SU2.tg, Matrix.add_apply, kroneckerMap_apply, Matrix.submatrix_apply,
      Equiv.prodProdProdComm_apply, Matrix.one_apply, Prod.mk.injEq]
    by_cases h1 : g = g' <;> by_cases h2 : h = h' <;> by_cases h3 : e = e' <;> by_cases h4 : d = d' <;>
      simp [h1, h2, h3, h4]
  rw [hsub]
  unfold Zl G
  rw [Matrix.submatrix_mul_equiv, ← Matrix.mul_kronecker_mul, ← SU2.cm_tg h, Matrix.mul_one]
  rw [mul_submatrix_id, ← Matrix.mul_kronecker_mul, Matrix.one_mul]

theorem Zr_G {r₁ r₂ r₃ : SL2C} (h : r₃.k ∈ SU2.mulL r₁.k r₂.k) (a : Fin 3) :
    Zr r₃.l r₃.k a * G r₁ r₂ r₃ = G r₁ r₂ r₃ *
      (kroneckerMap (· * ·) (Zr r₁.l r₁.k a) 1 + kroneckerMap (· * ·) 1 (Zr r₂.l r₂.k a)) := by
  have hsub : kroneckerMap (· * ·) (Zr r₁.l r₁.k a) (1 : Matrix (Fin (r₂.l + 1) × Fin (r₂.k + 1)) _ ℂ) +
      kroneckerMap (· * ·) (1 : Matrix (Fin (r₁.l + 1) × Fin (r₁.k + 1)) _ ℂ) (Zr r₂.l r₂.k a) =
      (kroneckerMap (· * ·) (1 : Matrix (Fin (r₁.l + 1) × Fin (r₂.l + 1)) _ ℂ)
        ((SU2.tg r₁.k r₂.k a).map star)).submatrix
        (Equiv.prodProdProdComm _ _ _ _) (Equiv.prodProdProdComm _ _ _ _) := by
    ext ⟨⟨d, g⟩, e, h⟩ ⟨⟨d', g'⟩, e', h'⟩
    simp only [Zr, SU2.tg, Matrix.add_apply, kroneckerMap_apply, Matrix.submatrix_apply,
      Equiv.prodProdProdComm_apply, Matrix.one_apply, Prod.mk.injEq, Matrix.map_apply, star_add, star_mul']
    by_cases h1 : g = g' <;> by_cases h2 : h = h' <;> by_cases h3 : e = e' <;> by_cases h4 : d = d' <;>
      simp [h1, h2, h3, h4]
  rw [hsub]
  unfold Zr G
  rw [Matrix.submatrix_mul_equiv, ← Matrix.mul_kronecker_mul, ← cm_tg_conj h, Matrix.mul_one]
  rw [mul_submatrix_id, ← Matrix.mul_kronecker_mul, Matrix.one_mul]

theorem Z_G {r₁ r₂ r₃ : SL2C} (h : r₃ ∈ mulL r₁ r₂) (i : Fin 6) :
    Z r₃.l r₃.k i * G r₁ r₂ r₃ = G r₁ r₂ r₃ * ZZ r₁ r₂ i := by
  obtain ⟨hl, hk⟩ := mem_mulL.1 h
  unfold Z ZZ Z
  split_ifs with hi
  · rw [Matrix.add_mul, Zl_G hl, Zr_G hk, ← Matrix.mul_add, Matrix.add_kronecker, Matrix.kronecker_add]
    congr 1; abel
  · rw [Matrix.sub_mul, Zl_G hl, Zr_G hk, ← Matrix.mul_sub]
    congr 1
    ext x y
    simp only [Matrix.add_apply, Matrix.sub_apply, kroneckerMap_apply]
    ring

/-- The coefficients as a complex array. -/
noncomputable def ctC (r₁ r₂ r₃ : SL2C) : Fin r₁.dim → Fin r₂.dim → Fin r₃.dim → ℂ :=
  fun a b c => ((ctS r₁ r₂ r₃ a b c : ℝ) : ℂ)

theorem cgM_ctC (r₁ r₂ r₃ : SL2C) : cgM (ctC r₁ r₂ r₃) =
    (B r₃.l r₃.k)ᵀ * G r₁ r₂ r₃ * kroneckerMap (· * ·) (B r₁.l r₁.k) (B r₂.l r₂.k) := by
  ext z xy
  exact ctS_eq r₁ r₂ r₃ z xy

theorem isCG {r₁ r₂ r₃ : SL2C} (h : r₃ ∈ mulL r₁ r₂) :
    Spec.IsCG (rep r₁) (rep r₂) (rep r₃) (ctC r₁ r₂ r₃) := by
  refine (isCG_iff_cgM _ _ _ _).2 ⟨fun a => ?_, fun a => a.elim0⟩
  have hk : kroneckerMap (· * ·) (B r₁.l r₁.k) (B r₂.l r₂.k) * kronAdd ((rep r₁).X a) ((rep r₂).X a) =
      ZZ r₁ r₂ a * kroneckerMap (· * ·) (B r₁.l r₁.k) (B r₂.l r₂.k) := by
    unfold kronAdd ZZ
    rw [Matrix.mul_add, Matrix.add_mul, rep_X, rep_X, ← Matrix.mul_kronecker_mul, ← Matrix.mul_kronecker_mul,
      ← Matrix.mul_kronecker_mul, ← Matrix.mul_kronecker_mul, Matrix.mul_one, Matrix.mul_one, Matrix.one_mul,
      Matrix.one_mul]
    congr 2
    · rw [← Matrix.mul_assoc, ← Matrix.mul_assoc, B_mul, Matrix.one_mul]
    · rw [← Matrix.mul_assoc, ← Matrix.mul_assoc, B_mul, Matrix.one_mul]
  have h1 : (rep r₃).X a * cgM (ctC r₁ r₂ r₃) = (B r₃.l r₃.k)ᵀ * (Z r₃.l r₃.k a * G r₁ r₂ r₃) *
      kroneckerMap (· * ·) (B r₁.l r₁.k) (B r₂.l r₂.k) := by
    rw [cgM_ctC, rep_X]
    calc _ = (B r₃.l r₃.k)ᵀ * Z r₃.l r₃.k a * (B r₃.l r₃.k * (B r₃.l r₃.k)ᵀ) * G r₁ r₂ r₃ *
          kroneckerMap (· * ·) (B r₁.l r₁.k) (B r₂.l r₂.k) := by simp only [Matrix.mul_assoc]
      _ = _ := by rw [B_mul, Matrix.mul_one]; simp only [Matrix.mul_assoc]
  rw [h1, Z_G h, cgM_ctC, Matrix.mul_assoc _ _ (kronAdd _ _), hk]
  simp only [Matrix.mul_assoc]

theorem kronB (r₁ r₂ : SL2C) : kroneckerMap (· * ·) (B r₁.l r₁.k) (B r₂.l r₂.k) *
    (kroneckerMap (· * ·) (B r₁.l r₁.k) (B r₂.l r₂.k))ᵀ = 1 := by
  have e : (kroneckerMap (· * ·) (B r₁.l r₁.k) (B r₂.l r₂.k))ᵀ =
      kroneckerMap (· * ·) (B r₁.l r₁.k)ᵀ (B r₂.l r₂.k)ᵀ := rfl
  rw [e, ← Matrix.mul_kronecker_mul, B_mul, B_mul, Matrix.one_kronecker_one]

theorem kronB' (r₁ r₂ : SL2C) : (kroneckerMap (· * ·) (B r₁.l r₁.k) (B r₂.l r₂.k))ᵀ *
    kroneckerMap (· * ·) (B r₁.l r₁.k) (B r₂.l r₂.k) = 1 := by
  have e : (kroneckerMap (· * ·) (B r₁.l r₁.k) (B r₂.l r₂.k))ᵀ =
      kroneckerMap (· * ·) (B r₁.l r₁.k)ᵀ (B r₂.l r₂.k)ᵀ := rfl
  rw [e, ← Matrix.mul_kronecker_mul, B_mul', B_mul', Matrix.one_kronecker_one]

theorem cm_transpose (j₁ j₂ j₃ : ℕ) : (SU2.cm j₁ j₂ j₃)ᴴ = (SU2.cm j₁ j₂ j₃)ᵀ := by
  ext x y
  exact Complex.conj_ofReal _

theorem G_gram (r₁ r₂ r₃ r₄ : SL2C) : G r₁ r₂ r₃ * (G r₁ r₂ r₄)ᵀ =
    kroneckerMap (· * ·) (SU2.cm r₁.l r₂.l r₃.l * (SU2.cm r₁.l r₂.l r₄.l)ᴴ)
      (SU2.cm r₁.k r₂.k r₃.k * (SU2.cm r₁.k r₂.k r₄.k)ᴴ) := by
  unfold G
  rw [Matrix.transpose_submatrix, Matrix.submatrix_mul_equiv, Matrix.submatrix_id_id, Matrix.mul_kronecker_mul,
    cm_transpose, cm_transpose]
  rfl

theorem gram (r₁ r₂ r₃ r₄ : SL2C) : cgM (ctC r₁ r₂ r₃) * (cgM (ctC r₁ r₂ r₄))ᵀ =
    (B r₃.l r₃.k)ᵀ * (G r₁ r₂ r₃ * (G r₁ r₂ r₄)ᵀ) * B r₄.l r₄.k := by
  rw [cgM_ctC, cgM_ctC, Matrix.transpose_mul, Matrix.transpose_mul, Matrix.transpose_transpose]
  calc _ = (B r₃.l r₃.k)ᵀ * G r₁ r₂ r₃ * (kroneckerMap (· * ·) (B r₁.l r₁.k) (B r₂.l r₂.k) *
      (kroneckerMap (· * ·) (B r₁.l r₁.k) (B r₂.l r₂.k))ᵀ) * ((G r₁ r₂ r₄)ᵀ * B r₄.l r₄.k) := by
        simp only [Matrix.mul_assoc]
    _ = _ := by rw [kronB, Matrix.mul_one]; simp only [Matrix.mul_assoc]

theorem gram_diag {r₁ r₂ r₃ : SL2C} (h : r₃ ∈ mulL r₁ r₂) :
    cgM (ctC r₁ r₂ r₃) * (cgM (ctC r₁ r₂ r₃))ᵀ = 1 := by
  obtain ⟨hl, hk⟩ := mem_mulL.1 h
  rw [gram, G_gram, SU2.gram_diag hl, SU2.gram_diag hk, Matrix.one_kronecker_one, Matrix.mul_one, B_mul']

theorem gram_off {r₁ r₂ r₃ r₄ : SL2C} (h3 : r₃ ∈ mulL r₁ r₂) (h4 : r₄ ∈ mulL r₁ r₂) (hne : r₃ ≠ r₄) :
    cgM (ctC r₁ r₂ r₃) * (cgM (ctC r₁ r₂ r₄))ᵀ = 0 := by
  obtain ⟨hl, hk⟩ := mem_mulL.1 h3
  obtain ⟨hl', hk'⟩ := mem_mulL.1 h4
  rw [gram, G_gram]
  by_cases e : r₃.l = r₄.l
  · have e2 : r₃.k ≠ r₄.k := fun e2 => hne (by cases r₃; cases r₄; simp_all)
    rw [SU2.gram_off hk hk' e2, Matrix.kronecker_zero, Matrix.mul_zero, Matrix.zero_mul]
  · rw [SU2.gram_off hl hl' e, Matrix.zero_kronecker, Matrix.mul_zero, Matrix.zero_mul]

/-- Orthonormality, entrywise. -/
theorem ctS_orth {r₁ r₂ r₃ r₄ : SL2C} (h3 : r₃ ∈ mulL r₁ r₂) (h4 : r₄ ∈ mulL r₁ r₂)
    (c : Fin r₃.dim) (d : Fin r₄.dim) :
    ∑ a, ∑ b, ctS r₁ r₂ r₃ a b c * ctS r₁ r₂ r₄ a b d = if r₃ = r₄ ∧ (c : ℕ) = d then 1 else 0 := by
  have key : ((∑ a, ∑ b, ctS r₁ r₂ r₃ a b c * ctS r₁ r₂ r₄ a b d : ℝ) : ℂ) =
      (cgM (ctC r₁ r₂ r₃) * (cgM (ctC r₁ r₂ r₄))ᵀ) c d := by
    rw [Matrix.mul_apply, Fintype.sum_prod_type, Complex.ofReal_sum]
    refine Finset.sum_congr rfl fun a _ => ?_
    rw [Complex.ofReal_sum]
    refine Finset.sum_congr rfl fun b _ => ?_
    rw [Complex.ofReal_mul]; rfl
  apply Complex.ofReal_injective
  rw [key]
  by_cases hj : r₃ = r₄
  · subst hj
    rw [gram_diag h3]
    by_cases hcd : c = d
    · subst hcd; rw [Matrix.one_apply_eq, if_pos ⟨rfl, rfl⟩, Complex.ofReal_one]
    · rw [Matrix.one_apply_ne hcd, if_neg (fun h => hcd (Fin.ext h.2)), Complex.ofReal_zero]
  · rw [gram_off h3 h4 hj, Matrix.zero_apply, if_neg (fun h => hj h.1), Complex.ofReal_zero]

theorem mulL_sum (r₁ r₂ : SL2C) : ((mulL r₁ r₂).map dim).sum = r₁.dim * r₂.dim := by
  unfold mulL dim
  rw [List.map_flatMap, List.flatMap_def, List.sum_flatten, List.map_map]
  simp only [Function.comp_def]
  have : ∀ l : ℕ, (((SU2.mulL r₁.k r₂.k).map fun k => (⟨l, k⟩ : SL2C)).map fun r => (r.l + 1) * (r.k + 1)).sum =
      (l + 1) * ((r₁.k + 1) * (r₂.k + 1)) := by
    intro l
    rw [List.map_map, ← SU2.mulL_sum, ← List.sum_map_mul_left]
    rfl
  simp only [this]
  rw [List.sum_map_mul_right, SU2.mulL_sum]
  ring

/-- A tensor annihilated by all coefficients is zero. -/
theorem complete {r₁ r₂ : SL2C} (t : Fin r₁.dim → Fin r₂.dim → ℂ)
    (ht : ∀ r₃ ∈ mulL r₁ r₂, ∀ m, ∑ x, ∑ y, ctC r₁ r₂ r₃ x y m * t x y = 0) : t = 0 := by
  set v : Fin r₁.dim × Fin r₂.dim → ℂ := fun ab => t ab.1 ab.2 with hv
  set K := kroneckerMap (· * ·) (B r₁.l r₁.k) (B r₂.l r₂.k) with hK
  set w := K *ᵥ v with hw
  have hG : ∀ r₃ ∈ mulL r₁ r₂, G r₁ r₂ r₃ *ᵥ w = 0 := by
    intro r₃ h3
    have hz : cgM (ctC r₁ r₂ r₃) *ᵥ v = 0 := by
      funext m
      simp only [Matrix.mulVec, dotProduct]
      rw [Fintype.sum_prod_type]
      exact ht r₃ h3 m
    have h2 := congrArg (fun u => B r₃.l r₃.k *ᵥ u) hz
    simp only [Matrix.mulVec_mulVec, Matrix.mulVec_zero] at h2
    rw [cgM_ctC, Matrix.mul_assoc, ← Matrix.mul_assoc, B_mul, Matrix.one_mul, ← Matrix.mulVec_mulVec] at h2
    exact h2
  set E := Equiv.prodProdProdComm (Fin (r₁.l + 1)) (Fin (r₁.k + 1)) (Fin (r₂.l + 1)) (Fin (r₂.k + 1)) with hE
  set M := kroneckerMap (· * ·) (SU2.bigM r₁.l r₂.l) (SU2.bigM r₁.k r₂.k) with hM
  have hM1 : Mᴴ * M = 1 := by
    have e : Mᴴ = kroneckerMap (· * ·) (SU2.bigM r₁.l r₂.l)ᴴ (SU2.bigM r₁.k r₂.k)ᴴ :=
      Matrix.conjTranspose_kronecker _ _
    rw [e, hM, ← Matrix.mul_kronecker_mul, SU2.bigM_mul', SU2.bigM_mul', Matrix.one_kronecker_one]
  have hMw : M *ᵥ (w ∘ E.symm) = 0 := by
    funext ⟨⟨u, c⟩, ⟨u', c'⟩⟩
    have h3 : (⟨_, _⟩ : SL2C) ∈ mulL r₁ r₂ :=
      mem_mulL.2 ⟨SU2.mem_mulL_of_lt u.2, SU2.mem_mulL_of_lt u'.2⟩
    have := congrFun (hG _ h3) (c, c')
    rw [Pi.zero_apply] at this ⊢
    rw [← this]
    simp only [Matrix.mulVec, dotProduct]
    refine (Equiv.sum_comp E _).symm.trans (Finset.sum_congr rfl fun p _ => ?_)
    rw [Function.comp, Equiv.symm_apply_apply]
    rfl
  have h4 := congrArg (fun u => Mᴴ *ᵥ u) hMw
  simp only [Matrix.mulVec_mulVec, hM1, Matrix.one_mulVec, Matrix.mulVec_zero] at h4
  have hw0 : w = 0 := by
    funext p
    have := congrFun h4 (E p)
    simpa using this
  have h5 := congrArg (fun u => Kᵀ *ᵥ u) hw0
  simp only [hw, Matrix.mulVec_mulVec, hK, kronB', Matrix.one_mulVec, Matrix.mulVec_zero] at h5
  funext a b
  exact congrFun h5 (a, b)

theorem table_prod (i j : SL2C) : table.prod i j = mulL i j := by
  change (match mul i j with | .ok l => l | .error _ => []) = _
  rw [mul_eq]

theorem table_cg {i j k : SL2C} (h : k ∈ mulL i j) : table.cg i j k = [ctC i j k] := by
  have e : table.cg i j k = match cg i j k with
    | .ok L => L.map fun C a b c => ((C a b c : ℝ) : ℂ)
    | .error _ => [] := rfl
  rw [e, cg_eq h]; rfl

theorem table_equivariant : Spec.Equivariant table := by
  intro i j k hk C hC
  have hk' : k ∈ mulL i j := (table_prod i j) ▸ hk
  rw [table_cg hk'] at hC
  rw [List.mem_singleton.1 hC]
  exact isCG hk'

theorem table_complete (i j : SL2C) : Spec.CGComplete (T := table) i j := by
  constructor
  · rw [table_prod]
    refine Eq.trans ?_ (mulL_sum i j)
    congr 1
    refine List.map_congr_left fun k hk => ?_
    rw [table_cg hk]
    exact one_mul _
  · intro t ht
    refine complete (r₁ := i) (r₂ := j) t fun k hk m => ?_
    exact ht k (by rw [table_prod]; exact hk) _ (by rw [table_cg hk]; exact List.mem_singleton_self _) m

theorem table_good (i j : SL2C) : Spec.GoodPair (T := table) i j where
  algebra := fun _ _ _ => by
    change ‖algebra _ _ _ - algebra _ _ _‖ ≤ _
    rw [sub_self, norm_zero]; positivity
  nonempty := by
    have h : mulL i j ≠ [] := by
      have : (⟨max i.l j.l - min i.l j.l + 2 * 0, max i.k j.k - min i.k j.k + 2 * 0⟩ : SL2C) ∈ mulL i j :=
        mem_mulL.2 ⟨SU2.mem_mulL_of_lt (by omega), SU2.mem_mulL_of_lt (by omega)⟩
      exact List.ne_nil_of_mem this
    exact fun h' => h ((table_prod i j).symm.trans h')
  sols := fun k hk => by
    have hk' : k ∈ mulL i j := (table_prod i j) ▸ hk
    rw [table_cg hk']
    exact List.cons_ne_nil _ _
  complete := table_complete i j

end SL2C
end LieNN
