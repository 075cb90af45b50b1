import Verif.Proofs.SUNCGSearch
import Mathlib.Data.Complex.BigOperators
/-!
# The `while` loop of `clebsch_gordan_matrix`
-/
namespace LieNN.SUN

open Spec Finset Matrix

/-- A real vector as a complex one. -/
def cvec {ι : Type} (x : ι → ℝ) : ι → ℂ := fun a => (x a : ℂ)

theorem JR_nonneg (S : List ℤ) (l : ℕ) (a b : Fin (pats S).length) : 0 ≤ JR S l a b := by
  unfold JR ladderVal
  refine sum_nonneg fun k _ => ?_
  split_ifs
  · exact Real.sqrt_nonneg _
  · exact le_rfl

/-- The lowering operator on real vectors. -/
noncomputable def lowV (S : List ℤ) (l : ℕ) (x : Fin (pats S).length → ℝ) : Fin (pats S).length → ℝ :=
  fun a => ∑ b, JR S l b a * x b

theorem cvec_lowV (S : List ℤ) (l : ℕ) (x : Fin (pats S).length → ℝ) :
    cvec (lowV S l x) = (Jp S l)ᴴ *ᵥ cvec x := by
  funext a
  rw [mulVec, dotProduct, cvec, lowV, Jp_adj]
  push_cast
  rfl

theorem sq_of_isometry {ι : Type} [Fintype ι] [DecidableEq ι] {d₁ d₂ : ℕ} {T : Matrix (Fin d₁ × Fin d₂) ι ℂ}
    (hT : Tᴴ * T = 1) {A : Matrix (Fin d₁) (Fin d₂) ℝ} {x : ι → ℝ} (h : tvec A = T *ᵥ cvec x) :
    ∑ i, ∑ j, A i j ^ 2 = ∑ a, x a ^ 2 := by
  have e1 : star (tvec A) ⬝ᵥ tvec A = ((∑ i, ∑ j, A i j ^ 2 : ℝ) : ℂ) := by
    rw [dotProduct, Fintype.sum_prod_type]
    push_cast
    refine sum_congr rfl fun i _ => sum_congr rfl fun j _ => ?_
    simp only [Pi.star_apply, tvec, RCLike.star_def, Complex.conj_ofReal]
    ring
  have e2 : star (cvec x) ⬝ᵥ cvec x = ((∑ a, x a ^ 2 : ℝ) : ℂ) := by
    rw [dotProduct]
    push_cast
    refine sum_congr rfl fun i _ => ?_
    simp only [Pi.star_apply, cvec, RCLike.star_def, Complex.conj_ofReal]
    ring
  have e3 : star (tvec A) ⬝ᵥ tvec A = star (cvec x) ⬝ᵥ cvec x := by
    rw [h, Ladder.adj_dot, mulVec_mulVec, hT, one_mulVec]
  rw [e1, e2] at e3
  exact_mod_cast e3

/-- The state of the loop: the columns are the images of the vectors `F k` of the third representation. -/
structure Inv {S₁ S₂ S₃ : List ℤ} (hS₃ : IsWeight S₃)
    (T : Matrix (Fin (pats S₁).length × Fin (pats S₂).length) (Fin (pats S₃).length) ℂ)
    (C : Fin (pats S₁).length → Fin (pats S₂).length → Fin (pats S₃).length → ℝ) (ML : List Pat)
    (F : Fin (pats S₃).length → Fin (pats S₃).length → ℝ) : Prop where
  nodup : ML.Nodup
  gt : ∀ M ∈ ML, IsGT S₃ M
  top : topPat S₃ ∈ ML
  col : ∀ k, tvec (Matrix.of fun i j => C i j k) = T *ᵥ cvec (F k)
  nonneg : ∀ k a, 0 ≤ F k a
  diag : ∀ k, (pats S₃)[k] ∈ ML → 0 < F k k
  unit : ∀ k, (pats S₃)[k] ∈ ML → ∑ a, F k a ^ 2 = 1
  first : F (topIdx hS₃) = Pi.single (topIdx hS₃) 1
  step : ∀ k, (pats S₃)[k] ∈ ML → k ≠ topIdx hS₃ → ∃ l c t, l + 1 < S₃.length ∧ JR S₃ l c k ≠ 0 ∧
    (pats S₃)[c] ∈ ML ∧ 0 < t ∧ F k = fun a => t * lowV S₃ l (F c) a

section
variable {S₁ S₂ S₃ : List ℤ}
  {T : Matrix (Fin (pats S₁).length × Fin (pats S₂).length) (Fin (pats S₃).length) ℂ}

theorem Inv.init (hS₃ : IsWeight S₃) {v : Matrix (Fin (pats S₁).length) (Fin (pats S₂).length) ℝ}
    (htop : T *ᵥ Pi.single (topIdx hS₃) 1 = tvec v) :
    Inv hS₃ T (initC v) [topPat S₃] fun k => if k = topIdx hS₃ then Pi.single (topIdx hS₃) 1 else 0 where
  nodup := List.nodup_singleton _
  gt M hM := by
    rw [List.mem_singleton] at hM
    rw [hM]
    exact topPat_isGT hS₃
  top := by simp
  col k := by
    have hlast := (pats_last hS₃).2
    by_cases hk : k = topIdx hS₃
    · subst hk
      rw [if_pos rfl]
      have : cvec (Pi.single (topIdx hS₃) 1) = Pi.single (topIdx hS₃) 1 := by
        funext a
        by_cases h : a = topIdx hS₃
        · subst h; simp [cvec]
        · simp [cvec, Pi.single_eq_of_ne h]
      rw [this, htop]
      funext x
      simp only [tvec, initC, Matrix.of_apply, hlast, if_true]
    · rw [if_neg hk]
      have h1 : cvec (0 : Fin (pats S₃).length → ℝ) = 0 := by
        funext a; simp [cvec]
      have h2 : ¬ ((k : ℕ) + 1 = (pats S₃).length) := by
        intro e
        exact hk (Fin.ext (by omega))
      rw [h1, mulVec_zero]
      funext x
      simp only [tvec, initC, Matrix.of_apply, h2, if_false]
      simp
  nonneg k a := by
    split_ifs
    · by_cases h : a = topIdx hS₃
      · subst h; simp
      · simp [Pi.single_eq_of_ne h]
    · simp
  diag k hk := by
    rw [List.mem_singleton] at hk
    have e : k = topIdx hS₃ := idx_inj hS₃ (hk.trans (topIdx_spec hS₃).symm)
    subst e
    simp
  unit k hk := by
    rw [List.mem_singleton] at hk
    have e : k = topIdx hS₃ := idx_inj hS₃ (hk.trans (topIdx_spec hS₃).symm)
    subst e
    simp [Pi.single_apply]
  first := if_pos rfl
  step k hk hne := by
    rw [List.mem_singleton] at hk
    exact absurd (idx_inj hS₃ (hk.trans (topIdx_spec hS₃).symm)) hne

/-- What is known of the intertwiner. -/
structure CGood (S₁ S₂ S₃ : List ℤ)
    (T : Matrix (Fin (pats S₁).length × Fin (pats S₂).length) (Fin (pats S₃).length) ℂ) : Prop where
  w₁ : IsWeight S₁
  w₂ : IsWeight S₂
  w₃ : IsWeight S₃
  p₁ : ∀ s ∈ S₁, 0 ≤ s
  p₂ : ∀ s ∈ S₂, 0 ≤ s
  p₃ : ∀ s ∈ S₃, 0 ≤ s
  l₁ : S₁.length = S₃.length
  l₂ : S₂.length = S₃.length
  iso : Tᴴ * T = 1
  up : ∀ l, l < S₃.length - 1 → T * Jp S₃ l = Ladder.tens (Jp S₁ l) (Jp S₂ l) * T
  dn : ∀ l, l < S₃.length - 1 → T * (Jp S₃ l)ᴴ = (Ladder.tens (Jp S₁ l) (Jp S₂ l))ᴴ * T

/-- The body of the `while` loop. -/
theorem Inv.body (g : CGood S₁ S₂ S₃ T) {C : Fin (pats S₁).length → Fin (pats S₂).length → Fin (pats S₃).length → ℝ}
    {ML : List Pat} {F : Fin (pats S₃).length → Fin (pats S₃).length → ℝ} (h : Inv g.w₃ T C ML F)
    (hlen : ML.length ≠ (pats S₃).length) :
    ∃ (Mc Mp : Pat) (l : ℕ) (mp : Fin (pats S₃).length) (CG : _) (F' : _), searchState ML = .ok (Mc, Mp, l) ∧ mToIndex Mp = .ok ((mp : ℕ) : ℤ) ∧
      constructLowerCG S₁ S₂ S₃ Mp Mc l C = .ok CG ∧
      Inv g.w₃ T (fun i j k => if k = mp then CG i j else C i j k) (ML ++ [Mp]) F' := by
  obtain ⟨Q, hQ, hQn⟩ : ∃ Q, Q ∈ pats S₃ ∧ Q ∉ ML := by
    by_contra hno
    push Not at hno
    have hnd : (pats S₃).Nodup := (pats_sorted S₃ g.w₃).imp fun h => ne_of_lt h
    have h1 := (hnd.subperm hno).length_le
    have h2 := (h.nodup.subperm fun M hM => (mem_pats S₃ g.w₃ M).2 (h.gt M hM)).length_le
    omega
  obtain ⟨Mc, Mp, l, hs, hMc, hMp, hMpn, hl, hne⟩ :=
    searchState_ok g.w₃ g.p₃ h.gt h.top ((mem_pats S₃ g.w₃ Q).1 hQ) hQn
  obtain ⟨mc, rfl⟩ := exists_idx g.w₃ (h.gt Mc hMc)
  obtain ⟨mp, rfl⟩ := exists_idx g.w₃ hMp
  have hu : 0 < JR S₃ l mc mp := lt_of_le_of_ne (JR_nonneg _ _ _ _) (Ne.symm hne)
  have hpt : mp ≠ topIdx g.w₃ := by
    intro e
    rw [e, topIdx_spec] at hMpn
    exact hMpn h.top
  -- the new column
  let x : Fin (pats S₃).length → ℝ := fun a => JR S₃ l mc mp * lowV S₃ l (F mc) a
  let CG₀ := JR S₃ l mc mp • lowSum S₁ S₂ l (Matrix.of fun i j => C i j mc)
  have hcol : tvec CG₀ = T *ᵥ cvec x := by
    have e1 : tvec CG₀ = (JR S₃ l mc mp : ℂ) • tvec (lowSum S₁ S₂ l (Matrix.of fun i j => C i j mc)) := by
      funext y
      simp [CG₀, tvec]
    have e2 : cvec x = (JR S₃ l mc mp : ℂ) • cvec (lowV S₃ l (F mc)) := by
      funext y
      simp [x, cvec]
    rw [e1, e2, mulVec_smul, tvec_lowSum, h.col, cvec_lowV, mulVec_mulVec, mulVec_mulVec, g.dn l (by omega)]
  have hsq := sq_of_isometry g.iso hcol
  have hlow : ∀ a, 0 ≤ lowV S₃ l (F mc) a := fun a =>
    sum_nonneg fun b _ => mul_nonneg (JR_nonneg _ _ _ _) (h.nonneg _ _)
  have hlowp : 0 < lowV S₃ l (F mc) mp := by
    refine lt_of_lt_of_le (mul_pos hu (h.diag mc hMc)) ?_
    exact single_le_sum (f := fun b => JR S₃ l b mp * F mc b)
      (fun b _ => mul_nonneg (JR_nonneg _ _ _ _) (h.nonneg _ _)) (mem_univ mc)
  have hx0 : ∀ a, 0 ≤ x a := fun a => mul_nonneg hu.le (hlow a)
  have hxp : 0 < x mp := mul_pos hu hlowp
  have hpos : 0 < ∑ a, x a ^ 2 :=
    lt_of_lt_of_le (pow_pos hxp 2) (single_le_sum (f := fun a => x a ^ 2) (fun a _ => sq_nonneg _) (mem_univ mp))
  have hfrob : frob CG₀ = Real.sqrt (∑ a, x a ^ 2) := by
    unfold frob
    rw [hsq]
  have hfp : 0 < frob CG₀ := by
    rw [hfrob]
    exact Real.sqrt_pos.2 hpos
  have hfs : frob CG₀ ^ 2 = ∑ a, x a ^ 2 := by
    rw [hfrob, Real.sq_sqrt hpos.le]
  refine ⟨_, _, l, mp, (frob CG₀)⁻¹ • CG₀, fun k => if k = mp then fun a => (frob CG₀)⁻¹ * x a else F k, hs,
    mToIndex_idx g.w₃ mp, ?_, ?_⟩
  · rw [constructLowerCG_eq g.w₁ g.w₂ g.w₃ g.p₁ g.p₂ g.p₃ (by rw [g.l₁]; exact hl) (by rw [g.l₂]; exact hl) hl]
    exact if_neg hfp.ne'
  have hmem : ∀ k : Fin (pats S₃).length, (pats S₃)[k] ∈ ML ++ [(pats S₃)[mp]] → k = mp ∨ k ≠ mp ∧ (pats S₃)[k] ∈ ML := by
    intro k hk
    by_cases e : k = mp
    · exact .inl e
    · refine .inr ⟨e, ?_⟩
      rcases List.mem_append.1 hk with hk | hk
      · exact hk
      · exact absurd (idx_inj g.w₃ (List.mem_singleton.1 hk)) e
  have hcp : mc ≠ mp := by
    intro e
    rw [e] at hMc
    exact hMpn hMc
  constructor
  · rw [List.nodup_append]
    refine ⟨h.nodup, List.nodup_singleton _, fun a ha b hb => ?_⟩
    rw [List.mem_singleton] at hb
    rintro rfl
    exact hMpn (hb ▸ ha)
  · intro M hM
    rcases List.mem_append.1 hM with hM | hM
    · exact h.gt M hM
    · rw [List.mem_singleton] at hM
      rw [hM]
      exact hMp
  · exact List.mem_append_left _ h.top
  · intro k
    by_cases e : k = mp
    · subst e
      simp only [if_true]
      have e1 : tvec (Matrix.of fun i j => ((frob CG₀)⁻¹ • CG₀) i j) = ((frob CG₀)⁻¹ : ℂ) • tvec CG₀ := by
        funext y
        simp [tvec]
      have e2 : cvec (fun a => (frob CG₀)⁻¹ * x a) = ((frob CG₀)⁻¹ : ℂ) • cvec x := by
        funext y
        simp [cvec]
      rw [e1, e2, mulVec_smul, hcol]
    · simp only [if_neg e]
      exact h.col k
  · intro k a
    split_ifs
    · exact mul_nonneg (inv_nonneg.2 hfp.le) (hx0 a)
    · exact h.nonneg k a
  · intro k hk
    rcases hmem k hk with rfl | ⟨e, hk⟩
    · rw [if_pos rfl]
      exact mul_pos (inv_pos.2 hfp) hxp
    · rw [if_neg e]
      exact h.diag k hk
  · intro k hk
    rcases hmem k hk with rfl | ⟨e, hk⟩
    · rw [if_pos rfl]
      simp only [mul_pow]
      rw [← mul_sum, ← hfs, ← mul_pow, inv_mul_cancel₀ hfp.ne', one_pow]
    · rw [if_neg e]
      exact h.unit k hk
  · rw [if_neg hpt.symm]
    exact h.first
  · intro k hk hkt
    rcases hmem k hk with rfl | ⟨e, hk⟩
    · refine ⟨l, mc, (frob CG₀)⁻¹ * JR S₃ l mc k, hl, hu.ne', List.mem_append_left _ hMc,
        mul_pos (inv_pos.2 hfp) hu, ?_⟩
      rw [if_pos rfl, if_neg hcp]
      funext a
      simp only [x]
      ring
    · obtain ⟨l', c, t, h1, h2, h3, h4, h5⟩ := h.step k hk hkt
      refine ⟨l', c, t, h1, h2, List.mem_append_left _ h3, h4, ?_⟩
      have ec : c ≠ mp := by
        intro e'
        rw [e'] at h3
        exact hMpn h3
      rw [if_neg e, if_neg ec]
      exact h5

/-- The `while` loop ends with all columns. -/
theorem cgWhile_ok (g : CGood S₁ S₂ S₃ T) :
    ∀ (fuel : ℕ) (C : Fin (pats S₁).length → Fin (pats S₂).length → Fin (pats S₃).length → ℝ) (ML : List Pat)
      (F : Fin (pats S₃).length → Fin (pats S₃).length → ℝ), Inv g.w₃ T C ML F →
      (pats S₃).length ≤ ML.length + fuel →
      ∃ C' ML' F', cgWhile S₁ S₂ S₃ fuel C ML = some (.ok (C', ML')) ∧ ML'.length = (pats S₃).length ∧
        Inv g.w₃ T C' ML' F' := by
  intro fuel
  induction fuel with
  | zero =>
    intro C ML F h hf
    have h2 := (h.nodup.subperm fun M hM => (mem_pats S₃ g.w₃ M).2 (h.gt M hM)).length_le
    have e : ML.length = (pats S₃).length := by omega
    refine ⟨C, ML, F, ?_, e, h⟩
    unfold cgWhile
    rw [if_neg (not_not.2 e)]
  | succ fuel ih =>
    intro C ML F h hf
    unfold cgWhile
    by_cases e : ML.length = (pats S₃).length
    · rw [if_neg (not_not.2 e)]
      exact ⟨C, ML, F, rfl, e, h⟩
    · rw [if_pos e]
      obtain ⟨Mc, Mp, l, mp, CG, F', h1, h2, h3, h4⟩ := h.body g e
      obtain ⟨C', ML', F'', h5, h6, h7⟩ := ih _ _ _ h4 (by rw [List.length_append, List.length_singleton]; omega)
      refine ⟨C', ML', F'', ?_, h6, h7⟩
      rw [h1]
      simp only [SU2.ok_bind', h2, arrIdx_ok, h3]
      exact h5

/-- With a full list of patterns nothing is done. -/
theorem cgWhile_full {d₁ d₂ d₃ : ℕ} (fuel : ℕ) (C : Fin d₁ → Fin d₂ → Fin d₃ → ℝ) {ML : List Pat} (h : ML.length = d₃) :
    cgWhile S₁ S₂ S₃ fuel C ML = some (.ok (C, ML)) := by
  cases fuel <;> unfold cgWhile <;> rw [if_neg (not_not.2 h)]

theorem cgLoop_full {d₁ d₂ d₃ : ℕ} (fuel : ℕ) {ML : List Pat} (h : ML.length = d₃) :
    ∀ Cs : List (Fin d₁ → Fin d₂ → Fin d₃ → ℝ), cgLoop S₁ S₂ S₃ fuel Cs ML = some (.ok Cs) := by
  intro Cs
  induction Cs with
  | nil => rfl
  | cons C Cs ih =>
    unfold cgLoop
    rw [cgWhile_full fuel C h]
    simp only [ih]

theorem Inv.all (g : CGood S₁ S₂ S₃ T) {C : Fin (pats S₁).length → Fin (pats S₂).length → Fin (pats S₃).length → ℝ}
    {ML : List Pat} {F : Fin (pats S₃).length → Fin (pats S₃).length → ℝ} (h : Inv g.w₃ T C ML F)
    (hlen : ML.length = (pats S₃).length) (k : Fin (pats S₃).length) : (pats S₃)[k] ∈ ML := by
  have hnd : (pats S₃).Nodup := (pats_sorted S₃ g.w₃).imp fun h => ne_of_lt h
  have h2 := h.nodup.subperm fun M hM => (mem_pats S₃ g.w₃ M).2 (h.gt M hM)
  exact (h2.perm_of_length_le hlen.ge).mem_iff.2 (List.getElem_mem _)

end

end LieNN.SUN
