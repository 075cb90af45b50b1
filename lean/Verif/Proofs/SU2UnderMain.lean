import Verif.Proofs.SU2Under
import Verif.Proofs.RealNullR
import Verif.Props.Recompute
/-!
# `SU2_.clebsch_gordan` and `SU2.clebsch_gordan`
-/
namespace LieNN.SUN

open Spec Finset Matrix

/-! ## The highest column of the formula of `SU2` -/

theorem g_top_sq (p q r x : ℕ) (hx : x ≤ r) : SU2.g p q r (q + r - x) (p + x) (p + q) ^ 2 =
    (((p + x).choose p * (q + (r - x)).choose q : ℕ) : ℝ) / ((p + q + r + 1).choose r : ℕ) := by
  have hf : ∀ n : ℕ, (n.factorial : ℝ) ≠ 0 := fun n => by exact_mod_cast n.factorial_ne_zero
  have hK : (((p + q + r + 1).choose r : ℕ) : ℝ) = (p + q + r + 1).factorial / (r.factorial * (p + q + 1).factorial) := by
    rw [Nat.cast_choose ℝ (by omega), show p + q + r + 1 - r = p + q + 1 by omega]
  rw [hK, pow_two]
  unfold SU2.g
  rw [if_pos (by omega)]
  unfold SU2.U
  rw [show q + r - (q + r - x) = x by omega, show p + r - (p + x) = r - x by omega, add_comm p x,
    SU2.W_top, SU2.dF_eq (by omega), show q + r - x - (r - x) = q by omega]
  have n1 : SU2.nf (p + q) (p + q) * SU2.nf (p + q) (p + q) = (p + q).factorial := by
    unfold SU2.nf; rw [Real.mul_self_sqrt (by positivity)]; simp
  have n2 : SU2.nf (q + r) (q + r - x) * SU2.nf (q + r) (q + r - x)
      = (q + r - x).factorial * x.factorial := by
    unfold SU2.nf; rw [Real.mul_self_sqrt (by positivity), show q + r - (q + r - x) = x by omega]
  have n3 : SU2.nf (p + r) (x + p) * SU2.nf (p + r) (x + p) = (x + p).factorial * (r - x).factorial := by
    unfold SU2.nf
    rw [Real.mul_self_sqrt (by positivity), show p + r - (x + p) = r - x by omega]
  have k1 : SU2.kf p q r * SU2.kf p q r = ((p : ℝ) + q + 1) * ((q.factorial : ℝ) * p.factorial *
      r.factorial) / (p + q + r + 1).factorial / p.factorial / p.factorial := by
    unfold SU2.kf
    rw [div_mul_div_comm, Real.mul_self_sqrt (by positivity)]
    field_simp
  have s1 : ((-1 : ℝ) ^ (x + p) * (-1) ^ p) * ((-1 : ℝ) ^ (x + p) * (-1) ^ p) = 1 := by
    rw [← pow_add, ← pow_add, ← two_mul, pow_mul]; simp
  have c1 : (((x + p).choose p : ℕ) : ℝ) = (x + p).factorial / (p.factorial * x.factorial) := by
    rw [Nat.cast_choose ℝ (by omega), Nat.add_sub_cancel]
  have c2 : (((q + (r - x)).choose q : ℕ) : ℝ)
      = (q + r - x).factorial / (q.factorial * (r - x).factorial) := by
    rw [Nat.cast_choose ℝ (by omega), Nat.add_sub_cancel_left,
      show q + (r - x) = q + r - x by omega]
  have hn2 := (SU2.nf_pos (q + r) (q + r - x)).ne'
  have hn3 := (SU2.nf_pos (p + r) (x + p)).ne'
  calc _ = (SU2.kf p q r * SU2.kf p q r) * (SU2.nf (p + q) (p + q) * SU2.nf (p + q) (p + q)) /
        (SU2.nf (q + r) (q + r - x) * SU2.nf (q + r) (q + r - x)) /
        (SU2.nf (p + r) (x + p) * SU2.nf (p + r) (x + p)) *
        (((-1 : ℝ) ^ (x + p) * (-1) ^ p) * ((-1 : ℝ) ^ (x + p) * (-1) ^ p)) *
        ((x + p).factorial * ((q + r - x).factorial / q.factorial)) ^ 2 := by
          field_simp
    _ = _ := by
      rw [n1, n2, n3, k1, s1, Nat.factorial_succ (p + q)]
      push_cast
      rw [c1, c2]
      have := hf (q + r - x)
      have := hf (x + p)
      have := hf (r - x)
      have := hf x
      have := hf p
      have := hf q
      have := hf r
      have := hf (p + q)
      have := hf (p + q + r + 1)
      field_simp

theorem g_top_pos (p q r : ℕ) : 0 < SU2.g p q r (q + r) p (p + q) := by
  unfold SU2.g
  rw [if_pos (by omega)]
  have hk : 0 < SU2.kf p q r := by
    unfold SU2.kf
    positivity
  have hU : 0 < SU2.U p q r (q + r) p := by
    unfold SU2.U
    have e := SU2.W_top p 0 (q + r) (p + r - p)
    rw [zero_add] at e
    rw [Nat.sub_self, e, ← mul_assoc, ← pow_add, ← two_mul, pow_mul, neg_one_sq, one_pow, one_mul,
      SU2.dF_eq (by omega)]
    positivity
  have := SU2.nf_pos (p + q) (p + q)
  have := SU2.nf_pos (q + r) (q + r)
  have := SU2.nf_pos (p + r) p
  positivity

/-- The square of an entry of the highest column: a fraction with a known denominator. -/
theorem g_top_frac (p q r a b : ℕ) (ha : a ≤ q + r) (hb : b ≤ p + r) : ∃ m : ℕ, m ≤ (p + q + r + 1).choose r ∧
    SU2.g p q r a b (p + q) ^ 2 = (m : ℝ) / ((p + q + r + 1).choose r : ℕ) := by
  by_cases h : p + q + r = a + b
  · obtain ⟨x, hx, rfl, rfl⟩ : ∃ x, x ≤ r ∧ a = q + r - x ∧ b = p + x := ⟨q + r - a, by omega, by omega, by omega⟩
    refine ⟨_, ?_, g_top_sq p q r x hx⟩
    have h1 := SU2.sum_choose p q r
    have h2 : (p + q + r + 1).choose (p + q + 1) = (p + q + r + 1).choose r := by
      rw [← Nat.choose_symm_of_eq_add (by omega : p + q + r + 1 = r + (p + q + 1))]
    rw [← h2, ← h1]
    exact single_le_sum (f := fun x => (p + x).choose p * (q + (r - x)).choose q) (fun _ _ => Nat.zero_le _)
      (mem_range.2 (by omega))
  · refine ⟨0, Nat.zero_le _, ?_⟩
    rw [show SU2.g p q r a b (p + q) = 0 from if_neg h]
    simp

/-! ## The equivariant arrays -/

/-- The equivariant arrays of three labels are the multiples of one array. -/
theorem isCG_iff {n₁ n₂ n₃ : ℕ} (hm : n₃ ∈ SU2.mulL n₁ n₂) (C : Fin (n₁ + 1) → Fin (n₂ + 1) → Fin (n₃ + 1) → ℂ) :
    IsCG (SU2.rep n₁) (SU2.rep n₂) (SU2.rep n₃) C ↔ ∃ c : ℂ, C = fun i j k => c * (SU2.ct n₁ n₂ n₃ i j k : ℂ) := by
  have h := ((Props.C78_space TBasis.su2_goodTable n₁ n₂ n₃).1 (by rw [SU2.table_prod]; exact hm)).1
  have e : ({C | C ∈ SU2.table.cg n₁ n₂ n₃} : Set (Fin (n₁ + 1) → Fin (n₂ + 1) → Fin (n₃ + 1) → ℂ)) =
      {fun a b c => ((SU2.ct n₁ n₂ n₃ a b c : ℝ) : ℂ)} := by
    rw [SU2.table_cg hm]
    ext y
    exact List.mem_singleton
  have h' : cgSpace (SU2.rep n₁) (SU2.rep n₂) (SU2.rep n₃) = Submodule.span ℂ
      ({fun a b c => ((SU2.ct n₁ n₂ n₃ a b c : ℝ) : ℂ)} : Set (Fin (n₁ + 1) → Fin (n₂ + 1) → Fin (n₃ + 1) → ℂ)) :=
    h.trans (congrArg (Submodule.span ℂ) e)
  have h2 : IsCG (SU2.rep n₁) (SU2.rep n₂) (SU2.rep n₃) C ↔ C ∈ Submodule.span ℂ
      ({fun a b c => ((SU2.ct n₁ n₂ n₃ a b c : ℝ) : ℂ)} : Set (Fin (n₁ + 1) → Fin (n₂ + 1) → Fin (n₃ + 1) → ℂ)) := by
    rw [← h']
    rfl
  rw [h2, Submodule.mem_span_singleton]
  exact ⟨fun ⟨c, hc⟩ => ⟨c, hc.symm⟩, fun ⟨c, hc⟩ => ⟨c, hc.symm⟩⟩

theorem isCG_none {n₁ n₂ n₃ : ℕ} (hm : n₃ ∉ SU2.mulL n₁ n₂) {C : Fin (n₁ + 1) → Fin (n₂ + 1) → Fin (n₃ + 1) → ℂ}
    (hC : IsCG (SU2.rep n₁) (SU2.rep n₂) (SU2.rep n₃) C) : C = 0 := by
  have h := (Props.C78_space TBasis.su2_goodTable n₁ n₂ n₃).2 (by rw [SU2.table_prod]; exact hm)
  have : C ∈ cgSpace (SU2.rep n₁) (SU2.rep n₂) (SU2.rep n₃) := hC
  have h' : cgSpace (SU2.rep n₁) (SU2.rep n₂) (SU2.rep n₃) = ⊥ := h
  rw [h'] at this
  exact (Submodule.mem_bot ℂ).1 this

/-- The other direction of `onPats`. -/
theorem exists_onPats {n₁ n₂ n₃ : ℕ}
    (T : Matrix (Fin (pats (lab n₁)).length × Fin (pats (lab n₂)).length) (Fin (pats (lab n₃)).length) ℂ) :
    ∃ C : Fin (n₁ + 1) → Fin (n₂ + 1) → Fin (n₃ + 1) → ℂ, T = cgMat (onPats C) := by
  refine ⟨fun i j k => star (T ((reidx n₁).symm i, (reidx n₂).symm j) ((reidx n₃).symm k)), ?_⟩
  ext x k
  simp [cgMat, onPats]

theorem labels (n₁ n₂ n₃ : ℕ) : Labels (lab n₁) (lab n₂) (lab n₃) :=
  ⟨lab_weight _, lab_weight _, lab_weight _, lab_nonneg _, lab_nonneg _, lab_nonneg _, rfl, rfl, by simp⟩

theorem topIdx_lab (n : ℕ) : ((topIdx (lab_weight n)) : ℕ) = n := by
  have := (pats_last (lab_weight n)).2
  have hl := length_lab n
  omega

/-- The highest column, in the order of the null space. -/
noncomputable def topV (n₁ n₂ n₃ : ℕ) : Fin ((pats (lab n₁)).length * (pats (lab n₂)).length) → ℝ :=
  fun k => SU2.gj n₁ n₂ n₃ (flipIdx k).1 (flipIdx k).2 n₃

theorem unflip_topV (n₁ n₂ n₃ : ℕ) (i j) : unflip (topV n₁ n₂ n₃) i j = SU2.gj n₁ n₂ n₃ i j n₃ := by
  simp only [unflip, Matrix.of_apply, topV, flipIdx_unflip]

theorem unflip_inj {d₁ d₂ : ℕ} {x y : Fin (d₁ * d₂) → ℝ} (h : ∀ i j, unflip x i j = unflip y i j) : x = y := by
  funext k
  have e : ∀ z : Fin (d₁ * d₂) → ℝ, z k = unflip z (flipIdx k).1 (flipIdx k).2 := by
    intro z
    simp only [unflip, Matrix.of_apply, flipIdx]
    congr 1
    have : finProdFinEquiv (k.rev.divNat, k.rev.modNat) = k.rev := finProdFinEquiv.apply_symm_apply k.rev
    rw [this, Fin.rev_rev]
  rw [e x, e y, h]

theorem kernel_lab {n₁ n₂ n₃ : ℕ} (hm : n₃ ∈ SU2.mulL n₁ n₂) (x) :
    nullMatrix (rowsVal (lab n₁) (lab n₂) (topPat (lab n₃))) *ᵥ x = 0 ↔ ∃ c : ℝ, x = c • topV n₁ n₂ n₃ := by
  rw [nullMatrix_kernel, kernel_int (labels n₁ n₂ n₃)]
  constructor
  · rintro ⟨T, hT, ht⟩
    obtain ⟨C, rfl⟩ := exists_onPats T
    obtain ⟨c, rfl⟩ := (isCG_iff hm C).1 ((isCG_onPats C).2 hT)
    refine ⟨c.re, unflip_inj fun i j => ?_⟩
    rw [mulVec_top] at ht
    have h1 := congrArg Complex.re (congrFun ht (i, j))
    simp only [cgMat, onPats, Matrix.of_apply, SU2.ct, tvec, reidx_val, topIdx_lab] at h1
    change unflip x i j = c.re * unflip (topV n₁ n₂ n₃) i j
    rw [unflip_topV]
    rw [Complex.ofReal_re] at h1
    rw [← h1]
    simp
  · rintro ⟨c, rfl⟩
    refine ⟨cgMat (onPats fun i j k => (c : ℂ) * (SU2.ct n₁ n₂ n₃ i j k : ℂ)), (isCG_onPats _).1
      ((isCG_iff hm _).2 ⟨c, rfl⟩), ?_⟩
    rw [mulVec_top]
    funext y
    simp only [cgMat, onPats, Matrix.of_apply, SU2.ct, tvec, reidx_val, topIdx_lab]
    have : unflip (c • topV n₁ n₂ n₃) y.1 y.2 = c * unflip (topV n₁ n₂ n₃) y.1 y.2 := rfl
    rw [this, unflip_topV]
    simp

theorem kernel_none {n₁ n₂ n₃ : ℕ} (hm : n₃ ∉ SU2.mulL n₁ n₂) (x)
    (hx : nullMatrix (rowsVal (lab n₁) (lab n₂) (topPat (lab n₃))) *ᵥ x = 0) : x = 0 := by
  rw [nullMatrix_kernel, kernel_int (labels n₁ n₂ n₃)] at hx
  obtain ⟨T, hT, ht⟩ := hx
  obtain ⟨C, rfl⟩ := exists_onPats T
  obtain rfl := isCG_none hm ((isCG_onPats C).2 hT)
  refine unflip_inj fun i j => ?_
  rw [mulVec_top] at ht
  have h1 := congrArg Complex.re (congrFun ht (i, j))
  simp only [cgMat, onPats, Matrix.of_apply, tvec] at h1
  rw [Complex.ofReal_re] at h1
  rw [← h1]
  simp [unflip]

theorem topV_unit {n₁ n₂ n₃ : ℕ} (hm : n₃ ∈ SU2.mulL n₁ n₂) : topV n₁ n₂ n₃ ⬝ᵥ topV n₁ n₂ n₃ = 1 := by
  have h := SU2.ct_orth hm hm (Fin.last n₃) (Fin.last n₃)
  rw [if_pos ⟨rfl, rfl⟩] at h
  rw [← h, dotProduct, sum_flip]
  change ∑ i, ∑ j, unflip (topV n₁ n₂ n₃) i j * unflip (topV n₁ n₂ n₃) i j = _
  refine Fintype.sum_equiv (reidx n₁) _ _ fun i => Fintype.sum_equiv (reidx n₂) _ _ fun j => ?_
  rw [unflip_topV]
  rfl

/-! ## The matrix of which the eigenvectors are computed -/

theorem sum_ite_sq {n : ℕ} (a b : Fin (pats (lab n)).length) :
    ∑ s, JR (lab n) 0 s a * JR (lab n) 0 s b = if a = b then SU2.lad n a else 0 := by
  split_ifs with h
  · subst h
    by_cases ha : (a : ℕ) < n
    · have hs : (a : ℕ) + 1 < (pats (lab n)).length := by have := length_lab n; omega
      rw [sum_eq_single ⟨a + 1, hs⟩]
      · rw [JR_lab, if_pos rfl, Real.mul_self_sqrt (SU2.lad_nonneg ha.le)]
      · intro s _ hs'
        have : (s : ℕ) ≠ a + 1 := fun e => hs' (Fin.ext e)
        rw [JR_lab, if_neg this, mul_zero]
      · intro hb
        exact absurd (mem_univ _) hb
    · have ha2 := a.2
      have hl := length_lab n
      have han : (a : ℕ) = n := by omega
      rw [sum_eq_zero]
      · unfold SU2.lad
        rw [han, sub_self, zero_mul]
      · intro s _
        have hs2 := s.2
        rw [JR_lab, if_neg (by omega), mul_zero]
  · refine sum_eq_zero fun s _ => ?_
    rw [JR_lab, JR_lab]
    by_cases h1 : (s : ℕ) = a + 1
    · have : ¬ (s : ℕ) = b + 1 := fun h2 => h (Fin.ext (by omega))
      rw [if_neg this, mul_zero]
    · rw [if_neg h1, zero_mul]

theorem sum_four {ι κ : Type} [Fintype ι] [Fintype κ] [DecidableEq ι] [DecidableEq κ] (A : ι → ι → ℝ) (B : κ → κ → ℝ)
    (x m : ι × κ) : ∑ s : ι × κ, ((if s.2 = x.2 then A s.1 x.1 else 0) + if s.1 = x.1 then B s.2 x.2 else 0) *
      ((if s.2 = m.2 then A s.1 m.1 else 0) + if s.1 = m.1 then B s.2 m.2 else 0) =
    (if x.2 = m.2 then ∑ s, A s x.1 * A s m.1 else 0) + A m.1 x.1 * B x.2 m.2 + A x.1 m.1 * B m.2 x.2 +
      if x.1 = m.1 then ∑ s, B s x.2 * B s m.2 else 0 := by
  rw [Fintype.sum_prod_type]
  simp only [add_mul, mul_add, sum_add_distrib]
  have a1 : ∑ s₁ : ι, ∑ s₂ : κ, (if s₂ = x.2 then A s₁ x.1 else 0) * (if s₂ = m.2 then A s₁ m.1 else 0) =
      if x.2 = m.2 then ∑ s, A s x.1 * A s m.1 else 0 := by
    simp only [ite_mul, zero_mul, sum_ite_eq', mem_univ, if_true]
    split_ifs <;> simp
  have a2 : ∑ s₁ : ι, ∑ s₂ : κ, (if s₂ = x.2 then A s₁ x.1 else 0) * (if s₁ = m.1 then B s₂ m.2 else 0) =
      A m.1 x.1 * B x.2 m.2 := by
    rw [sum_eq_single m.1, sum_eq_single x.2] <;> simp +contextual
  have a3 : ∑ s₁ : ι, ∑ s₂ : κ, (if s₁ = x.1 then B s₂ x.2 else 0) * (if s₂ = m.2 then A s₁ m.1 else 0) =
      A x.1 m.1 * B m.2 x.2 := by
    rw [sum_eq_single x.1, sum_eq_single m.2] <;> simp +contextual [mul_comm]
  have a4 : ∑ s₁ : ι, ∑ s₂ : κ, (if s₁ = x.1 then B s₂ x.2 else 0) * (if s₁ = m.1 then B s₂ m.2 else 0) =
      if x.1 = m.1 then ∑ s, B s x.2 * B s m.2 else 0 := by
    rw [sum_comm]
    simp only [ite_mul, zero_mul, sum_ite_eq', mem_univ, if_true]
    split_ifs <;> simp
  rw [a1, a2, a3, a4]
  ring

/-- The entries of the product. -/
theorem gram_entry {S₁ S₂ : List ℤ} {E : Pat} (hE : E.length - 1 = 1)
    (x m : Fin (pats S₁).length × Fin (pats S₂).length) :
    ((nullMatrix (rowsVal S₁ S₂ E))ᵀ * nullMatrix (rowsVal S₁ S₂ E)) (finProdFinEquiv x).rev (finProdFinEquiv m).rev =
      (if x.2 = m.2 then ∑ s, JR S₁ 0 s x.1 * JR S₁ 0 s m.1 else 0) + JR S₁ 0 m.1 x.1 * JR S₂ 0 x.2 m.2 +
      JR S₁ 0 x.1 m.1 * JR S₂ 0 m.2 x.2 + (if x.1 = m.1 then ∑ s, JR S₂ 0 s x.2 * JR S₂ 0 s m.2 else 0) +
      (if wrongB S₁ S₂ E x then (if x = m then 1 else 0) else 0) := by
  have hC : (((nullMatrix (rowsVal S₁ S₂ E))ᵀ * nullMatrix (rowsVal S₁ S₂ E)).map ((↑) : ℝ → ℂ)) =
      (nullC S₁ S₂ E)ᴴ * nullC S₁ S₂ E := by
    have := rndGram (rnd := id) (nullMatrix (rowsVal S₁ S₂ E)) (fun _ _ => rfl)
    rw [Matrix.map_id] at this
    exact this
  have h1 := nullC_normal (S₁ := S₁) (S₂ := S₂) hE (Pi.single (finProdFinEquiv m).rev 1) x
  rw [← hC, mulVec_single_one] at h1
  have hs : (fun k => (Pi.single (finProdFinEquiv m).rev (1 : ℂ) : _ → ℂ) (finProdFinEquiv k).rev) = Pi.single m 1 := by
    funext k
    by_cases hk : k = m
    · subst hk; simp
    · rw [Pi.single_eq_of_ne hk, Pi.single_eq_of_ne]
      intro e
      exact hk (finProdFinEquiv.injective (Fin.rev_injective e))
  have hs2 : (Pi.single (finProdFinEquiv m).rev (1 : ℂ) : _ → ℂ) (finProdFinEquiv x).rev = if x = m then 1 else 0 := by
    rw [show (Pi.single (finProdFinEquiv m).rev (1 : ℂ) : _ → ℂ) (finProdFinEquiv x).rev = (Pi.single m (1 : ℂ) : _ → ℂ) x
      from congrFun hs x, Pi.single_apply]
  rw [hs2, hs, mulVec_single_one] at h1
  have hJ : ((JT S₁ S₂ 0)ᴴ * JT S₁ S₂ 0) x m =
      (((if x.2 = m.2 then ∑ s, JR S₁ 0 s x.1 * JR S₁ 0 s m.1 else 0) +
        JR S₁ 0 m.1 x.1 * JR S₂ 0 x.2 m.2 + JR S₁ 0 x.1 m.1 * JR S₂ 0 m.2 x.2 +
        (if x.1 = m.1 then ∑ s, JR S₂ 0 s x.2 * JR S₂ 0 s m.2 else 0) : ℝ) : ℂ) := by
    rw [← sum_four (fun a b => JR S₁ 0 a b) (fun a b => JR S₂ 0 a b) x m, Matrix.mul_apply, Complex.ofReal_sum]
    refine sum_congr rfl fun s _ => ?_
    rw [JT_conj, ← entryVal_JT, ← entryVal_JT, Complex.ofReal_mul]
    rfl
  rw [Matrix.col_apply, Matrix.col_apply, Matrix.map_apply, hJ] at h1
  apply Complex.ofReal_injective
  rw [h1, Complex.ofReal_add]
  congr 1
  split_ifs <;> simp

theorem lad_nat {n c : ℕ} (h : c ≤ n) : SU2.lad n c = (((n - c) * (c + 1) : ℕ) : ℝ) := by
  unfold SU2.lad
  push_cast [Nat.cast_sub h]
  ring

theorem lad_le {n c : ℕ} (h : c ≤ n) : 4 * ((n - c) * (c + 1)) ≤ (n + 1) ^ 2 := by
  obtain ⟨k, rfl⟩ : ∃ k, n = c + k := ⟨n - c, by omega⟩
  rw [Nat.add_sub_cancel_left]
  zify
  nlinarith [sq_nonneg ((k : ℤ) - (c + 1))]

attribute [local irreducible] pats in
/-- The entries of the product are square roots of small integers. -/
theorem gram_sq {n₁ n₂ n₃ : ℕ} (hb : (n₁ + 1) ^ 2 + (n₂ + 1) ^ 2 ≤ 32760)
    (i j : Fin ((pats (lab n₁)).length * (pats (lab n₂)).length)) :
    ∃ e : ℕ, e ≤ 8191 ^ 2 ∧ ((nullMatrix (rowsVal (lab n₁) (lab n₂) (topPat (lab n₃))))ᵀ *
      nullMatrix (rowsVal (lab n₁) (lab n₂) (topPat (lab n₃)))) i j ^ 2 = e := by
  obtain ⟨x, rfl⟩ : ∃ x, i = (finProdFinEquiv x).rev := ⟨finProdFinEquiv.symm i.rev, by rw [Equiv.apply_symm_apply, Fin.rev_rev]⟩
  obtain ⟨m, rfl⟩ : ∃ m, j = (finProdFinEquiv m).rev := ⟨finProdFinEquiv.symm j.rev, by rw [Equiv.apply_symm_apply, Fin.rev_rev]⟩
  have hl₁ := length_lab n₁
  have hl₂ := length_lab n₂
  have hx1 : (x.1 : ℕ) ≤ n₁ := by have := x.1.2; omega
  have hx2 : (x.2 : ℕ) ≤ n₂ := by have := x.2.2; omega
  have hm1 : (m.1 : ℕ) ≤ n₁ := by have := m.1.2; omega
  have hm2 : (m.2 : ℕ) ≤ n₂ := by have := m.2.2; omega
  rw [gram_entry (by rw [topPat_lab]; rfl), sum_ite_sq, sum_ite_sq, JR_lab, JR_lab, JR_lab, JR_lab]
  have bnd : ∀ c₁ c₂ : ℕ, c₁ ≤ n₁ → c₂ ≤ n₂ → (n₁ - c₁) * (c₁ + 1) + (n₂ - c₂) * (c₂ + 1) ≤ 8190 := by
    intro c₁ c₂ h1 h2
    have := lad_le h1
    have := lad_le h2
    omega
  by_cases hxm : x = m
  · subst hxm
    have ha : ¬ (x.1 : ℕ) = x.1 + 1 := by omega
    simp only [if_true, if_neg ha, zero_mul, add_zero]
    rw [lad_nat hx1, lad_nat hx2]
    have hb' := bnd _ _ hx1 hx2
    refine ⟨((n₁ - x.1) * (x.1 + 1) + (n₂ - x.2) * (x.2 + 1) +
      if wrongB (lab n₁) (lab n₂) (topPat (lab n₃)) x = true then 1 else 0) ^ 2, Nat.pow_le_pow_left ?_ 2, ?_⟩
    · split_ifs <;> omega
    · push_cast
      rfl
  · have hw : (if wrongB (lab n₁) (lab n₂) (topPat (lab n₃)) x = true then (if x = m then (1 : ℝ) else 0) else 0) = 0 := by
      rw [if_neg hxm, ite_self]
    have h3 : (if x.2 = m.2 then (if x.1 = m.1 then SU2.lad n₁ x.1 else 0) else 0) = 0 := by
      split_ifs with u v
      · exact absurd (Prod.ext v u) hxm
      · rfl
      · rfl
    have h4 : (if x.1 = m.1 then (if x.2 = m.2 then SU2.lad n₂ x.2 else 0) else 0) = 0 := by
      split_ifs with u v
      · exact absurd (Prod.ext u v) hxm
      · rfl
      · rfl
    rw [hw, h3, h4, zero_add, add_zero, add_zero]
    have key : ∀ c₁ c₂ : ℕ, c₁ ≤ n₁ → c₂ ≤ n₂ → ∃ e : ℕ, e ≤ 8191 ^ 2 ∧
        (√(SU2.lad n₁ c₁) * √(SU2.lad n₂ c₂)) ^ 2 = e := by
      intro c₁ c₂ h1 h2
      refine ⟨((n₁ - c₁) * (c₁ + 1)) * ((n₂ - c₂) * (c₂ + 1)), ?_, ?_⟩
      · have := bnd c₁ c₂ h1 h2
        exact (Nat.mul_le_mul (show _ ≤ 8190 by omega) (show _ ≤ 8190 by omega)).trans (by norm_num)
      · rw [mul_pow, Real.sq_sqrt (SU2.lad_nonneg h1), Real.sq_sqrt (SU2.lad_nonneg h2), lad_nat h1, lad_nat h2]
        push_cast
        rfl
    by_cases c1 : (m.1 : ℕ) = x.1 + 1
    · have c3 : ¬ (x.1 : ℕ) = m.1 + 1 := by omega
      rw [if_pos c1, if_neg c3, zero_mul, add_zero]
      by_cases c2 : (x.2 : ℕ) = m.2 + 1
      · rw [if_pos c2]
        exact key _ _ hx1 hm2
      · rw [if_neg c2, mul_zero]
        exact ⟨0, by norm_num, by norm_num⟩
    · rw [if_neg c1, zero_mul, zero_add]
      by_cases c3 : (x.1 : ℕ) = m.1 + 1
      · by_cases c2 : (m.2 : ℕ) = x.2 + 1
        · rw [if_pos c2, if_pos c3]
          exact key _ _ hm1 hx2
        · rw [if_neg c2, mul_zero]
          exact ⟨0, by norm_num, by norm_num⟩
      · rw [if_neg c3, zero_mul]
        exact ⟨0, by norm_num, by norm_num⟩

/-! ## The result -/

/-- The rounding does not change the square roots of the fractions that occur. -/
def Keeps (rnd : ℝ → ℝ) : Prop :=
  ∀ (x : ℝ) (p q : ℕ), 1 ≤ q → q ≤ 4096 ^ 2 → p * (4096 ^ 2 + 1) < 2 ^ 50 → x ^ 2 = (p : ℝ) / q → rnd x = x

variable {rnd : ℝ → ℝ} {eigh : EighFn}

theorem Keeps.int (h : Keeps rnd) {x : ℝ} {e : ℕ} (he : e ≤ 8191 ^ 2) (hx : x ^ 2 = e) : rnd x = x :=
  h x e 1 le_rfl (by norm_num) (by omega) (by rw [hx]; simp)

theorem Keeps.roundOK (h : Keeps rnd) {n : ℕ} (hn : (n + 1) ^ 2 ≤ 32760) : RoundOK rnd (lab n) := by
  refine ⟨h.int (e := 0) (by norm_num) (by norm_num), h.int (e := 1) (by norm_num) (by norm_num), fun l a b hl => ?_⟩
  obtain rfl : l = 0 := by simpa using hl
  have hb : (b : ℕ) ≤ n := by have := b.2; have := length_lab n; omega
  rw [JR_lab]
  split_ifs with hab
  · refine h.int (e := (n - b) * (b + 1)) ?_ ?_
    · have := lad_le hb
      omega
    · rw [Real.sq_sqrt (SU2.lad_nonneg hb), lad_nat hb]
  · exact h.int (e := 0) (by norm_num) (by norm_num)

theorem gap_lab (n₁ n₂ n₃ : ℕ) : Gap (1 / 10 ^ 4)
    ((nullMatrix (rowsVal (lab n₁) (lab n₂) (topPat (lab n₃)))).map ((↑) : ℝ → ℂ)) := by
  intro μ x hx hev hμ
  have := nullC_gap n₁ n₂ n₃ μ x hx hev hμ
  exact le_trans (by norm_num) this

attribute [local irreducible] pats in
theorem null_lab (he : EighSpec eigh) (hr : Keeps rnd) (p q r : ℕ)
    (hb : (q + r + 1) ^ 2 + (p + r + 1) ^ 2 ≤ 32760) (hK : (p + q + r + 1).choose r ≤ 4096) :
    nullRnd rnd eigh (1 / 10 ^ 4) _ _ (nullMatrix (rowsVal (lab (q + r)) (lab (p + r)) (topPat (lab (p + q))))) =
      [topV (q + r) (p + r) (p + q)] := by
  have hm : p + q ∈ SU2.mulL (q + r) (p + r) := SU2.mem_mulL.2 ⟨p, q, r, rfl, rfl, rfl⟩
  have hl₁ := length_lab (q + r)
  have hl₂ := length_lab (p + r)
  have hKpos : 1 ≤ (p + q + r + 1).choose r := Nat.choose_pos (by omega)
  have hK0 : (0 : ℝ) < ((p + q + r + 1).choose r : ℕ) := by exact_mod_cast hKpos
  have hfrac : ∀ k, ∃ m : ℕ, m ≤ (p + q + r + 1).choose r ∧
      topV (q + r) (p + r) (p + q) k ^ 2 = (m : ℝ) / ((p + q + r + 1).choose r : ℕ) := by
    intro k
    unfold topV
    rw [SU2.gj_eq]
    have h1 := (flipIdx k).1.2
    have h2 := (flipIdx k).2.2
    exact g_top_frac p q r _ _ (by omega) (by omega)
  have hK2 : (p + q + r + 1).choose r ≤ 4096 ^ 2 := by omega
  have ht1 : q + r < (pats (lab (q + r))).length := by omega
  have ht2 : p < (pats (lab (p + r))).length := by omega
  refine nullRnd_one he (by norm_num) _ (fun i j => ?_) (gap_lab _ _ _) (topV_unit hm) (kernel_lab hm) (fun i => ?_)
    (fun i j => ?_) (i₀ := (finProdFinEquiv (⟨q + r, ht1⟩, ⟨p, ht2⟩)).rev) ?_ ?_
  · obtain ⟨e, h1, h2⟩ := gram_sq (n₃ := p + q) hb i j
    exact hr.int h1 h2
  · obtain ⟨m, h1, h2⟩ := hfrac i
    exact hr _ m _ hKpos hK2 (by omega) h2
  · obtain ⟨m, h1, h2⟩ := hfrac i
    obtain ⟨m', h1', h2'⟩ := hfrac j
    refine hr _ (m * m') ((p + q + r + 1).choose r * (p + q + r + 1).choose r) (Nat.mul_pos hKpos hKpos) ?_ ?_ ?_
    · rw [pow_two]
      exact Nat.mul_le_mul hK hK
    · have : m * m' ≤ 4096 * 4096 := Nat.mul_le_mul (h1.trans hK) (h1'.trans hK)
      omega
    · rw [mul_pow, h2, h2']
      push_cast
      field_simp
  · intro k hk
    unfold topV
    rw [SU2.gj_eq]
    refine if_neg ?_
    have hk' : (finProdFinEquiv ((⟨q + r, ht1⟩, ⟨p, ht2⟩) : Fin _ × Fin _)) < k.rev := by
      rw [Fin.lt_rev_iff]
      exact hk
    rw [Fin.lt_def] at hk'
    have e : k.rev = finProdFinEquiv (flipIdx k) := (finProdFinEquiv.apply_symm_apply k.rev).symm
    rw [e] at hk'
    simp only [finProdFinEquiv_apply_val] at hk'
    have h1 := (flipIdx k).1.2
    have h2 := (flipIdx k).2.2
    intro hsum
    have h3 : ((flipIdx k).1 : ℕ) ≤ q + r := by omega
    have h4 : ((flipIdx k).2 : ℕ) ≤ p + r := by omega
    rcases h3.eq_or_lt with h5 | h5
    · rw [h5] at hk' hsum
      omega
    · have h6 : (pats (lab (p + r))).length * ((flipIdx k).1 + 1) ≤ (pats (lab (p + r))).length * (q + r) :=
        Nat.mul_le_mul_left _ h5
      rw [Nat.mul_add] at h6
      omega
  · unfold topV
    rw [flipIdx_unflip, SU2.gj_eq]
    have h1 := g_top_pos p q r
    have h2 := g_top_sq p q r 0 (Nat.zero_le _)
    simp only [Nat.sub_zero, Nat.add_zero, Nat.choose_self, one_mul] at h2
    have h3 : 1 ≤ (q + r).choose q := Nat.choose_pos (by omega)
    have h4 : (1 : ℝ) / 4096 ≤ SU2.g p q r (q + r) p (p + q) ^ 2 := by
      rw [h2, div_le_div_iff₀ (by norm_num) hK0]
      have h5 : (((p + q + r + 1).choose r : ℕ) : ℝ) ≤ 4096 := by exact_mod_cast hK
      have h6 : (1 : ℝ) ≤ ((q + r).choose q : ℕ) := by exact_mod_cast h3
      linarith
    change (1 : ℝ) / 10 ^ 4 < SU2.g p q r (q + r) p (p + q)
    by_contra hcon
    push Not at hcon
    have : SU2.g p q r (q + r) p (p + q) ^ 2 ≤ (1 / 10 ^ 4) ^ 2 := pow_le_pow_left₀ h1.le hcon 2
    norm_num at this h4
    linarith

attribute [local irreducible] pats in
theorem null_none (he : EighSpec eigh) (hr : Keeps rnd) {n₁ n₂ n₃ : ℕ}
    (hb : (n₁ + 1) ^ 2 + (n₂ + 1) ^ 2 ≤ 32760) (hm : n₃ ∉ SU2.mulL n₁ n₂) :
    nullRnd rnd eigh (1 / 10 ^ 4) _ _ (nullMatrix (rowsVal (lab n₁) (lab n₂) (topPat (lab n₃)))) = [] := by
  refine nullRnd_none he (by norm_num) _ (fun i j => ?_) (gap_lab _ _ _) (kernel_none hm) (hr.int (e := 0) (by norm_num) (by norm_num))
  obtain ⟨e, h1, h2⟩ := gram_sq (n₃ := n₃) hb i j
  exact hr.int h1 h2

/-- The rows are those without rounding. -/
theorem rows_lab (hr : Keeps rnd) {n₁ n₂ n₃ : ℕ} (hb : (n₁ + 1) ^ 2 + (n₂ + 1) ^ 2 ≤ 32760) :
    constraintRows rnd (lab n₁) (lab n₂) (topPat (lab n₃)) = .ok (rowsVal (lab n₁) (lab n₂) (topPat (lab n₃))) :=
  constraintRows_eq (lab_weight _) (lab_weight _) (lab_nonneg _) (lab_nonneg _) (hr.roundOK (by omega)) (hr.roundOK (by omega))
    (by rw [topPat_lab]; rfl) (by rw [topPat_lab]; rfl)

theorem cg_lab (he : EighSpec eigh) (hr : Keeps rnd) (p q r : ℕ)
    (hb : (q + r + 1) ^ 2 + (p + r + 1) ^ 2 ≤ 32760) (hK : (p + q + r + 1).choose r ≤ 4096) {fuel : ℕ} (hf : p + q ≤ fuel) :
    cgSU2 rnd eigh fuel _ _ _ (lab (q + r)) (lab (p + r)) (lab (p + q)) =
      some (.ok [onPats (SU2.ct (q + r) (p + r) (p + q))]) := by
  have hm : p + q ∈ SU2.mulL (q + r) (p + r) := SU2.mem_mulL.2 ⟨p, q, r, rfl, rfl, rfl⟩
  have hnull := null_lab he hr p q r hb hK
  obtain ⟨vs, hvs, hE, h⟩ := cg_ok' (labels (q + r) (p + r) (p + q)) (hr.roundOK (by omega)) (hr.roundOK (by omega))
    (null := nullRnd rnd eigh (1 / 10 ^ 4)) (by
      intro rows hrows
      rw [rows_lab hr hb] at hrows
      cases hrows
      rw [hnull]
      exact exactNull_one (topV_unit hm) (kernel_lab hm))
  rw [hnull, List.map_singleton] at hvs
  have hl := length_lab (p + q)
  rcases h fuel (by omega) with ⟨h0, -⟩ | ⟨v, rest, T, C, ML, F, h1, g, ht, hC, hlen, hI⟩
  · rw [h0] at hvs
    cases hvs
  · rw [hvs] at h1
    cases h1
    have hF := F_of_unique (labels _ _ _) g hI hlen (by
      intro l c k k' hl hk hk'
      obtain rfl : l = 0 := by simpa using hl
      rw [JR_lab] at hk hk'
      have a : (c : ℕ) = k + 1 := by by_contra hne; exact hk (if_neg hne)
      have b : (c : ℕ) = k' + 1 := by by_contra hne; exact hk' (if_neg hne)
      exact Fin.ext (by omega))
    have hint := (first_iff (labels _ _ _) g hI).2 hF
    obtain ⟨D, hD⟩ := exists_onPats (realMat C)
    rw [hD] at hint
    obtain ⟨c, rfl⟩ := (isCG_iff hm D).1 ((isCG_onPats D).2 hint)
    have hent : ∀ i j k, (C i j k : ℂ) = star (c * (SU2.ct (q + r) (p + r) (p + q) (reidx _ i) (reidx _ j) (reidx _ k) : ℂ)) :=
      fun i j k => congrFun₂ hD (i, j) k
    have htop : ∀ i j, C i j (topIdx (lab_weight (p + q))) = unflip (topV (q + r) (p + r) (p + q)) i j := by
      intro i j
      have a := congrFun (hI.col (topIdx (lab_weight (p + q)))) (i, j)
      rw [hI.first] at a
      have hcs : cvec (Pi.single (topIdx (lab_weight (p + q))) (1 : ℝ)) = Pi.single (topIdx (lab_weight (p + q))) 1 := by
        funext a
        by_cases e : a = topIdx (lab_weight (p + q))
        · subst e; simp [cvec]
        · simp [cvec, Pi.single_eq_of_ne e]
      rw [hcs, ht] at a
      simp only [tvec, Matrix.of_apply] at a
      exact_mod_cast a
    have ht1 : q + r < (pats (lab (q + r))).length := by have := length_lab (q + r); omega
    have ht2 : p < (pats (lab (p + r))).length := by have := length_lab (p + r); omega
    have hc1 := hent ⟨q + r, ht1⟩ ⟨p, ht2⟩ (topIdx (lab_weight (p + q)))
    rw [htop, unflip_topV] at hc1
    have e : SU2.ct (q + r) (p + r) (p + q) (reidx (q + r) ⟨q + r, ht1⟩) (reidx (p + r) ⟨p, ht2⟩)
        (reidx (p + q) (topIdx (lab_weight (p + q)))) = SU2.g p q r (q + r) p (p + q) := by
      unfold SU2.ct
      rw [reidx_val, reidx_val, reidx_val, topIdx_lab, SU2.gj_eq]
    rw [e, SU2.gj_eq] at hc1
    have hpos := g_top_pos p q r
    have hc : star c = 1 := by
      rw [star_mul', RCLike.star_def, Complex.conj_ofReal] at hc1
      have hne : ((SU2.g p q r (q + r) p (p + q) : ℝ) : ℂ) ≠ 0 := by exact_mod_cast hpos.ne'
      exact (mul_right_cancel₀ hne (by rw [one_mul]; exact hc1)).symm
    have hCC : C = onPats (SU2.ct (q + r) (p + r) (p + q)) := by
      funext i j k
      have a := hent i j k
      rw [star_mul', hc, one_mul, RCLike.star_def, Complex.conj_ofReal] at a
      exact_mod_cast a
    unfold cgSU2
    rw [hC, hCC]
    rfl

theorem cg_none (he : EighSpec eigh) (hr : Keeps rnd) {n₁ n₂ n₃ : ℕ}
    (hb : (n₁ + 1) ^ 2 + (n₂ + 1) ^ 2 ≤ 32760) (hm : n₃ ∉ SU2.mulL n₁ n₂) {fuel : ℕ} (hf : n₃ ≤ fuel) :
    cgSU2 rnd eigh fuel (pats (lab n₁)).length (pats (lab n₂)).length (pats (lab n₃)).length (lab n₁) (lab n₂) (lab n₃) =
      some (.ok []) := by
  have hnull := null_none he hr hb hm
  obtain ⟨vs, hvs, hE, h⟩ := cg_ok' (labels n₁ n₂ n₃) (hr.roundOK (by omega)) (hr.roundOK (by omega))
    (null := nullRnd rnd eigh (1 / 10 ^ 4)) (by
      intro rows hrows
      rw [rows_lab hr hb] at hrows
      cases hrows
      rw [hnull]
      exact exactNull_none (kernel_none hm))
  rw [hnull, List.map_nil] at hvs
  have hl := length_lab n₃
  rcases h fuel (by omega) with ⟨-, h0⟩ | ⟨v, rest, T, C, ML, F, h1, -⟩
  · exact h0
  · rw [hvs] at h1
    cases h1

end LieNN.SUN
