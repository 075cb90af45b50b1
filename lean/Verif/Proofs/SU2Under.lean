import Verif.Proofs.SUNCGMain
import Verif.Proofs.SU2Orth
import Verif.Proofs.RealNull
/-!
# `SU2_`: the labels with two entries
-/
namespace LieNN.SUN

open Spec Finset Matrix

/-- The label `(n, 0)`. -/
abbrev lab (n : ℕ) : List ℤ := [(n : ℤ), 0]

theorem lab_weight (n : ℕ) : IsWeight (lab n) := ⟨by simp, by simp [lab]⟩

theorem lab_nonneg (n : ℕ) : ∀ s ∈ lab n, 0 ≤ s := by simp [lab]

theorem pats_lab (n : ℕ) : pats (lab n) = (List.range (n + 1)).map fun k : ℕ => [[(n : ℤ), 0], [(k : ℤ)]] := by
  rw [pats_cons (lab_weight n) (by simp)]
  have e : nextsL (lab n) = (List.range (n + 1)).map fun k : ℕ => [(k : ℤ)] := by
    simp [nextsL, List.map_eq_flatMap, List.flatMap_assoc]
  rw [e, List.flatMap_map, List.map_eq_flatMap]
  refine List.flatMap_congr fun k _ => ?_
  rw [pats_single]
  rfl

theorem length_lab (n : ℕ) : (pats (lab n)).length = n + 1 := by
  rw [pats_lab]
  simp

theorem pats_get (n : ℕ) (a : Fin (pats (lab n)).length) : (pats (lab n))[a] = [[(n : ℤ), 0], [((a : ℕ) : ℤ)]] := by
  simp [pats_lab]

theorem JR_lab (n : ℕ) (a b : Fin (pats (lab n)).length) :
    JR (lab n) 0 a b = if (a : ℕ) = b + 1 then √(SU2.lad n b) else 0 := by
  unfold JR ladderVal
  rw [pats_get, pats_get]
  simp only [lab, List.length_cons, List.length_nil]
  norm_num [addAt, coefSq, numF, denF, ent]
  have e : ((b : ℕ) : ℤ) + 1 = ((a : ℕ) : ℤ) ↔ (a : ℕ) = b + 1 := by omega
  simp only [e]
  split_ifs with h
  · congr 1
    rw [prod_range_succ, prod_range_one]
    simp [SU2.lad]
    ring
  · rfl

theorem zw_lab (n k : ℤ) : mToZWeight [[n, 0], [k]] = [(k : ℚ) - n / 2] := by
  simp [mToZWeight, mToPWeight, mToSigma]
  ring

theorem topPat_lab (n : ℕ) : topPat (lab n) = [[(n : ℤ), 0], [(n : ℤ)]] := by
  simp [topPat, lab, List.range_succ]

theorem wrongB_lab (n₁ n₂ n₃ : ℕ) (m : Fin (pats (lab n₁)).length × Fin (pats (lab n₂)).length) :
    wrongB (lab n₁) (lab n₂) (topPat (lab n₃)) m = true ↔ 2 * ((m.1 : ℕ) + m.2) ≠ n₁ + n₂ + n₃ := by
  unfold wrongB
  rw [topPat_lab, pats_get, pats_get, zw_lab, zw_lab, zw_lab, decide_eq_true_iff]
  simp only [List.zipWith_cons_cons, List.zipWith_nil_right, ne_eq, List.cons.injEq, and_true]
  refine not_congr ?_
  push_cast
  constructor
  · intro h
    have : (2 * (((m.1 : ℕ) : ℚ) + (m.2 : ℕ))) = n₁ + n₂ + n₃ := by linarith
    exact_mod_cast this
  · intro h
    have : (2 * (((m.1 : ℕ) : ℚ) + (m.2 : ℕ))) = n₁ + n₂ + n₃ := by exact_mod_cast h
    linarith

/-- The equality of the numbers of indices. -/
def reidx (n : ℕ) : Fin (pats (lab n)).length ≃ Fin (n + 1) := finCongr (length_lab n)

theorem reidx_val (n : ℕ) (a : Fin (pats (lab n)).length) : (reidx n a : ℕ) = a := rfl

theorem Jp_raising (n : ℕ) : Jp (lab n) 0 = (-SU2.raising n).submatrix (reidx n) (reidx n) := by
  ext a b
  rw [Jp_JR, JR_lab, submatrix_apply, Matrix.neg_apply, SU2.raising_apply, reidx_val, reidx_val]
  split_ifs <;> simp

theorem Jp_lowering (n : ℕ) : (Jp (lab n) 0)ᴴ = (SU2.lowering n).submatrix (reidx n) (reidx n) := by
  ext a b
  rw [conjTranspose_apply, Jp_JR, JR_lab, submatrix_apply, SU2.lowering_apply, reidx_val, reidx_val]
  split_ifs <;> simp

theorem tens_submatrix {ι κ ι' κ' : Type} [Fintype ι] [DecidableEq ι] [Fintype κ] [DecidableEq κ] [Fintype ι']
    [DecidableEq ι'] [Fintype κ'] [DecidableEq κ'] (A : Matrix ι ι ℂ) (B : Matrix κ κ ℂ) (e : ι' ≃ ι) (f : κ' ≃ κ) :
    Ladder.tens (A.submatrix e e) (B.submatrix f f) = (Ladder.tens A B).submatrix (e.prodCongr f) (e.prodCongr f) := by
  ext x y
  simp [Ladder.tens_apply]

theorem tens_lin {ι κ : Type} [Fintype ι] [DecidableEq ι] [Fintype κ] [DecidableEq κ] (a b : ℂ) (A A' : Matrix ι ι ℂ)
    (B B' : Matrix κ κ ℂ) : Ladder.tens (a • A + b • A') (a • B + b • B') = a • Ladder.tens A B + b • Ladder.tens A' B' := by
  ext x y
  simp only [Ladder.tens_apply, Matrix.add_apply, Matrix.smul_apply, smul_eq_mul]
  split_ifs <;> ring

/-- The array on the indices of the patterns. -/
def onPats {n₁ n₂ n₃ : ℕ} {R : Type} (C : Fin (n₁ + 1) → Fin (n₂ + 1) → Fin (n₃ + 1) → R) :
    Fin (pats (lab n₁)).length → Fin (pats (lab n₂)).length → Fin (pats (lab n₃)).length → R :=
  fun i j k => C (reidx n₁ i) (reidx n₂ j) (reidx n₃ k)

theorem cgMat_onPats {n₁ n₂ n₃ : ℕ} (C : Fin (n₁ + 1) → Fin (n₂ + 1) → Fin (n₃ + 1) → ℂ) :
    cgMat (onPats C) = (cgMat C).submatrix ((reidx n₁).prodCongr (reidx n₂)) (reidx n₃) := by
  ext x k
  rfl

theorem submatrix_inj {ι κ ι' κ' : Type} (e : ι' ≃ ι) (f : κ' ≃ κ) {A B : Matrix ι κ ℂ} :
    A.submatrix e f = B.submatrix e f ↔ A = B := by
  constructor
  · intro h
    ext i j
    have := congrFun₂ h (e.symm i) (f.symm j)
    simpa using this
  · rintro rfl
    rfl

/-- The equivariance of an array in terms of the ladder operators of the patterns. -/
theorem isCG_onPats {n₁ n₂ n₃ : ℕ} (C : Fin (n₁ + 1) → Fin (n₂ + 1) → Fin (n₃ + 1) → ℂ) :
    IsCG (SU2.rep n₁) (SU2.rep n₂) (SU2.rep n₃) C ↔ LadderInt (lab n₁) (lab n₂) (lab n₃) (cgMat (onPats C)) := by
  have h1 : IsCG (SU2.rep n₁) (SU2.rep n₂) (SU2.rep n₃) C ↔
      ∀ a, cgMat C * SU2.gens n₃ a = Ladder.tens (SU2.gens n₁ a) (SU2.gens n₂ a) * cgMat C :=
    isCG_iff_intertwines SU2.algebra SU2.algebra SU2.algebra SU2.skew SU2.skew SU2.skew C
  have h2 : LadderInt (lab n₁) (lab n₂) (lab n₃) (cgMat (onPats C)) ↔
      cgMat C * SU2.raising n₃ = Ladder.tens (SU2.raising n₁) (SU2.raising n₂) * cgMat C ∧
      cgMat C * SU2.lowering n₃ = Ladder.tens (SU2.lowering n₁) (SU2.lowering n₂) * cgMat C := by
    have e0 : ∀ l, l < (lab n₃).length - 1 ↔ l = 0 := by
      intro l
      simp
    unfold LadderInt
    simp only [e0, forall_eq]
    have en : ∀ n, -SU2.raising n = (-1 : ℂ) • SU2.raising n := fun n => by rw [neg_one_smul]
    rw [JT, Ladder.tens_conj, Jp_lowering, Jp_lowering, Jp_lowering, Jp_raising, Jp_raising, Jp_raising,
      tens_submatrix, tens_submatrix, cgMat_onPats, submatrix_mul_equiv, submatrix_mul_equiv, submatrix_mul_equiv,
      submatrix_mul_equiv, submatrix_inj, submatrix_inj, en, en, en, Ladder.tens_smul, Matrix.mul_smul, Matrix.smul_mul,
      (smul_right_injective _ (by norm_num : (-1 : ℂ) ≠ 0)).eq_iff]
  rw [h1, h2]
  constructor
  · intro h
    have a0 := h 0
    have a2 := h 2
    rw [SU2.raising_of_gens, SU2.raising_of_gens, SU2.raising_of_gens, SU2.lowering_of_gens, SU2.lowering_of_gens,
      SU2.lowering_of_gens]
    have f1 := tens_lin 1 Complex.I (SU2.gens n₁ 0) (SU2.gens n₁ 2) (SU2.gens n₂ 0) (SU2.gens n₂ 2)
    have f2 := tens_lin 1 (-Complex.I) (SU2.gens n₁ 0) (SU2.gens n₁ 2) (SU2.gens n₂ 0) (SU2.gens n₂ 2)
    simp only [one_smul, neg_smul, ← sub_eq_add_neg] at f1 f2
    rw [f1, f2]
    constructor
    · rw [Matrix.mul_add, Matrix.add_mul, Matrix.mul_smul, Matrix.smul_mul, a0, a2]
    · rw [Matrix.mul_sub, Matrix.sub_mul, Matrix.mul_smul, Matrix.smul_mul, a0, a2]
  · rintro ⟨hr, hl⟩
    have a0 : cgMat C * SU2.gens n₃ 0 = Ladder.tens (SU2.gens n₁ 0) (SU2.gens n₂ 0) * cgMat C := by
      have f := tens_lin 0.5 0.5 (SU2.raising n₁) (SU2.lowering n₁) (SU2.raising n₂) (SU2.lowering n₂)
      simp only [SU2.gens_zero, smul_add]
      rw [f, Matrix.mul_add, Matrix.add_mul, Matrix.mul_smul, Matrix.mul_smul, Matrix.smul_mul, Matrix.smul_mul, hr, hl]
    have a2 : cgMat C * SU2.gens n₃ 2 = Ladder.tens (SU2.gens n₁ 2) (SU2.gens n₂ 2) * cgMat C := by
      have f := tens_lin (-0.5 * Complex.I) (-(-0.5 * Complex.I)) (SU2.raising n₁) (SU2.lowering n₁) (SU2.raising n₂)
        (SU2.lowering n₂)
      simp only [SU2.gens_two, smul_sub]
      simp only [neg_smul (-0.5 * Complex.I), ← sub_eq_add_neg] at f
      rw [f, Matrix.mul_sub, Matrix.sub_mul, Matrix.mul_smul, Matrix.mul_smul, Matrix.smul_mul, Matrix.smul_mul, hr, hl]
    intro a
    fin_cases a
    · exact a0
    · change cgMat C * SU2.gens n₃ 1 = Ladder.tens (SU2.gens n₁ 1) (SU2.gens n₂ 1) * cgMat C
      rw [← SU2.comm20 (j := n₁), ← SU2.comm20 (j := n₂), ← SU2.comm20 (j := n₃), ← Ladder.tens_comm, Matrix.mul_sub,
        Matrix.sub_mul, ← Matrix.mul_assoc, a2, Matrix.mul_assoc, a0, ← Matrix.mul_assoc (cgMat C), a0,
        Matrix.mul_assoc _ (cgMat C), a2]
      simp only [Matrix.mul_assoc]
    · exact a2

/-! ## The gap -/

/-- A vector of the given weight and the components of the other weights. -/
theorem gap_core {ι : Type} [Fintype ι] [DecidableEq ι] (J : Matrix ι ι ℂ) (w : ι → ℝ) {M : ℝ} (hM : 0 ≤ M)
    (hc : J * Jᴴ - Jᴴ * J = (2 : ℂ) • diagonal fun i => (w i : ℂ))
    (hw : diagonal (fun i => (w i : ℂ)) * J - J * diagonal (fun i => (w i : ℂ)) = J) {y : ι → ℂ} (hy0 : y ≠ 0) {μ : ℝ}
    (hμ : 0 < μ) (hy : ∀ i, ((Jᴴ * J) *ᵥ y) i + (if w i = M then 0 else y i) = μ * y i) : 1 ≤ μ := by
  set D : Matrix ι ι ℂ := diagonal fun i => (w i : ℂ) with hD
  have hDh : Dᴴ = D := by
    rw [hD, diagonal_conjTranspose]
    congr 1
    funext i
    simp
  have hw' : Jᴴ * D - D * Jᴴ = Jᴴ := by
    have := congrArg conjTranspose hw
    rw [conjTranspose_sub, conjTranspose_mul, conjTranspose_mul, hDh] at this
    exact this
  have hN : D * (Jᴴ * J) = Jᴴ * J * D := by
    have e1 : D * J = J + J * D := by rw [← sub_eq_iff_eq_add]; exact hw
    have e2 : D * Jᴴ = Jᴴ * D - Jᴴ := by
      have := sub_eq_iff_eq_add.1 hw'
      rw [this]
      abel
    rw [← Matrix.mul_assoc, e2, Matrix.sub_mul, Matrix.mul_assoc, e1, Matrix.mul_add, Matrix.mul_assoc]
    abel
  have hNab : ∀ a b, (Jᴴ * J) a b ≠ 0 → w a = w b := by
    intro a b h
    have := congrFun₂ hN a b
    rw [hD, diagonal_mul, mul_diagonal, mul_comm] at this
    exact_mod_cast mul_left_cancel₀ h this
  have pos : ∀ (u : ι → ℂ), u ≠ 0 → ∀ ν : ℝ, (Jᴴ * J) *ᵥ u = (ν : ℂ) • u → 0 ≤ ν := by
    intro u hu ν h
    have h1 : star (J *ᵥ u) ⬝ᵥ (J *ᵥ u) = (ν : ℂ) * (star u ⬝ᵥ u) := by
      rw [Ladder.adj_dot, mulVec_mulVec, h, star_smul, smul_dotProduct]
      simp
    have h2 : ∀ z : ι → ℂ, star z ⬝ᵥ z = ((∑ i, ‖z i‖ ^ 2 : ℝ) : ℂ) := by
      intro z
      rw [dotProduct]
      push_cast
      refine sum_congr rfl fun i _ => ?_
      rw [Pi.star_apply, RCLike.star_def, Complex.conj_mul']
    rw [h2, h2] at h1
    have h3 : ∑ i, ‖(J *ᵥ u) i‖ ^ 2 = ν * ∑ i, ‖u i‖ ^ 2 := by exact_mod_cast h1
    obtain ⟨i, hi⟩ := Function.ne_iff.1 hu
    have h4 : 0 < ∑ i, ‖u i‖ ^ 2 := sum_pos' (fun i _ => by positivity) ⟨i, mem_univ _, by
      have : 0 < ‖u i‖ := norm_pos_iff.2 hi
      positivity⟩
    have h5 : 0 ≤ ∑ i, ‖(J *ᵥ u) i‖ ^ 2 := sum_nonneg fun i _ => by positivity
    by_contra hneg
    push Not at hneg
    nlinarith
  set z : ι → ℂ := fun i => if w i = M then y i else 0 with hz
  have hNz : (Jᴴ * J) *ᵥ z = (μ : ℂ) • z := by
    funext i
    rw [Pi.smul_apply, smul_eq_mul]
    by_cases hi : w i = M
    · have e : ((Jᴴ * J) *ᵥ z) i = ((Jᴴ * J) *ᵥ y) i := by
        rw [mulVec, mulVec, dotProduct, dotProduct]
        refine sum_congr rfl fun b _ => ?_
        by_cases hb : (Jᴴ * J) i b = 0
        · rw [hb, zero_mul, zero_mul]
        · rw [hz]
          simp only
          rw [if_pos ((hNab i b hb).symm.trans hi)]
      rw [e, hz]
      simp only
      rw [if_pos hi, ← hy i, if_pos hi, add_zero]
    · rw [hz]
      simp only
      rw [if_neg hi, mul_zero, mulVec, dotProduct]
      refine sum_eq_zero fun b _ => ?_
      by_cases hb : (Jᴴ * J) i b = 0
      · rw [hb, zero_mul]
      · rw [if_neg fun h => hi ((hNab i b hb).trans h), mul_zero]
  by_cases hz0 : z = 0
  · have hy' : (Jᴴ * J) *ᵥ y = ((μ - 1 : ℝ) : ℂ) • y := by
      funext i
      have h1 := hy i
      have h2 := congrFun hz0 i
      rw [hz] at h2
      simp only at h2
      rw [Pi.smul_apply, smul_eq_mul]
      push_cast
      by_cases hi : w i = M
      · rw [if_pos hi] at h1 h2
        have h3 : y i = 0 := h2
        rw [h3] at h1 ⊢
        rw [← add_zero (((Jᴴ * J) *ᵥ y) i), h1]
        ring
      · rw [if_neg hi] at h1
        linear_combination h1
    have := pos y hy0 _ hy'
    linarith
  · set u : ι → ℂ := J *ᵥ z with hu
    have hDz : D *ᵥ z = (M : ℂ) • z := by
      funext i
      rw [hD, mulVec_diagonal, Pi.smul_apply, smul_eq_mul, hz]
      simp only
      split_ifs with hi
      · rw [hi]
      · simp
    have hDu : D *ᵥ u = ((M + 1 : ℝ) : ℂ) • u := by
      have e : D * J = J + J * D := by rw [← sub_eq_iff_eq_add]; exact hw
      rw [hu, mulVec_mulVec, e, add_mulVec, ← mulVec_mulVec, hDz, mulVec_smul]
      push_cast
      rw [add_smul, one_smul]
      abel
    have hu0 : u ≠ 0 := by
      intro h
      rw [← mulVec_mulVec, ← hu, h, mulVec_zero] at hNz
      have := smul_eq_zero.1 hNz.symm
      rcases this with h | h
      · exact hμ.ne' (by exact_mod_cast h)
      · exact hz0 h
    have hNu : (Jᴴ * J) *ᵥ u = ((μ - 2 * (M + 1) : ℝ) : ℂ) • u := by
      have e : Jᴴ * J = J * Jᴴ - (2 : ℂ) • D := by rw [← hc]; abel
      rw [e, sub_mulVec, smul_mulVec, hDu, hu, ← mulVec_mulVec, mulVec_mulVec _ Jᴴ, hNz, mulVec_smul]
      push_cast
      module
    have := pos u hu0 _ hNu
    linarith

/-! ## The normal equations of the constraint matrix -/

theorem sum_flipC {d₁ d₂ : ℕ} (f : Fin (d₁ * d₂) → ℂ) : ∑ k, f k = ∑ p : Fin d₁ × Fin d₂, f (finProdFinEquiv p).rev := by
  rw [← Equiv.sum_comp (finProdFinEquiv (m := d₁) (n := d₂)).symm (fun p => f (finProdFinEquiv p).rev)]
  simp only [Equiv.apply_symm_apply]
  exact (Equiv.sum_comp Fin.revPerm f).symm

theorem sum_get {α : Type} (L : List α) (f : α → ℂ) : ∑ r : Fin L.length, f (L.get r) = (L.map f).sum := by
  rw [← List.sum_ofFn]
  congr 1
  apply List.ext_getElem
  · simp
  · intro i h1 h2
    simp

theorem sum_triples {d₁ d₂ : ℕ} (f : Fin d₁ × Fin d₂ × ℕ → ℂ) :
    ((triples d₁ d₂ 1).map f).sum = ∑ p : Fin d₁ × Fin d₂, f (p.1, p.2, 0) := by
  have : triples d₁ d₂ 1 = (pairs d₁ d₂).map fun p => (p.1, p.2, 0) := by
    unfold triples
    rw [List.map_eq_flatMap]
    rfl
  rw [this, List.map_map, sum_pairs, Fintype.sum_prod_type]
  rfl

theorem sum_opt {α β : Type} (L : List α) (b : α → Bool) (g : α → β) (f : β → ℂ) :
    (((L.map fun m => if b m then [g m] else []).flatten).map f).sum = (L.map fun m => if b m then f (g m) else 0).sum := by
  induction L with
  | nil => rfl
  | cons a L ih =>
    rw [List.map_cons, List.flatten_cons, List.map_append, List.sum_append, ih, List.map_cons, List.sum_cons]
    cases b a <;> simp

/-- The matrix of the constraints, as a complex matrix. -/
noncomputable def nullC (S₁ S₂ : List ℤ) (E : Pat) :=
  (nullMatrix (rowsVal S₁ S₂ E)).map ((↑) : ℝ → ℂ)

theorem entryVal_JT (S₁ S₂ : List ℤ) (p m : Fin (pats S₁).length × Fin (pats S₂).length) :
    (entryVal S₁ S₂ (p.1, p.2, 0) m : ℂ) = JT S₁ S₂ 0 p m := by
  rw [JT, Ladder.tens_apply, entryVal, Jp_JR, Jp_JR]
  push_cast
  congr 1 <;> split_ifs <;> simp

theorem JT_conj (S₁ S₂ : List ℤ) (p m : Fin (pats S₁).length × Fin (pats S₂).length) :
    (JT S₁ S₂ 0)ᴴ p m = JT S₁ S₂ 0 m p := by
  rw [conjTranspose_apply, ← entryVal_JT, RCLike.star_def, Complex.conj_ofReal]

theorem nullC_normal {S₁ S₂ : List ℤ} {E : Pat} (hE : E.length - 1 = 1) (x : Fin ((pats S₁).length * (pats S₂).length) → ℂ)
    (p : Fin (pats S₁).length × Fin (pats S₂).length) :
    (((nullC S₁ S₂ E)ᴴ * nullC S₁ S₂ E) *ᵥ x) (finProdFinEquiv p).rev =
      (((JT S₁ S₂ 0)ᴴ * JT S₁ S₂ 0) *ᵥ fun m => x (finProdFinEquiv m).rev) p +
        if wrongB S₁ S₂ E p then x (finProdFinEquiv p).rev else 0 := by
  set y : Fin (pats S₁).length × Fin (pats S₂).length → ℂ := fun m => x (finProdFinEquiv m).rev with hy
  have e1 : ∀ r, ((nullC S₁ S₂ E) *ᵥ x) r = ∑ m : Fin (pats S₁).length × Fin (pats S₂).length,
      ((rowsVal S₁ S₂ E).get r m.1 m.2 : ℂ) * y m := by
    intro r
    rw [mulVec, dotProduct, sum_flipC]
    refine sum_congr rfl fun m _ => ?_
    simp only [nullC, nullMatrix, Matrix.map_apply, Matrix.of_apply, flipIdx_unflip, hy]
  rw [← mulVec_mulVec, mulVec, dotProduct]
  have e2 : ∀ r, (nullC S₁ S₂ E)ᴴ (finProdFinEquiv p).rev r * ((nullC S₁ S₂ E) *ᵥ x) r =
      (fun R : Matrix (Fin (pats S₁).length) (Fin (pats S₂).length) ℝ =>
        (R p.1 p.2 : ℂ) * ∑ m : Fin (pats S₁).length × Fin (pats S₂).length, (R m.1 m.2 : ℂ) * y m)
        ((rowsVal S₁ S₂ E).get r) := by
    intro r
    rw [e1, conjTranspose_apply]
    simp only [nullC, nullMatrix, Matrix.map_apply, Matrix.of_apply, flipIdx_unflip, RCLike.star_def, Complex.conj_ofReal]
  rw [sum_congr rfl fun r _ => e2 r]
  refine (sum_get _ (fun R : Matrix (Fin (pats S₁).length) (Fin (pats S₂).length) ℝ =>
        (R p.1 p.2 : ℂ) * ∑ m : Fin (pats S₁).length × Fin (pats S₂).length, (R m.1 m.2 : ℂ) * y m)).trans ?_
  unfold rowsVal
  rw [List.map_append, List.sum_append, List.map_map, sum_opt, sum_pairs, hE, sum_triples, ← mulVec_mulVec]
  refine congrArg₂ (· + ·) ?_ ?_
  · rw [mulVec, dotProduct]
    refine sum_congr rfl fun q _ => ?_
    rw [JT_conj, mulVec, dotProduct, Function.comp]
    simp only [Matrix.of_apply, entryVal_JT]
  · rw [← Fintype.sum_prod_type' (f := fun i j => if wrongB S₁ S₂ E (i, j) = true
      then ((Matrix.single i j (1 : ℝ) p.1 p.2 : ℝ) : ℂ) * ∑ m : Fin (pats S₁).length × Fin (pats S₂).length,
        ((Matrix.single i j (1 : ℝ) m.1 m.2 : ℝ) : ℂ) * y m else 0)]
    rw [sum_eq_single p]
    · have : ∑ m : Fin (pats S₁).length × Fin (pats S₂).length,
          ((Matrix.single p.1 p.2 (1 : ℝ) m.1 m.2 : ℝ) : ℂ) * y m = y p := by
        rw [sum_eq_single p]
        · simp
        · intro m _ hm
          rw [Matrix.single_apply, if_neg fun h => hm (Prod.ext h.1.symm h.2.symm)]
          simp
        · simp
      simp only [Prod.mk.eta, this, Matrix.single_apply_same, Complex.ofReal_one, one_mul]
      rfl
    · intro m _ hm
      have : Matrix.single m.1 m.2 (1 : ℝ) p.1 p.2 = 0 := by
        rw [Matrix.single_apply, if_neg fun h => hm (Prod.ext h.1 h.2)]
      rw [this]
      simp
    · simp

theorem nullC_gap (n₁ n₂ n₃ : ℕ) : Gap 1 (nullC (lab n₁) (lab n₂) (topPat (lab n₃))) := by
  intro μ x hx hev hμ
  have s := sysT (S₁ := lab n₁) (S₂ := lab n₂) (S₃ := lab n₃) ⟨lab_weight _, lab_weight _, lab_weight _, lab_nonneg _,
    lab_nonneg _, lab_nonneg _, rfl, rfl, by simp⟩
  set w : Fin (pats (lab n₁)).length × Fin (pats (lab n₂)).length → ℝ :=
    fun m => ((m.1 : ℕ) : ℝ) + (m.2 : ℕ) - (n₁ + n₂) / 2 with hw
  have hZ : Ladder.tens (Jz (lab n₁) 0) (Jz (lab n₂) 0) = diagonal fun m => (w m : ℂ) := by
    ext a b
    rw [Ladder.tens_apply, Jz, Jz, diagonal_apply, diagonal_apply, diagonal_apply]
    simp only [pats_get, zw_lab, List.getD_cons_zero, hw]
    obtain ⟨a1, a2⟩ := a
    obtain ⟨b1, b2⟩ := b
    simp only [Prod.mk.injEq]
    by_cases h1 : a1 = b1 <;> by_cases h2 : a2 = b2 <;> simp [h1, h2]
    ring
  have c1 := s.comm 0 0 (by simp) (by simp)
  have c2 := s.ZP 0 0 (by simp) (by simp)
  rw [if_pos rfl, hZ] at c1
  rw [hZ] at c2
  have hc00 : cartan 0 0 = 1 := by simp [cartan]
  rw [hc00, Complex.ofReal_one, one_smul] at c2
  refine gap_core (JT (lab n₁) (lab n₂) 0) w (M := n₃ / 2) (by positivity) c1 c2
    (y := fun m => x (finProdFinEquiv m).rev) ?_ hμ fun m => ?_
  · intro h
    apply hx
    funext k
    have := congrFun h (flipIdx k)
    have e : (finProdFinEquiv (flipIdx k)).rev = k := by
      have : flipIdx k = finProdFinEquiv.symm k.rev := rfl
      rw [this, Equiv.apply_symm_apply, Fin.rev_rev]
    rw [e] at this
    exact this
  · have h1 := nullC_normal (S₁ := lab n₁) (S₂ := lab n₂) (E := topPat (lab n₃)) (by rw [topPat_lab]; rfl) x m
    rw [hev, Pi.smul_apply, smul_eq_mul] at h1
    rw [h1]
    refine congrArg₂ (· + ·) rfl ?_
    have h2 := wrongB_lab n₁ n₂ n₃ m
    have h3 : w m = (n₃ : ℝ) / 2 ↔ 2 * ((m.1 : ℕ) + m.2) = n₁ + n₂ + n₃ := by
      rw [hw]
      simp only
      constructor
      · intro h
        have : (2 * (((m.1 : ℕ) : ℝ) + (m.2 : ℕ))) = n₁ + n₂ + n₃ := by linarith
        exact_mod_cast this
      · intro h
        have : (2 * (((m.1 : ℕ) : ℝ) + (m.2 : ℕ))) = n₁ + n₂ + n₃ := by exact_mod_cast h
        linarith
    by_cases h4 : w m = (n₃ : ℝ) / 2
    · rw [if_pos h4, if_neg fun h => (h2.1 h) (h3.1 h4)]
    · rw [if_neg h4, if_pos (h2.2 fun h => h4 (h3.2 h))]

end LieNN.SUN
