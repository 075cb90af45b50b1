import Verif.Proofs.BasisInter
import Mathlib.Analysis.Matrix.Spectrum
import Mathlib.Tactic.LinearCombination

/-!
# Properties of `basis_intersection` (C73)
-/
namespace LieNN.Props
open Matrix LieNN.Spec

variable {n₁ n₂ D : ℕ} {eigh : EighFn} {eps : ℝ}

theorem mem_rowSpace {m n : ℕ} (B : Matrix (Fin m) (Fin n) ℂ) (r : Fin n → ℂ) :
    r ∈ rowSpace B ↔ ∃ x : Fin m → ℂ, x ᵥ* B = r := by
  unfold rowSpace
  rw [Submodule.mem_span_range_iff_exists_fun]
  refine exists_congr fun x => ?_
  rw [vecMul_eq_sum]

theorem rows_of_coeff {B₁ : Matrix (Fin n₁) (Fin D) ℂ} {B₂ : Matrix (Fin n₂) (Fin D) ℂ}
    {P : List (Vec n₁)} (h : ∀ x : Vec n₁, x ∈ lspan P ↔ ∃ y : Fin n₂ → ℂ, x.ofLp ᵥ* B₁ = y ᵥ* B₂) :
    Submodule.span ℂ {r | ∃ x ∈ P, r = x.ofLp ᵥ* B₁} = rowSpace B₁ ⊓ rowSpace B₂ := by
  apply le_antisymm
  · rw [Submodule.span_le]
    rintro r ⟨x, hx, rfl⟩
    obtain ⟨y, hy⟩ := (h x).1 (mem_lspan hx)
    exact ⟨(mem_rowSpace _ _).2 ⟨_, rfl⟩, (mem_rowSpace _ _).2 ⟨y, hy.symm⟩⟩
  · rintro r ⟨h1, h2⟩
    obtain ⟨x, rfl⟩ := (mem_rowSpace _ _).1 h1
    obtain ⟨y, hy⟩ := (mem_rowSpace _ _).1 h2
    have hx : (WithLp.toLp 2 x : Vec n₁) ∈ lspan P := (h _).2 ⟨y, hy.symm⟩
    have key : ∀ z : Vec n₁, z ∈ lspan P →
        z.ofLp ᵥ* B₁ ∈ Submodule.span ℂ {r | ∃ x ∈ P, r = x.ofLp ᵥ* B₁} := by
      intro z hz
      induction hz using Submodule.span_induction with
      | mem z hz => exact Submodule.subset_span ⟨z, hz, rfl⟩
      | zero => simp
      | add a b _ _ ha hb => rw [WithLp.ofLp_add, add_vecMul]; exact Submodule.add_mem _ ha hb
      | smul c a _ ha => rw [WithLp.ofLp_smul, smul_vecMul]; exact Submodule.smul_mem _ _ ha
    exact key _ hx

/-- **C73.** With no row in one of the bases `np.reshape` raises `ValueError`. -/
theorem C73_empty (B₁ : Matrix (Fin n₁) (Fin D) ℂ) (B₂ : Matrix (Fin n₂) (Fin D) ℂ)
    (h : n₁ = 0 ∨ n₂ = 0) : basisIntersection eigh eps B₁ B₂ = .error .valueError := by
  rw [basisIntersection, if_pos h]

theorem inter_of_sel (he : EighSpec eigh) (hr : EighReal eigh) (heps : 0 < eps)
    (B₁ : Matrix (Fin n₁) (Fin D) ℂ) (B₂ : Matrix (Fin n₂) (Fin D) ℂ) (h₁ : RealMat B₁)
    (h₂ : RealMat B₂) (hn₁ : n₁ ≠ 0) (hn₂ : n₂ ≠ 0)
    (hsel : ∀ k, (eigh _ (interMatrix B₁ B₂)).1 k < eps → (eigh _ (interMatrix B₁ B₂)).1 k = 0)
    {K : ℝ} (hb₁ : CoeffBound K B₁ B₂) (hb₂ : CoeffBound K B₂ B₁)
    (hs₁ : n₁ * (eps * (1 + K ^ 2)) ^ 2 < 1) (hs₂ : n₂ * (eps * (1 + K ^ 2)) ^ 2 < 1) :
    ∃ P₁ P₂, basisIntersection eigh eps B₁ B₂ = .ok (P₁, P₂) ∧ IsIntersection B₁ B₂ P₁ P₂ := by
  classical
  refine ⟨_, _, by rw [basisIntersection, if_neg (by omega)], ?_⟩
  have g₁ := inter_side he hr heps h₁ h₂ hsel (Fin.castAdd n₂) hs₁ (bound_left h₁ h₂ hb₁)
  have g₂ := inter_side he hr heps h₁ h₂ hsel (Fin.natAdd n₁) hs₂ (bound_right h₁ h₂ hb₂)
  rw [map_kernel_left h₁ h₂] at g₁
  rw [map_kernel_right h₁ h₂] at g₂
  have c₁ := fun x : Vec n₁ => (Submodule.ext_iff.1 g₁ x)
  have c₂ := fun x : Vec n₂ => (Submodule.ext_iff.1 g₂ x)
  have hre := hr _ _ (interMatrix_real h₁ h₂)
  refine ⟨(gsLoop_oList heps.le _ _ ⟨by simp, List.Pairwise.nil⟩).orthonormal,
    (gsLoop_oList heps.le _ _ ⟨by simp, List.Pairwise.nil⟩).orthonormal, c₁, c₂, rows_of_coeff c₁,
    by rw [inf_comm]; exact rows_of_coeff c₂, ?_, ?_⟩
  · refine gsLoop_real _ _ (fun a ha => ?_) (by simp)
    obtain ⟨i, rfl⟩ := (List.mem_ofFn' _ _).1 ha
    exact interRows_real _ _ _ hre i
  · refine gsLoop_real _ _ (fun a ha => ?_) (by simp)
    obtain ⟨i, rfl⟩ := (List.mem_ofFn' _ _).1 ha
    exact interRows_real _ _ _ hre i

/-- **C73.** For real bases, a tolerance below the positive eigenvalues of `p` and small compared to the
size of the coefficients, the two results describe the intersection of the row spaces. -/
theorem C73_intersection (he : EighSpec eigh) (hr : EighReal eigh) (heps : 0 < eps)
    (B₁ : Matrix (Fin n₁) (Fin D) ℂ) (B₂ : Matrix (Fin n₂) (Fin D) ℂ) (h₁ : RealMat B₁)
    (h₂ : RealMat B₂) (hn₁ : n₁ ≠ 0) (hn₂ : n₂ ≠ 0)
    (hgap : ∀ (μ : ℝ) (x : Fin (n₁ + n₂) → ℂ), x ≠ 0 → interMatrix B₁ B₂ *ᵥ x = (μ : ℂ) • x →
      0 < μ → eps ≤ μ)
    {K : ℝ} (hb₁ : CoeffBound K B₁ B₂) (hb₂ : CoeffBound K B₂ B₁)
    (hs₁ : n₁ * (eps * (1 + K ^ 2)) ^ 2 < 1) (hs₂ : n₂ * (eps * (1 + K ^ 2)) ^ 2 < 1) :
    ∃ P₁ P₂, basisIntersection eigh eps B₁ B₂ = .ok (P₁, P₂) ∧ IsIntersection B₁ B₂ P₁ P₂ := by
  refine inter_of_sel he hr heps B₁ B₂ h₁ h₂ hn₁ hn₂ ?_ hb₁ hb₂ hs₁ hs₂
  rw [interMatrix_eq h₁ h₂] at hgap ⊢
  obtain ⟨ho, hev⟩ := eigh_spec_mul he (stack B₁ B₂)ᴴ
  intro k hk
  apply sel_of_gap eps ho hev hgap
  rwa [abs_of_nonneg (val_nonneg ho hev k)]

/-- **C73.** For every pair of real bases this holds for all small enough tolerances. -/
theorem C73_small (he : EighSpec eigh) (hr : EighReal eigh)
    (B₁ : Matrix (Fin n₁) (Fin D) ℂ) (B₂ : Matrix (Fin n₂) (Fin D) ℂ) (h₁ : RealMat B₁)
    (h₂ : RealMat B₂) (hn₁ : n₁ ≠ 0) (hn₂ : n₂ ≠ 0) :
    ∃ e : ℝ, 0 < e ∧ ∃ P₁ P₂, (∀ eps, 0 < eps → eps < e →
      basisIntersection eigh eps B₁ B₂ = .ok (P₁, P₂)) ∧ IsIntersection B₁ B₂ P₁ P₂ := by
  obtain ⟨K, -, hb₁⟩ := exists_coeffBound B₁ B₂
  obtain ⟨K', -, hb₂⟩ := exists_coeffBound B₂ B₁
  have mono : ∀ {a b d : ℕ} {X : Matrix (Fin a) (Fin d) ℂ} {Y : Matrix (Fin b) (Fin d) ℂ} {c c' : ℝ},
      c ≤ c' → CoeffBound c X Y → CoeffBound c' X Y := by
    intro a b d X Y c c' hc h x hx
    obtain ⟨y, h1, h2⟩ := h x hx
    exact ⟨y, h1, h2.trans (by gcongr)⟩
  set M := max K K'
  obtain ⟨e₀, he₀, hsel⟩ := exists_pos_lt (eigh (n₁ + n₂) (interMatrix B₁ B₂)).1
  obtain ⟨e₁, he₁, hlim⟩ := inter_small (eigh := eigh) B₁ B₂
  -- a tolerance for which the previous theorem applies
  have hpos : 0 < (1 + M ^ 2) * (n₁ + n₂ + 1) := by positivity
  set e₂ := 1 / ((1 + M ^ 2) * (n₁ + n₂ + 1)) with he₂
  have he₂pos : 0 < e₂ := by positivity
  set e := min e₀ (min e₁ e₂) with hee
  have hepos : 0 < e := lt_min he₀ (lt_min he₁ he₂pos)
  have hs : ∀ m : ℕ, m ≤ n₁ + n₂ → ∀ eps, 0 < eps → eps < e → m * (eps * (1 + M ^ 2)) ^ 2 < 1 := by
    intro m hm eps h0 h1
    have h2 : eps < e₂ := h1.trans_le ((min_le_right _ _).trans (min_le_right _ _))
    have h3 : eps * (1 + M ^ 2) < 1 / (n₁ + n₂ + 1) := by
      rw [he₂, lt_div_iff₀ hpos] at h2
      rw [lt_div_iff₀ (by positivity)]
      linarith
    have h4 : (eps * (1 + M ^ 2)) ^ 2 < (1 / ((n₁ : ℝ) + n₂ + 1)) ^ 2 := by gcongr
    have h5 : (m : ℝ) < n₁ + n₂ + 1 := by
      have : (m : ℝ) ≤ ((n₁ + n₂ : ℕ) : ℝ) := by exact_mod_cast hm
      push_cast at this
      linarith
    have h6 : (m : ℝ) * (eps * (1 + M ^ 2)) ^ 2 ≤ (n₁ + n₂ + 1) * (1 / ((n₁ : ℝ) + n₂ + 1)) ^ 2 :=
      mul_le_mul h5.le h4.le (sq_nonneg _) (by positivity)
    rcases Nat.eq_zero_or_pos m with rfl | hm0
    · simp
    · calc (m : ℝ) * (eps * (1 + M ^ 2)) ^ 2
          < m * (1 / ((n₁ : ℝ) + n₂ + 1)) ^ 2 := by
            have : (0 : ℝ) < m := by exact_mod_cast hm0
            gcongr
        _ ≤ (n₁ + n₂ + 1) * (1 / ((n₁ : ℝ) + n₂ + 1)) ^ 2 := by gcongr
        _ = 1 / ((n₁ : ℝ) + n₂ + 1) := by field_simp
        _ ≤ 1 := by
          rw [div_le_one (by positivity)]
          have : (0 : ℝ) ≤ (n₁ : ℝ) + n₂ := by positivity
          linarith
  have main : ∀ eps, 0 < eps → eps < e → ∃ P₁ P₂,
      basisIntersection eigh eps B₁ B₂ = .ok (P₁, P₂) ∧ IsIntersection B₁ B₂ P₁ P₂ := by
    intro eps h0 h1
    refine inter_of_sel he hr h0 B₁ B₂ h₁ h₂ hn₁ hn₂ ?_ (mono (le_max_left K K') hb₁)
      (mono (le_max_right K K') hb₂) (hs n₁ (by omega) eps h0 h1) (hs n₂ (by omega) eps h0 h1)
    intro k hk
    refine le_antisymm (hsel k (hk.trans (h1.trans_le (min_le_left _ _)))) ?_
    have := fun k => val_nonneg (eigh_spec_mul he (stack B₁ B₂)ᴴ).1 (eigh_spec_mul he (stack B₁ B₂)ᴴ).2 k
    rw [← interMatrix_eq h₁ h₂] at this
    exact this k
  obtain ⟨P₁, P₂, hP, hI⟩ := main (e / 2) (by positivity) (by linarith)
  refine ⟨e, hepos, P₁, P₂, fun eps h0 h1 => ?_, hI⟩
  have hle : ∀ x, x < e → x < e₁ := fun x hx => hx.trans_le ((min_le_right _ _).trans (min_le_left _ _))
  rw [hlim eps h0 (hle _ h1), ← hlim (e / 2) (by positivity) (hle _ (by linarith)), hP]

/-! ### Complex bases -/

/-- The bases `[[1, i]]` and `[[1, 0]]`. -/
def cplx₁ : Matrix (Fin 1) (Fin 2) ℂ := !![1, Complex.I]
/-- The basis `[[1, 0]]`. -/
def cplx₂ : Matrix (Fin 1) (Fin 2) ℂ := !![1, 0]

theorem cplx_inter : interMatrix cplx₁ cplx₂ = !![0, -1; -1, 1] := by
  ext i j
  fin_cases i <;> fin_cases j <;>
    simp [interMatrix, cplx₁, cplx₂, finSumFinEquiv, Fin.addCases, fromBlocks, vecMul, dotProduct]

/-- **C73.** The transposes are not conjugated: for complex bases the result is wrong.  The row spaces of
`[[1, i]]` and `[[1, 0]]` meet in `0`, yet for every tolerance below `1/2` the first result is not
empty. -/
theorem C73_complex (he : EighSpec eigh) (hr : EighReal eigh) (heps : 0 < eps) (h2 : eps < 1 / 2) :
    rowSpace cplx₁ ⊓ rowSpace cplx₂ = ⊥ ∧
      ∃ P₁ P₂, basisIntersection eigh eps cplx₁ cplx₂ = .ok (P₁, P₂) ∧ P₁ ≠ [] := by
  classical
  constructor
  · rw [eq_bot_iff]
    rintro r ⟨h1, h2⟩
    obtain ⟨x, rfl⟩ := (mem_rowSpace _ _).1 h1
    obtain ⟨y, hy⟩ := (mem_rowSpace _ _).1 h2
    have e1 := congrFun hy 1
    simp [vecMul, dotProduct, cplx₁, cplx₂] at e1
    rw [Submodule.mem_bot]
    ext j
    fin_cases j <;> simp [vecMul, dotProduct, cplx₁, e1]
  · refine ⟨_, _, by rw [basisIntersection, if_neg (by omega)], ?_⟩
    rw [cplx_inter]
    set wv := eigh (1 + 1) !![0, -1; -1, 1] with hwv
    have hherm : (!![0, -1; -1, 1] : Matrix (Fin (1 + 1)) (Fin (1 + 1)) ℂ).IsHermitian := by
      ext i j; fin_cases i <;> fin_cases j <;> simp
    have hreal : RealMat (!![0, -1; -1, 1] : Matrix (Fin (1 + 1)) (Fin (1 + 1)) ℂ) := by
      intro i j; fin_cases i <;> fin_cases j <;> simp
    obtain ⟨ho, hev⟩ := he _ _ hherm
    have hre := hr _ _ hreal
    rw [← hwv] at ho hev hre
    -- the eigenvectors
    have hv : ∀ k, wv.2 k 1 = -(wv.1 k : ℂ) * wv.2 k 0 := by
      intro k
      have := congrFun (hev k) 0
      simp [mulVec, dotProduct, Fin.sum_univ_two] at this
      linear_combination -this
    have hv' : ∀ k, -(wv.2 k 0) + wv.2 k 1 = (wv.1 k : ℂ) * wv.2 k 1 := by
      intro k
      have := congrFun (hev k) 1
      simp [mulVec, dotProduct, Fin.sum_univ_two] at this
      linear_combination this
    have hne : ∀ k, wv.2 k 0 ≠ 0 := by
      intro k h0
      have h1 := hv k
      rw [h0, mul_zero] at h1
      have : wv.2 k = 0 := by
        ext i
        fin_cases i
        · exact h0
        · exact h1
      have h3 := ho.1 k
      rw [this] at h3
      simp at h3
    have hq : ∀ k, wv.1 k ^ 2 - wv.1 k - 1 = 0 := by
      intro k
      have h3 := hv' k
      rw [hv k] at h3
      have h4 : ((wv.1 k : ℂ) ^ 2 - wv.1 k - 1) * wv.2 k 0 = 0 := by linear_combination h3
      have h5 := (mul_eq_zero.1 h4).resolve_right (hne k)
      exact_mod_cast h5
    have hdiff : wv.1 0 ≠ wv.1 1 := by
      intro h0
      have h3 : inner ℂ (wv.2 0) (wv.2 1) = 0 := ho.2 (show (0 : Fin (1 + 1)) ≠ 1 by decide)
      rw [PiLp.inner_apply, Fin.sum_univ_two] at h3
      simp only [RCLike.inner_apply] at h3
      rw [hv 0, hv 1, h0] at h3
      have h4 : (1 + (wv.1 1 : ℂ) ^ 2) * (wv.2 1 0 * starRingEnd ℂ (wv.2 0 0)) = 0 := by
        simp only [map_mul, map_neg, Complex.conj_ofReal] at h3
        linear_combination h3
      rcases mul_eq_zero.1 h4 with h5 | h5
      · have h6 : (1 : ℝ) + wv.1 1 ^ 2 = 0 := by exact_mod_cast h5
        nlinarith [sq_nonneg (wv.1 1)]
      · rcases mul_eq_zero.1 h5 with h6 | h6
        · exact hne 1 h6
        · exact hne 0 (by simpa using h6)
    have hsum : wv.1 0 + wv.1 1 = 1 := by
      have h3 : (wv.1 0 - wv.1 1) * (wv.1 0 + wv.1 1 - 1) = 0 := by
        linear_combination hq 0 - hq 1
      have := (mul_eq_zero.1 h3).resolve_left (sub_ne_zero.2 hdiff)
      linarith
    obtain ⟨k, hk⟩ : ∃ k, wv.1 k < 0 := by
      by_contra hc
      push Not at hc
      have h3 := hc 0
      have h4 := hc 1
      have h5 := hq 0
      have h6 : wv.1 0 * (1 - wv.1 0) = -1 := by linarith
      have h7 : 1 - wv.1 0 = wv.1 1 := by linarith
      rw [h7] at h6
      nlinarith [mul_nonneg h3 h4]
    -- its first component is large
    have hbig : 1 / 2 < (wv.2 k 0).re ^ 2 := by
      have h3 : ‖wv.2 k‖ ^ 2 = 1 := by rw [ho.1 k]; norm_num
      rw [EuclideanSpace.norm_sq_eq, Fin.sum_univ_two, hv k, norm_mul, mul_pow] at h3
      have h4 : ‖wv.2 k 0‖ ^ 2 = (wv.2 k 0).re ^ 2 := by
        rw [← Complex.normSq_eq_norm_sq, Complex.normSq_apply, hre]; ring
      have h5 : ‖-(wv.1 k : ℂ)‖ ^ 2 = wv.1 k ^ 2 := by
        rw [norm_neg, Complex.norm_real, Real.norm_eq_abs, sq_abs]
      rw [h4, h5] at h3
      have h6 := hq k
      have h7 : wv.1 k ^ 2 < 1 := by nlinarith
      nlinarith [sq_nonneg (wv.2 k 0).re]
    set sel := Finset.univ.filter fun k => wv.1 k < eps
    have hksel : k ∈ sel := by simpa [sel] using hk.trans heps
    have hrow : interRows (Fin.castAdd 1) sel wv.2 0 0 = ((∑ k ∈ sel, (wv.2 k 0).re ^ 2 : ℝ) : ℂ) := by
      simp only [interRows]
      rw [Complex.ofReal_sum]
      refine Finset.sum_congr rfl fun j _ => ?_
      have : wv.2 j (Fin.castAdd 1 0) = ((wv.2 j 0).re : ℂ) :=
        Complex.ext rfl (by simpa using hre j 0)
      rw [this]
      push_cast
      ring
    have hsumbig : 1 / 2 < ∑ k ∈ sel, (wv.2 k 0).re ^ 2 :=
      hbig.trans_le (Finset.single_le_sum (fun j _ => sq_nonneg (wv.2 j 0).re) hksel)
    have hnorm : eps < ‖interRows (Fin.castAdd 1) sel wv.2 0‖ := by
      have h3 : ‖interRows (Fin.castAdd 1) sel wv.2 0 0‖ ≤ ‖interRows (Fin.castAdd 1) sel wv.2 0‖ :=
        PiLp.norm_apply_le _ _
      rw [hrow, Complex.norm_real, Real.norm_eq_abs] at h3
      have := le_abs_self (∑ k ∈ sel, (wv.2 k 0).re ^ 2)
      linarith
    rw [show List.ofFn (interRows (Fin.castAdd 1) sel wv.2) = [interRows (Fin.castAdd 1) sel wv.2 0] by
      simp, gramSchmidt, gsLoop_cons]
    rw [if_pos (by simpa [gsReduce] using hnorm)]
    simp [gsLoop]

/-! ### The hypotheses can be met -/

open Classical in
/-- An `eigh` with real eigenvectors for real symmetric matrices exists. -/
theorem exists_eigh_real : ∃ eigh : EighFn, EighSpec eigh ∧ EighReal eigh := by
  have key : ∀ (n : ℕ) (M : Matrix (Fin n) (Fin n) ℂ), ∃ wv : (Fin n → ℝ) × (Fin n → Vec n),
      (M.IsHermitian → Orthonormal ℂ wv.2 ∧ ∀ k, M *ᵥ (wv.2 k).ofLp = (wv.1 k : ℂ) • (wv.2 k).ofLp) ∧
      (RealMat M → ∀ k i, (wv.2 k i).im = 0) := by
    intro n M
    by_cases hr : RealMat M
    · by_cases hh : M.IsHermitian
      · have hM : (M.map Complex.re).IsHermitian := by
          ext i j
          have := congrFun (congrFun hh i) j
          simp only [conjTranspose_apply, map_apply] at this ⊢
          rw [← this]
          simp
        have hM' : ∀ i j, M i j = (((M.map Complex.re) i j : ℝ) : ℂ) := fun i j =>
          Complex.ext rfl (by simpa using hr i j)
        let b := hM.eigenvectorBasis
        refine ⟨(hM.eigenvalues, fun k => WithLp.toLp 2 fun i => ((b k i : ℝ) : ℂ)), fun _ => ⟨?_, ?_⟩,
          fun _ k i => by simp⟩
        · rw [orthonormal_iff_ite]
          intro i j
          have := orthonormal_iff_ite.1 b.orthonormal i j
          rw [PiLp.inner_apply] at this ⊢
          simp only [RCLike.inner_apply, conj_trivial] at this
          simp only [RCLike.inner_apply, Complex.conj_ofReal]
          have h2 := congrArg (fun x : ℝ => (x : ℂ)) this
          simp only [Complex.ofReal_sum, Complex.ofReal_mul] at h2
          rw [h2]
          split_ifs <;> simp
        · intro k
          have := hM.mulVec_eigenvectorBasis k
          ext i
          have h2 := congrArg (fun x : ℝ => (x : ℂ)) (congrFun this i)
          simp only [mulVec, dotProduct, Pi.smul_apply, smul_eq_mul, Complex.ofReal_sum,
            Complex.ofReal_mul] at h2 ⊢
          simp only [hM']
          exact h2
      · exact ⟨(0, 0), fun h => absurd h hh, fun _ k i => by simp⟩
    · by_cases hh : M.IsHermitian
      · exact ⟨(hh.eigenvalues, hh.eigenvectorBasis), fun _ => ⟨hh.eigenvectorBasis.orthonormal,
          fun k => hh.mulVec_eigenvectorBasis k⟩, fun h => absurd h hr⟩
      · exact ⟨(0, 0), fun h => absurd h hh, fun h => absurd h hr⟩
  choose f h1 h2 using key
  exact ⟨f, fun n M hM => h1 n M hM, fun n M hM => h2 n M hM⟩

/-- The two bases of the example in the documentation of `basis_intersection` are real. -/
example : RealMat (!![1, 0, 0; 0, 0, 1] : Matrix (Fin 2) (Fin 3) ℂ) ∧
    RealMat (!![1, 1, 0; 0, 1, 0] : Matrix (Fin 2) (Fin 3) ℂ) := by
  constructor <;> intro i j <;> fin_cases i <;> fin_cases j <;> simp

/-- Two equal bases with one row: the eigenvalues of `p` are `0` and `2`. -/
theorem oneRow_gap : let B : Matrix (Fin 1) (Fin 1) ℂ := !![1]
    (∀ (μ : ℝ) (x : Fin (1 + 1) → ℂ), x ≠ 0 → interMatrix B B *ᵥ x = (μ : ℂ) • x →
      0 < μ → 2 ≤ μ) ∧ CoeffBound 1 B B := by
  intro B
  refine ⟨?_, ?_⟩
  · intro μ x hx h hμ
    have e : interMatrix B B = !![1, -1; -1, 1] := by
      ext i j
      fin_cases i <;> fin_cases j <;>
        simp [B, interMatrix, finSumFinEquiv, Fin.addCases, fromBlocks, vecMul, dotProduct]
    rw [e] at h
    have h0 := congrFun h 0
    have h1 := congrFun h 1
    simp [mulVec, dotProduct, Fin.sum_univ_two] at h0 h1
    have hs : (μ : ℂ) * (x 0 + x 1) = 0 := by linear_combination -h0 - h1
    have hs' := (mul_eq_zero.1 hs).resolve_left (by exact_mod_cast hμ.ne')
    have h3 : ((μ : ℂ) - 2) * x 0 = 0 := by linear_combination -h0 - hs'
    rcases mul_eq_zero.1 h3 with h4 | h4
    · have : μ = 2 := by
        have : ((μ - 2 : ℝ) : ℂ) = 0 := by push_cast; exact h4
        have := Complex.ofReal_eq_zero.1 this
        linarith
      rw [this]
    · exfalso
      apply hx
      ext i
      fin_cases i
      · exact h4
      · have h5 : x 1 = 0 := by linear_combination hs' - h4
        exact h5
  · intro x _
    exact ⟨x, rfl, by simp⟩

/-- The hypotheses of `C73_intersection` for two equal bases with one row. -/
example : let B : Matrix (Fin 1) (Fin 1) ℂ := !![1]
    (∀ (μ : ℝ) (x : Fin (1 + 1) → ℂ), x ≠ 0 → interMatrix B B *ᵥ x = (μ : ℂ) • x →
      0 < μ → 1 / 10 ^ 5 ≤ μ) ∧ CoeffBound 1 B B ∧ ((1 : ℕ) : ℝ) * (1 / 10 ^ 5 * (1 + 1 ^ 2)) ^ 2 < 1 :=
  ⟨fun μ x hx h hμ => le_trans (by norm_num) (oneRow_gap.1 μ x hx h hμ), oneRow_gap.2, by norm_num⟩

end LieNN.Props
