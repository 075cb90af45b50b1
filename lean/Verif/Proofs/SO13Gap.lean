import Verif.Proofs.SO13
import Verif.Proofs.Su2Gap
import Verif.Proofs.IntertwinerRep
import Verif.Spec.Irreps
/-!
# The gap hypothesis of `infer_change_of_basis` for representations of `su(2)` and `SO13`
-/
namespace LieNN

open Matrix

section
variable {ι κ : Type*} [Fintype ι] [Fintype κ]

/-- `S ↦ F S - S G`. -/
def adOp (F : Matrix ι ι ℂ) (G : Matrix κ κ ℂ) : Module.End ℂ (Matrix ι κ ℂ) where
  toFun S := F * S - S * G
  map_add' S T := by rw [Matrix.mul_add, Matrix.add_mul]; abel
  map_smul' c S := by rw [Matrix.mul_smul, Matrix.smul_mul, RingHom.id_apply, smul_sub]

theorem adOp_apply (F : Matrix ι ι ℂ) (G : Matrix κ κ ℂ) (S : Matrix ι κ ℂ) : adOp F G S = F * S - S * G := rfl

theorem adOp_bracket (F F' : Matrix ι ι ℂ) (G G' : Matrix κ κ ℂ) :
    adOp F G * adOp F' G' - adOp F' G' * adOp F G = adOp (F * F' - F' * F) (G * G' - G' * G) := by
  ext1 S
  simp only [LinearMap.sub_apply, Module.End.mul_apply, adOp_apply, Matrix.mul_sub, Matrix.sub_mul, Matrix.mul_assoc]
  abel

/-- Matrices with the brackets of `su(2)`. -/
structure Su2Mats (F : Fin 3 → Matrix ι ι ℂ) : Prop where
  h01 : F 0 * F 1 - F 1 * F 0 = F 2
  h12 : F 1 * F 2 - F 2 * F 1 = F 0
  h20 : F 2 * F 0 - F 0 * F 2 = F 1

theorem Su2Mats.adOp {F : Fin 3 → Matrix ι ι ℂ} {G : Fin 3 → Matrix κ κ ℂ} (hF : Su2Mats F) (hG : Su2Mats G) :
    Su2Ops (fun a => adOp (F a) (G a)) where
  h01 := by rw [adOp_bracket, hF.h01, hG.h01]
  h12 := by rw [adOp_bracket, hF.h12, hG.h12]
  h20 := by rw [adOp_bracket, hF.h20, hG.h20]

theorem Su2Mats.conj {F : Fin 3 → Matrix ι ι ℂ} (hF : Su2Mats F) : Su2Mats (fun a => (F a).map star) := by
  have : ∀ {a b c}, F a * F b - F b * F a = F c →
      (F a).map star * (F b).map star - (F b).map star * (F a).map star = (F c).map star := by
    intro a b c h
    rw [← SL2C.map_star_mul, ← SL2C.map_star_mul, ← h]
    ext i j
    exact (star_sub _ _).symm
  exact ⟨this hF.h01, this hF.h12, this hF.h20⟩

end

/-- The gap for two skew-Hermitian representations of `su(2)`. -/
theorem su2_gap' {d₁ d₂ : ℕ} {X₁ : Fin 3 → Matrix (Fin d₁) (Fin d₁) ℂ} {X₂ : Fin 3 → Matrix (Fin d₂) (Fin d₂) ℂ}
    (h₁ : Su2Mats X₁) (h₂ : Su2Mats X₂) (s₁ : ∀ a, (X₁ a)ᴴ = -X₁ a) (s₂ : ∀ a, (X₂ a)ᴴ = -X₂ a) {eps : ℝ}
    (heps : eps ≤ 3 / 4) : Spec.Gap eps (icobMatrix X₁ X₂) := by
  apply gap_icob
  intro μ S hS hev hμ
  refine heps.trans (casimir_gap (h₁.adOp h₂) hS (μ := μ) ?_ hμ)
  rw [neg_smul, ← hev, Fin.sum_univ_three]
  simp only [s₁, s₂, cas, LinearMap.add_apply, Module.End.mul_apply, adOp_apply]
  simp only [Matrix.neg_mul, Matrix.mul_neg]
  abel

namespace SO13

open SL2C

theorem su2Mats_of_eps {ι : Type*} [Fintype ι] {F : Fin 3 → Matrix ι ι ℂ}
    (h : ∀ a b, F a * F b - F b * F a = ∑ c, (epsZ a b c : ℂ) • F c) : Su2Mats F := by
  have e : ∀ a b c : Fin 3, epsZ a b c = (![![![0, 0, 0], ![0, 0, 1], ![0, -1, 0]],
    ![![0, 0, -1], ![0, 0, 0], ![1, 0, 0]], ![![0, 1, 0], ![-1, 0, 0], ![0, 0, 0]]] :
      Fin 3 → Fin 3 → Fin 3 → ℤ) a b c := by decide
  refine ⟨?_, ?_, ?_⟩ <;> rw [h, Fin.sum_univ_three, e, e, e] <;> simp

theorem su2Mats_gens (j : ℕ) : Su2Mats (SU2.gens j) := su2Mats_of_eps (gens_bracket j)

/-- The two commuting copies of `su(2)` inside the generators. -/
noncomputable def lm (r : SL2C) (a : Fin 3) : Matrix (Fin r.dim) (Fin r.dim) ℂ :=
  (B r.l r.k)ᵀ * Zl r.l r.k a * B r.l r.k

noncomputable def rm (r : SL2C) (a : Fin 3) : Matrix (Fin r.dim) (Fin r.dim) ℂ :=
  (B r.l r.k)ᵀ * Zr r.l r.k a * B r.l r.k

theorem conjB_mul {r : SL2C} (M N : Matrix (Fin (r.l + 1) × Fin (r.k + 1)) (Fin (r.l + 1) × Fin (r.k + 1)) ℂ) :
    (B r.l r.k)ᵀ * M * B r.l r.k * ((B r.l r.k)ᵀ * N * B r.l r.k) = (B r.l r.k)ᵀ * (M * N) * B r.l r.k := by
  calc _ = (B r.l r.k)ᵀ * M * (B r.l r.k * (B r.l r.k)ᵀ) * N * B r.l r.k := by simp only [Matrix.mul_assoc]
    _ = _ := by rw [B_mul, Matrix.mul_one]; simp only [Matrix.mul_assoc]

theorem su2Mats_lm (r : SL2C) : Su2Mats (lm r) := by
  have h := su2Mats_of_eps (Zl_bracket r.l r.k)
  constructor <;> simp only [lm, conjB_mul, ← Matrix.sub_mul, ← Matrix.mul_sub, h.h01, h.h12, h.h20]

theorem su2Mats_rm (r : SL2C) : Su2Mats (rm r) := by
  have h := su2Mats_of_eps (Zr_bracket r.l r.k)
  constructor <;> simp only [rm, conjB_mul, ← Matrix.sub_mul, ← Matrix.mul_sub, h.h01, h.h12, h.h20]

theorem lm_rm (r : SL2C) (a b : Fin 3) : lm r a * rm r b = rm r b * lm r a := by
  unfold lm rm
  rw [conjB_mul, conjB_mul, Z_comm]

theorem lm_eq (r : SL2C) (a : Fin 3) :
    lm r a = (1 / 2 : ℂ) • ((rep r).X (Fin.castAdd 3 a) + (rep r).X (Fin.natAdd 3 a)) := by
  rw [rep_X, rep_X, lm, Zl_of_Z, Matrix.mul_smul, Matrix.smul_mul, Matrix.mul_add, Matrix.add_mul]

theorem rm_eq (r : SL2C) (a : Fin 3) :
    rm r a = (1 / 2 : ℂ) • ((rep r).X (Fin.castAdd 3 a) - (rep r).X (Fin.natAdd 3 a)) := by
  rw [rep_X, rep_X, rm, Zr_of_Z, Matrix.mul_smul, Matrix.smul_mul, Matrix.mul_sub, Matrix.sub_mul]

theorem X₀_castAdd (r : SL2C) (a : Fin 3) : X₀ r (Fin.castAdd 3 a) = lm r a + rm r a := by
  rw [lm_eq, rm_eq, X₀, boost_castAdd]; module

theorem X₀_natAdd (r : SL2C) (a : Fin 3) : X₀ r (Fin.natAdd 3 a) = Complex.I • (lm r a - rm r a) := by
  rw [lm_eq, rm_eq, X₀, boost_natAdd]; module

theorem lm_skew (r : SL2C) (a : Fin 3) : (lm r a)ᴴ = -lm r a := by
  rw [lm_eq, Matrix.conjTranspose_smul, Matrix.conjTranspose_add, skew, skew,
    show star (1 / 2 : ℂ) = 1 / 2 by simp]; module

theorem rm_skew (r : SL2C) (a : Fin 3) : (rm r a)ᴴ = -rm r a := by
  rw [rm_eq, Matrix.conjTranspose_smul, Matrix.conjTranspose_sub, skew, skew,
    show star (1 / 2 : ℂ) = 1 / 2 by simp]; module

theorem map_star_add {ι κ : Type*} (M N : Matrix ι κ ℂ) : (M + N).map star = M.map star + N.map star := by
  ext i j; simp

theorem map_star_conjTranspose {ι κ : Type*} (M : Matrix ι κ ℂ) : (M.map star)ᴴ = (Mᴴ).map star := by
  ext i j; simp

theorem map_star_neg {ι κ : Type*} (M : Matrix ι κ ℂ) : (-M).map star = -(M.map star) := by
  ext i j; simp

/-- The gap hypothesis holds for the call made by `SO13.continuous_generators`. -/
theorem gap (r : SL2C) {eps : ℝ} (heps : eps ≤ 1) :
    Spec.Gap eps (icobMatrix (fun i => (X₀ r i).map star) (X₀ r)) := by
  apply gap_icob
  intro μ S hS hev hμ
  set P : Fin 3 → Module.End ℂ (Matrix (Fin r.dim) (Fin r.dim) ℂ) := fun a => adOp ((lm r a).map star) (rm r a) with hP
  set Q : Fin 3 → Module.End ℂ (Matrix (Fin r.dim) (Fin r.dim) ℂ) := fun a => adOp ((rm r a).map star) (lm r a) with hQ
  have hPs : Su2Ops P := (su2Mats_lm r).conj.adOp (su2Mats_rm r)
  have hQs : Su2Ops Q := (su2Mats_rm r).conj.adOp (su2Mats_lm r)
  have hPQ : ∀ a b, P a * Q b = Q b * P a := by
    intro a b
    rw [← sub_eq_zero, hP, hQ]
    simp only
    rw [adOp_bracket, ← map_star_mul, ← map_star_mul, lm_rm, lm_rm, sub_self, sub_self]
    ext1 T
    simp [adOp_apply]
  have t1 : ∀ a, ((X₀ r (Fin.castAdd 3 a)).map star)ᴴ * ((X₀ r (Fin.castAdd 3 a)).map star * S - S * X₀ r (Fin.castAdd 3 a)) -
      ((X₀ r (Fin.castAdd 3 a)).map star * S - S * X₀ r (Fin.castAdd 3 a)) * (X₀ r (Fin.castAdd 3 a))ᴴ =
      -((P a + Q a) ((P a + Q a) S)) := by
    intro a
    have e : P a + Q a = adOp ((X₀ r (Fin.castAdd 3 a)).map star) (X₀ r (Fin.castAdd 3 a)) := by
      ext1 T
      rw [X₀_castAdd, map_star_add, LinearMap.add_apply, hP, hQ]
      simp only [adOp_apply, Matrix.add_mul, Matrix.mul_add]
      abel
    have e2 : (X₀ r (Fin.castAdd 3 a))ᴴ = -X₀ r (Fin.castAdd 3 a) := by
      rw [X₀_castAdd, Matrix.conjTranspose_add, lm_skew, rm_skew]; abel
    rw [map_star_conjTranspose, e2, map_star_neg, e, adOp_apply, adOp_apply, Matrix.neg_mul, Matrix.mul_neg]
    abel
  have t2 : ∀ a, ((X₀ r (Fin.natAdd 3 a)).map star)ᴴ * ((X₀ r (Fin.natAdd 3 a)).map star * S - S * X₀ r (Fin.natAdd 3 a)) -
      ((X₀ r (Fin.natAdd 3 a)).map star * S - S * X₀ r (Fin.natAdd 3 a)) * (X₀ r (Fin.natAdd 3 a))ᴴ =
      -((P a - Q a) ((P a - Q a) S)) := by
    intro a
    have e : (-Complex.I) • (P a - Q a) = adOp ((X₀ r (Fin.natAdd 3 a)).map star) (X₀ r (Fin.natAdd 3 a)) := by
      ext1 T
      have e3 : (Complex.I • (lm r a - rm r a)).map star = (-Complex.I) • ((lm r a).map star - (rm r a).map star) := by
        ext i j; simp
      rw [X₀_natAdd, e3, LinearMap.smul_apply, LinearMap.sub_apply, hP, hQ]
      simp only [adOp_apply, Matrix.sub_mul, Matrix.mul_sub, Matrix.smul_mul, Matrix.mul_smul]
      module
    have e2 : (X₀ r (Fin.natAdd 3 a))ᴴ = X₀ r (Fin.natAdd 3 a) := by
      rw [X₀_natAdd, Matrix.conjTranspose_smul, Matrix.conjTranspose_sub, lm_skew, rm_skew,
        show star Complex.I = -Complex.I from Complex.conj_I]; module
    rw [map_star_conjTranspose, e2, ← adOp_apply, ← adOp_apply, ← e, LinearMap.smul_apply, LinearMap.smul_apply, map_smul,
      smul_smul, show -Complex.I * -Complex.I = -1 by simp, neg_one_smul]
  have hsum : (-(μ : ℂ)) • S = (2 : ℂ) • ((cas P + cas Q) S) := by
    rw [neg_smul, ← hev, Fin.sum_univ_add (a := 3) (b := 3)]
    rw [Finset.sum_congr rfl fun a _ => t1 a, Finset.sum_congr rfl fun a _ => t2 a, Fin.sum_univ_three, Fin.sum_univ_three]
    unfold cas
    simp only [LinearMap.add_apply, LinearMap.sub_apply, Module.End.mul_apply, map_add, map_sub]
    module
  have h2 : (cas P + cas Q) S = (-((μ / 2 : ℝ) : ℂ)) • S := by
    have := congrArg (fun T => (1 / 2 : ℂ) • T) hsum
    simp only [smul_smul] at this
    norm_num at this
    rw [LinearMap.add_apply, ← this]
    push_cast
    module
  have := casimir_gap₂ hPs hQs hPQ hS h2 (by linarith)
  linarith

open Classical in
/-- The assumption can be met. -/
theorem exists_sqrtm : ∃ sqrtm : {d : ℕ} → Matrix (Fin d) (Fin d) ℂ → Matrix (Fin d) (Fin d) ℂ,
    Spec.SqrtmInvSpec sqrtm := by
  have h : ∀ {d : ℕ} (M : Matrix (Fin d) (Fin d) ℂ), ∃ W : Matrix (Fin d) (Fin d) ℂ, ∀ c : ℂ, c ≠ 0 → M * M = c • 1 →
      W * W = M ∧ W ∈ Algebra.adjoin ℂ {M} := by
    intro d M
    by_cases hM : ∃ c : ℂ, c ≠ 0 ∧ M * M = c • 1
    · obtain ⟨c, hc, hM⟩ := hM
      obtain ⟨s, hs⟩ := IsAlgClosed.exists_pow_nat_eq (-c / 4) (n := 4) (by norm_num)
      have hs0 : s ≠ 0 := by
        rintro rfl
        apply hc
        have : (0 : ℂ) ^ 4 = 0 := by norm_num
        rw [this] at hs
        linear_combination (-4) * hs.symm
      refine ⟨s • 1 + (1 / (2 * s)) • M, fun _ _ _ => ⟨?_, ?_⟩⟩
      · rw [Matrix.add_mul, Matrix.mul_add, Matrix.mul_add]
        simp only [Matrix.smul_mul, Matrix.mul_smul, Matrix.one_mul, Matrix.mul_one, hM, smul_smul]
        have e1 : s * s + 1 / (2 * s) * (1 / (2 * s)) * c = 0 := by
          field_simp
          linear_combination 4 * hs
        have e2 : s * (1 / (2 * s)) + 1 / (2 * s) * s = 1 := by
          field_simp; norm_num
        have e3 : ∀ a b c' d' : ℂ, a + d' * c = 0 → b + c' = 1 →
            a • (1 : Matrix (Fin d) (Fin d) ℂ) + b • M + (c' • M + (d' * c) • 1) = M := by
          intro a b c' d' h1 h2
          have : a • (1 : Matrix (Fin d) (Fin d) ℂ) + b • M + (c' • M + (d' * c) • 1) =
              (a + d' * c) • 1 + (b + c') • M := by module
          rw [this, h1, h2, zero_smul, zero_add, one_smul]
        rw [← mul_assoc]
        first | exact e3 _ _ _ _ e1 e2 | exact e3 _ _ _ _ e1 (by rw [add_comm]; exact e2)
      · refine add_mem ?_ ?_
        · rw [← Algebra.algebraMap_eq_smul_one]; exact Subalgebra.algebraMap_mem _ _
        · exact Subalgebra.smul_mem _ (Algebra.subset_adjoin (Set.mem_singleton M)) _
    · exact ⟨0, fun c hc hcM => absurd ⟨c, hc, hcM⟩ hM⟩
  exact ⟨fun {d} M => (h M).choose, fun {d} M c hc hM => (h M).choose_spec c hc hM⟩

theorem V_conjTranspose (l : ℕ) : (V l)ᴴ = V l := by
  have h1 : (V l)ᵀ = V l := by
    have hs : (swapM l)ᵀ = swapM l := by
      ext x y
      simp only [swapM, Matrix.transpose_apply, Matrix.submatrix_apply, id, Matrix.one_apply]
      refine if_congr ⟨?_, ?_⟩ rfl rfl <;> (rintro rfl; rfl)
    unfold V
    rw [Matrix.transpose_mul, Matrix.transpose_mul, Matrix.transpose_transpose, hs, Matrix.mul_assoc]
  calc (V l)ᴴ = ((V l).map star)ᵀ := rfl
    _ = V l := by rw [V_star, h1]

open scoped ComplexOrder in
/-- A square root of a unitary multiple of an involution is unitary. -/
theorem unitary_of_sqrt {d : ℕ} {V W : Matrix (Fin d) (Fin d) ℂ} {c : ℂ} (hc : c * star c = 1) (hV : V * V = 1)
    (hVs : Vᴴ = V) (hW : W * W = c • V) (hWS : W ∈ Algebra.adjoin ℂ {c • V}) : W * Wᴴ = 1 := by
  obtain ⟨α, β, hab⟩ : ∃ a b : ℂ, W = a • 1 + b • V := by
    refine Algebra.adjoin_induction (p := fun W _ => ∃ a b : ℂ, W = a • 1 + b • V) ?_ ?_ ?_ ?_ hWS
    · rintro x rfl
      exact ⟨0, c, by simp⟩
    · intro r
      exact ⟨r, 0, by rw [Algebra.algebraMap_eq_smul_one]; simp⟩
    · rintro x y _ _ ⟨a, b, rfl⟩ ⟨a', b', rfl⟩
      exact ⟨a + a', b + b', by rw [add_smul, add_smul]; abel⟩
    · rintro x y _ _ ⟨a, b, rfl⟩ ⟨a', b', rfl⟩
      refine ⟨a * a' + b * b', a * b' + b * a', ?_⟩
      rw [Matrix.add_mul, Matrix.mul_add, Matrix.mul_add]
      simp only [Matrix.smul_mul, Matrix.mul_smul, Matrix.one_mul, Matrix.mul_one, hV, smul_smul, add_smul]
      rw [mul_comm b' a, mul_comm b a', mul_comm b' b, mul_comm a' a]
      abel
  have hWh : Wᴴ = star α • 1 + star β • V := by
    rw [hab, Matrix.conjTranspose_add, Matrix.conjTranspose_smul, Matrix.conjTranspose_smul, hVs,
      Matrix.conjTranspose_one]
  have hcomm : Wᴴ * W = W * Wᴴ := by
    rw [hWh, hab]
    simp only [Matrix.add_mul, Matrix.mul_add, Matrix.smul_mul, Matrix.mul_smul, Matrix.one_mul, Matrix.mul_one, hV,
      smul_smul]
    module
  have hN : (W * Wᴴ) * (W * Wᴴ) = 1 := by
    calc (W * Wᴴ) * (W * Wᴴ) = W * (Wᴴ * W) * Wᴴ := by simp only [Matrix.mul_assoc]
      _ = (W * W) * (W * W)ᴴ := by rw [hcomm, Matrix.conjTranspose_mul]; simp only [Matrix.mul_assoc]
      _ = 1 := by
        rw [hW, Matrix.conjTranspose_smul, hVs, Matrix.smul_mul, Matrix.mul_smul, smul_smul, hV, hc, one_smul]
  have hpos : (1 + W * Wᴴ).PosDef := Matrix.PosDef.one.add_posSemidef (Matrix.posSemidef_self_mul_conjTranspose W)
  have hz : (1 + W * Wᴴ) * (W * Wᴴ - 1) = 0 := by
    rw [Matrix.add_mul, Matrix.mul_sub, Matrix.mul_sub, hN]
    simp
  have := (hpos.isUnit.mul_right_eq_zero).1 hz
  exact sub_eq_zero.1 this

theorem gens_spec {eigh : EighFn} (he : Spec.EighSpec eigh) {eps : ℝ} (h0 : 0 < eps) (h1 : eps ≤ 1)
    {sqrtm : {d : ℕ} → Matrix (Fin d) (Fin d) ℂ → Matrix (Fin d) (Fin d) ℂ} (hs : Spec.SqrtmInvSpec sqrtm)
    (r : SL2C) (hd : (r.dim * r.dim : ℕ) * eps ^ 2 < 1) :
    ∃ X, gens eigh eps sqrtm r = .ok X ∧ (r.l ≠ r.k → X = X₀ r) ∧
      (r.l = r.k → (∃ W : Matrix (Fin r.dim) (Fin r.dim) ℂ, IsUnit W ∧ W * Wᴴ = 1 ∧ ∀ i, X i = W * X₀ r i * W⁻¹) ∧
        ∀ i x y, (X i x y).im = 0) := by
  obtain ⟨S, hS1, hS2, hS3, hS4⟩ := inferChangeOfBasis_spec he h0 (by norm_num : (6 : ℕ) ≠ 0)
    (fun i => (X₀ r i).map star) (X₀ r) hd (gap r h1)
  have hX₀ : boost (rep r).X = X₀ r := rfl
  have hg : SL2C.gens r = .ok (rep r).X := by
    unfold rep
    simp only [gens_eq]
  unfold gens
  rw [hg, SU2.ok_bind']
  simp only [hX₀]
  rw [hS1, SU2.ok_bind']
  by_cases hlk : r.l = r.k
  · obtain ⟨l, k⟩ := r
    obtain rfl : l = k := hlk
    cases S with
    | nil =>
      exfalso
      have hV : V l ∈ Spec.intertwiners (fun i => (X₀ ⟨l, l⟩ i).map star) (X₀ ⟨l, l⟩) := V_inter l
      rw [← hS2] at hV
      have hV0 : V l = 0 := by simpa [Spec.mspan] using hV
      have h1 := V_sq l
      rw [hV0, Matrix.zero_mul] at h1
      have := congrFun (congrFun h1 0) 0
      simp at this
    | cons S₀ T =>
      have hS₀ : S₀ ∈ Spec.intertwiners (fun i => (X₀ ⟨l, l⟩ i).map star) (X₀ ⟨l, l⟩) := by
        rw [← hS2]; exact Submodule.subset_span (by simp)
      obtain ⟨c, hc⟩ := inter_eq hS₀
      have hc0 : c ≠ 0 := by
        rintro rfl
        have := hS4 ⟨0, by simp⟩ ⟨0, by simp⟩
        simp [hc] at this
      set c' : ℂ := (Real.sqrt (dim ⟨l, l⟩) : ℂ) * c with hc'
      have hc'0 : c' ≠ 0 := by
        refine mul_ne_zero ?_ hc0
        rw [Complex.ofReal_ne_zero]
        refine (Real.sqrt_pos.2 ?_).ne'
        exact_mod_cast Nat.mul_pos (Nat.succ_pos l) (Nat.succ_pos l)
      have hM : (Real.sqrt (dim ⟨l, l⟩) : ℂ) • S₀ = c' • V l := by rw [hc, smul_smul]
      obtain ⟨hW1, hW2⟩ := hs (c' • V l) (c' * c') (mul_ne_zero hc'0 hc'0)
        (by rw [Matrix.smul_mul, Matrix.mul_smul, smul_smul, V_sq])
      obtain ⟨hu, hre⟩ := real_of_sqrt hc'0 (V_sq l) (V_star l) (V_inter l) hW1 hW2
      have hcc : c' * star c' = 1 := by
        have h2 := hS4 ⟨0, by simp⟩ ⟨0, by simp⟩
        simp only [List.get_eq_getElem, List.getElem_cons_zero, if_true, hc, Matrix.conjTranspose_smul,
          V_conjTranspose, Matrix.smul_mul, Matrix.mul_smul, smul_smul, V_sq, Matrix.trace_smul, Matrix.trace_one,
          Fintype.card_fin, smul_eq_mul] at h2
        have h3 : (Real.sqrt (dim ⟨l, l⟩) : ℂ) * (Real.sqrt (dim ⟨l, l⟩) : ℂ) = (dim ⟨l, l⟩ : ℂ) := by
          rw [← Complex.ofReal_mul, Real.mul_self_sqrt (Nat.cast_nonneg _)]
          simp
        have h4 : star (Real.sqrt (dim ⟨l, l⟩) : ℂ) = (Real.sqrt (dim ⟨l, l⟩) : ℂ) := Complex.conj_ofReal _
        rw [hc', star_mul, h4]
        calc _ = (Real.sqrt (dim ⟨l, l⟩) : ℂ) * (Real.sqrt (dim ⟨l, l⟩) : ℂ) * (star c * c) := by ring
          _ = star c * c * (dim ⟨l, l⟩ : ℂ) := by rw [h3]; ring
          _ = 1 := by rw [mul_comm (star c) c]; exact h2
      have hun := unitary_of_sqrt hcc (V_sq l) (V_conjTranspose l) hW1 hW2
      dsimp only
      rw [pyAssert_of (rfl : l = l), SU2.ok_bind']
      rw [if_pos (show IsUnit (sqrtm ((Real.sqrt (dim ⟨l, l⟩) : ℂ) • S₀)) by rw [hM]; exact hu)]
      simp only [hM]
      refine ⟨_, rfl, fun h => absurd rfl h, fun _ => ⟨⟨_, hu, hun, fun i => ?_⟩, fun i x y => ?_⟩⟩
      · ext x y
        have := congrFun (congrFun (hre i) x) y
        exact Complex.conj_eq_iff_re.1 this
      · exact Complex.ofReal_im _
  · have hint : Spec.intertwiners (fun i => (X₀ r i).map star) (X₀ r) = ⊥ := by
      rw [eq_bot_iff]
      intro T hT
      exact inter_ne hlk hT
    rw [hint, finrank_bot] at hS3
    rw [List.length_eq_zero_iff.1 hS3]
    simp only
    rw [pyAssert_of hlk, SU2.ok_bind']
    exact ⟨_, rfl, fun _ => rfl, fun h => absurd h hlk⟩

/-- A similar family satisfies the same brackets. -/
theorem similar_bracket {d n : ℕ} {X Y : Fin n → Matrix (Fin d) (Fin d) ℂ} {W : Matrix (Fin d) (Fin d) ℂ}
    (hW : IsUnit W) (hY : ∀ i, Y i = W * X i * W⁻¹) {A : Fin n → Fin n → Fin n → ℂ}
    (h : ∀ i j, X i * X j - X j * X i = ∑ k, A i j k • X k) (i j : Fin n) :
    Y i * Y j - Y j * Y i = ∑ k, A i j k • Y k := by
  have hdet : IsUnit W.det := (Matrix.isUnit_iff_isUnit_det _).1 hW
  simp only [hY]
  rw [conj_bracket (Matrix.nonsing_inv_mul _ hdet), h, Matrix.mul_sum, Matrix.sum_mul]
  exact Finset.sum_congr rfl fun k _ => by rw [Matrix.mul_smul, Matrix.smul_mul]

end SO13
end LieNN
