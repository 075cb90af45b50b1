import Verif.Proofs.Recompute
import Verif.Proofs.SO13Gap
import Verif.Proofs.TBTable

/-!
# The gap hypothesis of the generic `clebsch_gordan` for the tabulated irreps
-/
namespace LieNN.CGSpace

open LieNN.Spec Matrix Module

variable {n h d d₁ d₂ d₃ : ℕ} {eigh : EighFn}

theorem adOp_zero_add {ι κ : Type*} [Fintype ι] [Fintype κ] (F : Matrix ι ι ℂ) (G : Matrix κ κ ℂ) (S : Matrix ι κ ℂ)
    (hF : Fᴴ = -F) (hG : Gᴴ = -G) : Fᴴ * (F * S - S * G) - (F * S - S * G) * Gᴴ = -((adOp F G * adOp F G) S) := by
  rw [Module.End.mul_apply, adOp_apply, adOp_apply, hF, hG, Matrix.neg_mul, Matrix.mul_neg]
  abel

/-- The normal equations, continuous and discrete parts apart. -/
theorem gap_allGens {r₃ : Rep n h d₃} {R : Rep n h d} (s₃ : ∀ a, (r₃.X a)ᴴ = -r₃.X a)
    (sR : ∀ a, (R.X a)ᴴ = -R.X a) {eps : ℝ}
    (H : ∀ (μ : ℝ) (S : Matrix (Fin d₃) (Fin d) ℂ), S ≠ 0 →
      (∑ b, ((r₃.H b)ᴴ * (r₃.H b * S - S * R.H b) - (r₃.H b * S - S * R.H b) * (R.H b)ᴴ)) -
        (∑ a, adOp (r₃.X a) (R.X a) * adOp (r₃.X a) (R.X a)) S = (μ : ℂ) • S → 0 < μ → eps ≤ μ) :
    Gap eps (icobMatrix r₃.allGens R.allGens) := by
  apply gap_icob
  intro μ S hS hev hμ
  refine H μ S hS ?_ hμ
  rw [← hev, Fin.sum_univ_add]
  simp only [Rep.allGens, Fin.append_left, Fin.append_right]
  rw [Finset.sum_congr rfl fun a _ => adOp_zero_add (r₃.X a) (R.X a) S (s₃ a) (sR a)]
  rw [Finset.sum_neg_distrib, LinearMap.sum_apply]
  abel

theorem su2Mats_of_isRep {r : Rep 3 h d} (hA : r.A = SU2.algebra) (hr : IsRep r) : Su2Mats r.X := by
  have key : ∀ i j : Fin 3, r.X i * r.X j - r.X j * r.X i = ∑ k, SU2.algebra i j k • r.X k := by
    intro i j
    rw [hr i j, hA]
  refine ⟨?_, ?_, ?_⟩ <;> rw [key, Fin.sum_univ_three] <;> simp [SU2.algebra]

theorem cas_eq {E : Type*} [AddCommGroup E] [Module ℂ E] (D : Fin 3 → Module.End ℂ E) :
    ∑ a, D a * D a = cas D := by
  rw [Fin.sum_univ_three]; rfl

/-- Three generators with the brackets of `su(2)` and scalar discrete generators. -/
theorem gap_su2 {r₃ : Rep 3 h d₃} {R : Rep 3 h d} (m₃ : Su2Mats r₃.X) (mR : Su2Mats R.X)
    (s₃ : ∀ a, (r₃.X a)ᴴ = -r₃.X a) (sR : ∀ a, (R.X a)ᴴ = -R.X a) (p q : Fin h → ℤ)
    (h₃ : ∀ b, r₃.H b = (p b : ℂ) • 1) (hR : ∀ b, R.H b = (q b : ℂ) • 1) {eps : ℝ} (heps : eps ≤ 3 / 4) :
    Gap eps (icobMatrix r₃.allGens R.allGens) := by
  refine gap_allGens s₃ sR fun μ S hS hev hμ => ?_
  have e1 : ∀ b, ((r₃.H b)ᴴ * (r₃.H b * S - S * R.H b) - (r₃.H b * S - S * R.H b) * (R.H b)ᴴ) =
      (((p b - q b) ^ 2 : ℤ) : ℂ) • S := by
    intro b
    rw [h₃, hR, conjTranspose_smul, conjTranspose_smul, conjTranspose_one, conjTranspose_one]
    simp only [Matrix.smul_mul, Matrix.mul_smul, Matrix.one_mul, Matrix.mul_one, star_intCast]
    push_cast
    module
  rw [Finset.sum_congr rfl fun b _ => e1 b, ← Finset.sum_smul, cas_eq] at hev
  set N : ℤ := ∑ b, (p b - q b) ^ 2 with hN
  have hN0 : 0 ≤ N := Finset.sum_nonneg fun b _ => sq_nonneg _
  have e2 : cas (fun a => adOp (r₃.X a) (R.X a)) S = (-((μ - N : ℝ) : ℂ)) • S := by
    have e3 : (∑ b, (((p b - q b) ^ 2 : ℤ) : ℂ)) = (N : ℂ) := by rw [hN]; push_cast; rfl
    rw [e3] at hev
    have : cas (fun a => adOp (r₃.X a) (R.X a)) S = (N : ℂ) • S - (μ : ℂ) • S := by rw [← hev]; abel
    rw [this]
    push_cast
    module
  obtain ⟨m, hm⟩ := casimir_nat (m₃.adOp mR) hS e2
  have hm' : μ - N = (m : ℝ) / 2 * (m / 2 + 1) := by
    apply Complex.ofReal_injective
    rw [hm]; push_cast; ring
  have hm0 : (0 : ℝ) ≤ (m : ℝ) / 2 * (m / 2 + 1) := by positivity
  rcases hN0.eq_or_lt with h0 | h0
  · rw [← h0, Int.cast_zero, sub_zero] at hm'
    rw [hm'] at hμ ⊢
    exact heps.trans (nat_gap hμ.ne')
  · have : (1 : ℝ) ≤ N := by exact_mod_cast h0
    linarith

/-- The halves of the sum and of the difference of the two triples of generators. -/
noncomputable def lh (r : Rep 6 0 d) (a : Fin 3) : Matrix (Fin d) (Fin d) ℂ :=
  (1 / 2 : ℂ) • (r.X (Fin.castAdd 3 a) + r.X (Fin.natAdd 3 a))

noncomputable def rh (r : Rep 6 0 d) (a : Fin 3) : Matrix (Fin d) (Fin d) ℂ :=
  (1 / 2 : ℂ) • (r.X (Fin.castAdd 3 a) - r.X (Fin.natAdd 3 a))

theorem sl2c_brackets {r : Rep 6 0 d} (hA : r.A = SL2C.algebra) (hr : IsRep r) :
    Su2Mats (lh r) ∧ Su2Mats (rh r) ∧ ∀ a b, lh r a * rh r b = rh r b * lh r a := by
  have key : ∀ i j : Fin 6, r.X i * r.X j - r.X j * r.X i = ∑ k, (SL2C.algZ 1 i j k : ℂ) • r.X k := by
    intro i j
    rw [hr i j, hA]
    rfl
  have tab := SL2C.algZ_XX 1 (by simp)
  set J : Fin 3 → Matrix (Fin d) (Fin d) ℂ := fun a => r.X (Fin.castAdd 3 a) with hJ
  set K : Fin 3 → Matrix (Fin d) (Fin d) ℂ := fun a => r.X (Fin.natAdd 3 a) with hK
  have kk : ∀ i j : Fin 6, r.X i * r.X j - r.X j * r.X i =
      ∑ c : Fin 3, (SL2C.algZ 1 i j (Fin.castAdd 3 c) : ℂ) • J c +
        ∑ c : Fin 3, (SL2C.algZ 1 i j (Fin.natAdd 3 c) : ℂ) • K c := by
    intro i j
    rw [key, Fin.sum_univ_add (a := 3) (b := 3)]
  have b1 : ∀ a b, J a * J b - J b * J a = ∑ c, (SL2C.epsZ a b c : ℂ) • J c := by
    intro a b
    rw [hJ]
    simp only
    rw [kk]
    simp only [tab, Int.cast_zero, zero_smul, Finset.sum_const_zero, add_zero] <;> rfl
  have b2 : ∀ a b, J a * K b - K b * J a = ∑ c, (SL2C.epsZ a b c : ℂ) • K c := by
    intro a b
    rw [hJ, hK]
    simp only
    rw [kk]
    simp only [tab, Int.cast_zero, zero_smul, Finset.sum_const_zero, zero_add] <;> rfl
  have b3 : ∀ a b, K a * J b - J b * K a = ∑ c, (SL2C.epsZ a b c : ℂ) • K c := by
    intro a b
    rw [hJ, hK]
    simp only
    rw [kk]
    simp only [tab, Int.cast_zero, zero_smul, Finset.sum_const_zero, zero_add] <;> rfl
  have b4 : ∀ a b, K a * K b - K b * K a = ∑ c, (SL2C.epsZ a b c : ℂ) • J c := by
    intro a b
    rw [hK]
    simp only
    rw [kk]
    simp only [tab, Int.cast_zero, zero_smul, Finset.sum_const_zero, add_zero, one_mul] <;> rfl
  have el : ∀ a, lh r a = (1 / 2 : ℂ) • (J a + K a) := fun _ => rfl
  have er : ∀ a, rh r a = (1 / 2 : ℂ) • (J a - K a) := fun _ => rfl
  refine ⟨SO13.su2Mats_of_eps fun a b => ?_, SO13.su2Mats_of_eps fun a b => ?_, fun a b => ?_⟩
  · have e : lh r a * lh r b - lh r b * lh r a = (1 / 4 : ℂ) • ((J a * J b - J b * J a) + (J a * K b - K b * J a) +
        (K a * J b - J b * K a) + (K a * K b - K b * K a)) := by
      simp only [el, Matrix.smul_mul, Matrix.mul_smul, Matrix.add_mul, Matrix.mul_add]
      module
    rw [e, b1, b2, b3, b4]
    simp only [el, smul_add, Finset.sum_add_distrib, Finset.smul_sum, smul_comm _ (1 / 2 : ℂ),
      smul_comm _ (1 / 4 : ℂ), ← Finset.smul_sum]
    module
  · have e : rh r a * rh r b - rh r b * rh r a = (1 / 4 : ℂ) • ((J a * J b - J b * J a) - (J a * K b - K b * J a) -
        (K a * J b - J b * K a) + (K a * K b - K b * K a)) := by
      simp only [er, Matrix.smul_mul, Matrix.mul_smul, Matrix.sub_mul, Matrix.mul_sub]
      module
    rw [e, b1, b2, b3, b4]
    simp only [er, smul_sub, smul_add, Finset.sum_sub_distrib, Finset.smul_sum, smul_comm _ (1 / 2 : ℂ),
      smul_comm _ (1 / 4 : ℂ), ← Finset.smul_sum]
    module
  · have e : lh r a * rh r b - rh r b * lh r a = (1 / 4 : ℂ) • ((J a * J b - J b * J a) - (J a * K b - K b * J a) +
        (K a * J b - J b * K a) - (K a * K b - K b * K a)) := by
      simp only [el, er, Matrix.smul_mul, Matrix.mul_smul, Matrix.sub_mul, Matrix.mul_sub, Matrix.add_mul, Matrix.mul_add]
      module
    rw [← sub_eq_zero, e, b1, b2, b3, b4]
    module

/-- The algebra of `SL2C`. -/
theorem gap_sl2c {r₃ : Rep 6 0 d₃} {R : Rep 6 0 d} (a₃ : r₃.A = SL2C.algebra) (i₃ : IsRep r₃)
    (aR : R.A = SL2C.algebra) (iR : IsRep R)
    (s₃ : ∀ a, (r₃.X a)ᴴ = -r₃.X a) (sR : ∀ a, (R.X a)ᴴ = -R.X a) {eps : ℝ} (heps : eps ≤ 3 / 4) :
    Gap eps (icobMatrix r₃.allGens R.allGens) := by
  refine gap_allGens s₃ sR fun μ S hS hev hμ => ?_
  obtain ⟨l3, r3, c3⟩ := sl2c_brackets a₃ i₃
  obtain ⟨lR, rR, cR⟩ := sl2c_brackets aR iR
  set P : Fin 3 → Module.End ℂ (Matrix (Fin d₃) (Fin d) ℂ) := fun a => adOp (lh r₃ a) (lh R a) with hP
  set Q : Fin 3 → Module.End ℂ (Matrix (Fin d₃) (Fin d) ℂ) := fun a => adOp (rh r₃ a) (rh R a) with hQ
  have hPQ : ∀ a b, P a * Q b = Q b * P a := by
    intro a b
    rw [← sub_eq_zero, hP, hQ]
    simp only
    rw [adOp_bracket, c3, cR, sub_self, sub_self]
    ext1 T
    simp [adOp_apply]
  have x1 : ∀ a : Fin 3, adOp (r₃.X (Fin.castAdd 3 a)) (R.X (Fin.castAdd 3 a)) = P a + Q a := by
    intro a
    ext1 T
    rw [LinearMap.add_apply, hP, hQ]
    simp only [adOp_apply, lh, rh, Matrix.smul_mul, Matrix.mul_smul, Matrix.add_mul, Matrix.mul_add, Matrix.sub_mul, Matrix.mul_sub]
    module
  have x2 : ∀ a : Fin 3, adOp (r₃.X (Fin.natAdd 3 a)) (R.X (Fin.natAdd 3 a)) = P a - Q a := by
    intro a
    ext1 T
    rw [LinearMap.sub_apply, hP, hQ]
    simp only [adOp_apply, lh, rh, Matrix.smul_mul, Matrix.mul_smul, Matrix.add_mul, Matrix.mul_add, Matrix.sub_mul, Matrix.mul_sub]
    module
  have hsum : ∑ a, adOp (r₃.X a) (R.X a) * adOp (r₃.X a) (R.X a) = (2 : ℂ) • (cas P + cas Q) := by
    rw [Fin.sum_univ_add (a := 3) (b := 3)]
    simp only [x1, x2]
    rw [Fin.sum_univ_three, Fin.sum_univ_three]
    unfold cas
    simp only [add_mul, mul_add, sub_mul, mul_sub]
    module
  have h2 : (cas P + cas Q) S = (-((μ / 2 : ℝ) : ℂ)) • S := by
    rw [hsum, Finset.univ_eq_empty, Finset.sum_empty, zero_sub, LinearMap.smul_apply] at hev
    have := congrArg (fun T => (-(1 / 2) : ℂ) • T) hev
    simp only [smul_neg, neg_smul, neg_neg, smul_smul] at this
    norm_num at this
    rw [LinearMap.add_apply, add_comm, this]
    push_cast
    module
  have := casimir_gap₂ (l3.adOp lR) (r3.adOp rR) hPQ hS h2 (by linarith)
  linarith

end LieNN.CGSpace
