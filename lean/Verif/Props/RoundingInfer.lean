import Verif.Proofs.RoundingInfer
import Verif.Props.Algebra
/-!
# C110: `infer_algebra_from_generators` in floating point
-/
namespace LieNN.Props

open Matrix Spec Examples

variable {n h d : ℕ} {u κ rtol atol M K τ : ℝ} {X : Fin n → Matrix (Fin d) (Fin d) ℂ}

/-- C110, consistency: without errors the runs are the results of the exact function, and these are runs for
all error bounds. -/
theorem C110_exact (X : Fin n → Matrix (Fin d) (Fin d) ℂ) (res : Option (Fin n → Fin n → Fin n → ℂ)) :
    (InferRun 0 0 rtol atol X res ↔ ∃ P, IsPinv (flatGens X) P ∧ res = inferAlgebra rtol atol X P) ∧
    ∀ P, IsPinv (flatGens X) P → ∀ u κ, 0 ≤ u → 0 ≤ κ → InferRun u κ rtol atol X (inferAlgebra rtol atol X P) := by
  have hrun : ∀ P, IsPinv (flatGens X) P → ∀ u κ, 0 ≤ u → 0 ≤ κ →
      InferRun u κ rtol atol X (inferAlgebra rtol atol X P) := by
    intro P hP u κ hu hκ
    obtain ⟨b, hb, hb'⟩ := checkAlgebraRun_exact (rtol := rtol) (atol := atol) hu (inferredAlgebra X P) X
    refine ⟨P, fun i j => commutator (X i) (X j), fun i j k =>
      ∑ p : Fin (d * d), commutator (X i) (X j) p.divNat p.modNat * P p k, b,
      ⟨P, hP, fun p k => by rwa [sub_self, norm_zero]⟩, fun i j => commRun_exact hu _ _,
      fun i j k => dotRun_exact hu _ _, hb, ?_⟩
    unfold inferAlgebra
    by_cases hc : CheckAlgebra rtol atol (inferredAlgebra X P) X
    · rw [if_pos hc, if_pos (hb'.2 hc)]
      rfl
    · rw [if_neg hc, if_neg (fun h => hc (hb'.1 h))]
  refine ⟨⟨?_, ?_⟩, hrun⟩
  · rintro ⟨P, L, Z, b, hP, hL, hZ, hb, rfl⟩
    refine ⟨P, pinvRun_zero hP, ?_⟩
    have eZ : (fun i j k => (((Z i j k).re : ℝ) : ℂ)) = inferredAlgebra X P := by
      funext i j k
      rw [← dot_zero (hZ i j k), commRun_zero (hL i j)]
      rfl
    rw [eZ] at hb ⊢
    have hb' := checkAlgebraRun_zero hb
    unfold inferAlgebra
    by_cases hc : CheckAlgebra rtol atol (inferredAlgebra X P) X
    · rw [if_pos hc, if_pos (hb'.2 hc)]
    · rw [if_neg hc, if_neg (fun h => hc (hb'.1 h))]
  · rintro ⟨P, hP, rfl⟩
    exact hrun P hP 0 0 le_rfl le_rfl

/-- C110 (soundness): whatever the error of `pinv` is, a returned tensor is real and satisfies the commutation
relations up to the tolerances and the errors of the check itself. -/
theorem C110_sound (hu : 0 ≤ u) (hu' : u ≤ 1 / 1000) (ha : 0 ≤ atol) (hr : 0 ≤ rtol)
    (hM : 0 ≤ M) (hXM : ∀ k a b, ‖X k a b‖ ≤ M) {A : Fin n → Fin n → Fin n → ℂ}
    (hA : InferRun u κ rtol atol X (some A)) :
    (∀ i j k, (A i j k).im = 0) ∧ ∀ i j a b,
      let e := 3 / 2 * ((1 + u) ^ (2 * n) - 1) * ∑ k, ‖A i j k‖ * ‖X k a b‖
      ‖(X i * X j - X j * X i) a b - ∑ k, A i j k * X k a b‖ ≤
        102 / 100 * (atol + rtol * (‖∑ k, A i j k * X k a b‖ + e)) + commErr u d M + e := by
  obtain ⟨P, L, Z, b, -, -, -, ⟨L', R, c, hL', hR, hc, hb⟩, hres⟩ := hA
  cases b with
  | false => cases hres
  | true =>
    obtain rfl := Option.some.inj hres
    refine ⟨fun i j k => Complex.ofReal_im _, fun i j p q => ?_⟩
    intro e
    have h1 := hc i j p q
    rw [hb.1 rfl i j p q] at h1
    have h2 := closeRun_le hu' ha hr h1
    have h3 : ‖R i j p q - ∑ k, (((Z i j k).re : ℝ) : ℂ) * X k p q‖ ≤ e := by
      have := dot_err hu (hR i j p q) (S := Finset.univ) (fun k hk => absurd (Finset.mem_univ k) hk)
      rwa [Finset.card_univ, Fintype.card_fin] at this
    have h4 := commRun_close hu hM (hXM i) (hXM j) (hL' i j) p q
    have h5 := norm_add_le (R i j p q - ∑ k, (((Z i j k).re : ℝ) : ℂ) * X k p q) (∑ k, (((Z i j k).re : ℝ) : ℂ) * X k p q)
    rw [sub_add_cancel] at h5
    have h6 : rtol * ‖R i j p q‖ ≤ rtol * (‖∑ k, (((Z i j k).re : ℝ) : ℂ) * X k p q‖ + e) :=
      mul_le_mul_of_nonneg_left (by linarith) hr
    have e7 : (X i * X j - X j * X i) p q - ∑ k, (((Z i j k).re : ℝ) : ℂ) * X k p q =
        -(L' i j p q - commutator (X i) (X j) p q) + (L' i j p q - R i j p q) +
          (R i j p q - ∑ k, (((Z i j k).re : ℝ) : ℂ) * X k p q) := by
      simp only [commutator]
      ring
    rw [e7]
    have h8 := norm_add_le (-(L' i j p q - commutator (X i) (X j) p q) + (L' i j p q - R i j p q))
      (R i j p q - ∑ k, (((Z i j k).re : ℝ) : ℂ) * X k p q)
    have h9 := norm_add_le (-(L' i j p q - commutator (X i) (X j) p q)) (L' i j p q - R i j p q)
    rw [norm_neg] at h9
    linarith

/-- C110 (accuracy): for linearly independent generators, closed under commutators with structure constants `c`,
a returned tensor is real and within `coeffErr` of the real part of `c`. -/
theorem C110_close (hu : 0 ≤ u) (hκ : 0 ≤ κ) (hM : 0 ≤ M) (hK : 0 ≤ K) (hX : LinearIndependent ℂ X)
    (hXM : ∀ k a b, ‖X k a b‖ ≤ M) (hPK : ∀ P, IsPinv (flatGens X) P → ∀ p k, ‖P p k‖ ≤ K)
    {c : Fin n → Fin n → Fin n → ℂ} (hc : ∀ i j, X i * X j - X j * X i = ∑ k, c i j k • X k)
    {A : Fin n → Fin n → Fin n → ℂ} (hA : InferRun u κ rtol atol X (some A)) (i j k : Fin n) :
    (A i j k).im = 0 ∧ |(A i j k).re - (c i j k).re| ≤ coeffErr u κ d M K := by
  obtain ⟨P, L, Z, b, hP, hL, hZ, -, hres⟩ := hA
  cases b with
  | false => cases hres
  | true =>
    obtain rfl := Option.some.inj hres
    refine ⟨Complex.ofReal_im _, ?_⟩
    have := (coeff_close hu hκ hM hK hX hXM hPK hc hP hL hZ i j k).1
    refine le_trans ?_ this
    rw [Complex.ofReal_re, ← Complex.sub_re]
    exact Complex.abs_re_le_norm _

/-- C110 (completeness): linearly independent generators with *real* structure constants `c` are recognised in
every run, when the absolute tolerance is above the error of the check, and the result is within `coeffErr` of
`c`. -/
theorem C110_complete (hu : 0 ≤ u) (hu' : u ≤ 1 / 1000) (hκ : 0 ≤ κ) (hr : 0 ≤ rtol) (hM : 0 ≤ M) (hK : 0 ≤ K)
    (hX : LinearIndependent ℂ X)
    (hXM : ∀ k a b, ‖X k a b‖ ≤ M) (hPK : ∀ P, IsPinv (flatGens X) P → ∀ p k, ‖P p k‖ ≤ K)
    (c : Fin n → Fin n → Fin n → ℝ) (hc : ∀ i j, X i * X j - X j * X i = ∑ k, (c i j k : ℂ) • X k)
    (htol : checkErr u κ n d M K ≤ 99 / 100 * atol) {res : Option (Fin n → Fin n → Fin n → ℂ)}
    (h : InferRun u κ rtol atol X res) :
    ∃ A : Fin n → Fin n → Fin n → ℝ, res = some (fun i j k => (A i j k : ℂ)) ∧
      ∀ i j k, |A i j k - c i j k| ≤ coeffErr u κ d M K := by
  have h' := h
  obtain ⟨P, L, Z, b, hP, hL, hZ, ⟨L', R, cc, hL', hR, hcc, hb⟩, hres⟩ := h
  have cl := coeff_close hu hκ hM hK hX hXM hPK hc hP hL hZ
  have cre : ∀ i j k, ‖(((Z i j k).re : ℝ) : ℂ) - (c i j k : ℂ)‖ ≤ coeffErr u κ d M K := by
    intro i j k
    refine le_trans ?_ (cl i j k).1
    rw [← Complex.ofReal_sub, Complex.norm_real, Real.norm_eq_abs]
    have := Complex.abs_re_le_norm (Z i j k - (c i j k : ℂ))
    rwa [Complex.sub_re, Complex.ofReal_re] at this
  have hbt : b = true := by
    refine hb.2 fun i j p q => closeRun_true hu' hr (hcc i j p q) (le_trans ?_ htol)
    have h1 := commRun_close hu hM (hXM i) (hXM j) (hL' i j) p q
    have h2 := dot_run_close hu (coeffErr_nonneg hu hκ hM hK) (coeffMax_nonneg hM hK) hM le_rfl (hR i j p q)
      (fun k => (cl i j k).2) (fun k => hXM k p q) (fun k => cre i j k) (fun k => by rw [sub_self, norm_zero])
    have e : commutator (X i) (X j) p q = ∑ k, (c i j k : ℂ) * X k p q := by
      have := congrFun (congrFun (hc i j) p) q
      simpa [commutator, Matrix.sum_apply] using this
    rw [e] at h1
    have h3 := norm_sub_le (L' i j p q - ∑ k, (c i j k : ℂ) * X k p q) (R i j p q - ∑ k, (c i j k : ℂ) * X k p q)
    rw [sub_sub_sub_cancel_right] at h3
    unfold checkErr
    linarith
  refine ⟨fun i j k => (Z i j k).re, ?_, fun i j k => ?_⟩
  · rw [hres, if_pos hbt]
  · have := cre i j k
    rwa [← Complex.ofReal_sub, Complex.norm_real, Real.norm_eq_abs] at this

/-- C110 (limit): for all sizes, bounds, tolerances and accuracies there is a bound on the errors below which
every run recognises all such generators and returns their structure constants up to the accuracy. -/
theorem C110_limit (n d : ℕ) (hM : 0 ≤ M) (hK : 0 ≤ K) (ha : 0 < atol) (hr : 0 ≤ rtol) (hτ : 0 < τ) :
    ∃ Δ > 0, ∀ u κ, 0 ≤ u → u ≤ Δ → 0 ≤ κ → κ ≤ Δ → ∀ X : Fin n → Matrix (Fin d) (Fin d) ℂ,
      LinearIndependent ℂ X → (∀ k a b, ‖X k a b‖ ≤ M) → (∀ P, IsPinv (flatGens X) P → ∀ p k, ‖P p k‖ ≤ K) →
      ∀ c : Fin n → Fin n → Fin n → ℝ, (∀ i j, X i * X j - X j * X i = ∑ k, (c i j k : ℂ) • X k) →
      ∀ res, InferRun u κ rtol atol X res → ∃ A : Fin n → Fin n → Fin n → ℝ,
        res = some (fun i j k => (A i j k : ℂ)) ∧ ∀ i j k, |A i j k - c i j k| ≤ τ := by
  have c1 : Continuous fun t : ℝ × ℝ => coeffErr t.1 t.2 d M K := by
    unfold coeffErr commErr dotErr
    fun_prop
  have c2 : Continuous fun t : ℝ × ℝ => checkErr t.1 t.2 n d M K := by
    unfold checkErr coeffErr commErr dotErr
    fun_prop
  have z1 : coeffErr 0 0 d M K = 0 := by simp [coeffErr, commErr, dotErr]
  have z2 : checkErr 0 0 n d M K = 0 := by simp [checkErr, coeffErr, commErr, dotErr]
  obtain ⟨Δ₁, hΔ₁, g₁⟩ := Metric.continuousAt_iff.1 (c1.continuousAt (x := (0, 0))) τ hτ
  obtain ⟨Δ₂, hΔ₂, g₂⟩ := Metric.continuousAt_iff.1 (c2.continuousAt (x := (0, 0))) (99 / 100 * atol) (by positivity)
  refine ⟨min (min (Δ₁ / 2) (Δ₂ / 2)) (1 / 1000), by positivity, ?_⟩
  intro u κ hu hu' hκ hκ' X hX hXM hPK c hc res h
  have hd : ∀ Δ, 0 < Δ → u ≤ Δ / 2 → κ ≤ Δ / 2 → dist (u, κ) ((0 : ℝ), (0 : ℝ)) < Δ := by
    intro Δ hΔ h1 h2
    rw [Prod.dist_eq, Real.dist_eq, Real.dist_eq, sub_zero, sub_zero, abs_of_nonneg hu, abs_of_nonneg hκ]
    exact max_lt (by linarith) (by linarith)
  have b1 := g₁ (hd Δ₁ hΔ₁ (hu'.trans ((min_le_left _ _).trans (min_le_left _ _))) (hκ'.trans ((min_le_left _ _).trans (min_le_left _ _))))
  have b2 := g₂ (hd Δ₂ hΔ₂ (hu'.trans ((min_le_left _ _).trans (min_le_right _ _))) (hκ'.trans ((min_le_left _ _).trans (min_le_right _ _))))
  simp only [z1, z2, Real.dist_eq, sub_zero] at b1 b2
  obtain ⟨A, hA, hA'⟩ := C110_complete hu (hu'.trans (min_le_right _ _)) hκ hr hM hK hX hXM hPK c hc
    ((le_abs_self _).trans b2.le) h
  exact ⟨A, hA, fun i j k => (hA' i j k).trans ((le_abs_self _).trans b1.le)⟩

/-- C110: `from_generators` may return `r` exactly when the inference with the default tolerances may return its
algebra and the generators are those given; it may return `None` exactly when the inference may. -/
theorem C110_from_generators (H : Fin h → Matrix (Fin d) (Fin d) ℂ) :
    (∀ r : Rep n h d, FromGeneratorsRun u κ X H (some r) ↔
      InferRun u κ (1 / 10 ^ 10) (1 / 10 ^ 10) X (some r.A) ∧ r.X = X ∧ r.H = H) ∧
    (FromGeneratorsRun u κ X H none ↔ InferRun u κ (1 / 10 ^ 10) (1 / 10 ^ 10) X none) := by
  constructor
  · intro r
    constructor
    · rintro ⟨A, hA, h⟩
      cases A with
      | none => cases h
      | some A =>
        obtain rfl := Option.some.inj h
        exact ⟨hA, rfl, rfl⟩
    · rintro ⟨hA, rfl, rfl⟩
      exact ⟨_, hA, rfl⟩
  · constructor
    · rintro ⟨A, hA, h⟩
      cases A with
      | none => exact hA
      | some A => cases h
    · exact fun hA => ⟨_, hA, rfl⟩

theorem su2_entry_le : ∀ k a b, ‖su2.X k a b‖ ≤ 1 / 2 := by
  intro k a b
  fin_cases k <;> fin_cases a <;> fin_cases b <;> norm_num [su2]

theorem su2_pinv_le : ∀ P, IsPinv (flatGens su2.X) P → ∀ p k, ‖P p k‖ ≤ 1 := by
  intro P hP p k
  rw [pinv_unique hP su2_isPinv, Matrix.smul_apply, conjTranspose_apply, norm_smul, norm_star]
  have := su2_entry_le k p.divNat p.modNat
  have e : ‖(2 : ℂ)‖ = 2 := by norm_num
  rw [e]
  unfold flatGens
  linarith

/-- C110: on the spin-1/2 generators in `float64`, with a pseudo-inverse correct to twelve decimals and the
default tolerances, `from_generators` returns in every run a representation with the given generators and the
structure constants `ε_ijk` up to `1e-11`. -/
theorem C110_su2_float64 (H : Fin h → Matrix (Fin 2) (Fin 2) ℂ) {res : Option (Rep 3 h 2)}
    (hres : FromGeneratorsRun (1 / 2 ^ 53) (1 / 10 ^ 12) su2.X H res) :
    ∃ A : Fin 3 → Fin 3 → Fin 3 → ℝ, res = some ⟨fun i j k => (A i j k : ℂ), su2.X, H⟩ ∧
      ∀ i j k, |A i j k - (su2.A i j k).re| ≤ 1 / 10 ^ 11 := by
  obtain ⟨A, hA, rfl⟩ := hres
  obtain ⟨B, rfl, hB⟩ := C110_complete (by positivity) (by norm_num) (by positivity) (by positivity) (M := 1 / 2) (K := 1)
    (by norm_num) zero_le_one su2_independent su2_entry_le su2_pinv_le (fun i j k => (su2.A i j k).re)
    (fun i j => by
      rw [su2_isRep i j]
      refine Finset.sum_congr rfl fun k _ => ?_
      congr 1
      exact Complex.ext rfl (by rw [su2_real i j k]; simp))
    (by norm_num [checkErr, coeffErr, coeffMax, commErr, dotErr]) hA
  exact ⟨B, rfl, fun i j k => (hB i j k).trans (by norm_num [coeffErr, commErr, dotErr])⟩

/-- Non-vacuity: there is such a run. -/
example (H : Fin h → Matrix (Fin 2) (Fin 2) ℂ) :
    ∃ res, FromGeneratorsRun (1 / 2 ^ 53) (1 / 10 ^ 12) su2.X H res :=
  ⟨_, _, (C110_exact su2.X none).2 _ su2_isPinv _ _ (by positivity) (by positivity), rfl⟩

/-- C110 (defect): rounding does not rescue hermitian generators; their structure constants are imaginary and
every run returns `None`. -/
theorem C110_complex_false {res : Option (Fin 3 → Fin 3 → Fin 3 → ℂ)}
    (hres : InferRun (1 / 2 ^ 53) (1 / 10 ^ 12) (1 / 10 ^ 10) (1 / 10 ^ 10) hermitianSpin res) : res = none := by
  cases res with
  | none => rfl
  | some A =>
    exfalso
    obtain ⟨hlin, hcomm, -⟩ := C18_infer_algebra_complex_false
    have hM : ∀ k a b, ‖hermitianSpin k a b‖ ≤ 1 / 2 := fun k a b => by
      have := su2_entry_le k a b
      simpa [hermitianSpin] using this
    have hp : IsPinv (flatGens hermitianSpin) ((2 : ℂ) • (flatGens hermitianSpin)ᴴ) := by
      have e : flatGens hermitianSpin = Complex.I • flatGens su2.X := by
        ext k p
        simp [flatGens, hermitianSpin]
      have e2 : (2 : ℂ) • (Complex.I • flatGens su2.X)ᴴ = (-Complex.I) • ((2 : ℂ) • (flatGens su2.X)ᴴ) := by
        rw [conjTranspose_smul, smul_comm]
        simp
      rw [e, e2]
      exact isPinv_I su2_isPinv
    have hK : ∀ P, IsPinv (flatGens hermitianSpin) P → ∀ p k, ‖P p k‖ ≤ 1 := by
      intro P hP p k
      rw [pinv_unique hP hp, Matrix.smul_apply, conjTranspose_apply, norm_smul, norm_star]
      have := hM k p.divNat p.modNat
      have e : ‖(2 : ℂ)‖ = 2 := by norm_num
      rw [e]
      unfold flatGens
      linarith
    have hA : ∀ k, ‖A 0 1 k‖ ≤ 1 / 10 ^ 11 := by
      intro k
      have h1 := C110_close (by positivity) (by positivity) (M := 1 / 2) (K := 1) (by norm_num) zero_le_one hlin hM hK
        hcomm hres 0 1 k
      have e : (A 0 1 k) = (((A 0 1 k).re : ℝ) : ℂ) := Complex.ext rfl (by rw [h1.1]; simp)
      have e2 : (Complex.I * su2.A 0 1 k).re = 0 := by simp [Complex.mul_re, su2_real 0 1 k]
      rw [e, Complex.norm_real, Real.norm_eq_abs]
      have h2 := h1.2
      rw [e2, sub_zero] at h2
      exact h2.trans (by norm_num [coeffErr, commErr, dotErr])
    have hs := (C110_sound (by positivity) (by norm_num) (by positivity) (by positivity) (M := 1 / 2) (by norm_num) hM
      hres).2 0 1 0 0
    simp only at hs
    have hS : ∑ k, ‖A 0 1 k‖ * ‖hermitianSpin k 0 0‖ ≤ 1 / 10 ^ 10 := by
      rw [Fin.sum_univ_three]
      have : ∀ k, ‖A 0 1 k‖ * ‖hermitianSpin k 0 0‖ ≤ 1 / 10 ^ 11 * (1 / 2) := fun k =>
        mul_le_mul (hA k) (hM k 0 0) (norm_nonneg _) (by positivity)
      have h0 := this 0
      have h1 := this 1
      have h2 := this 2
      norm_num at *
      linarith
    have hS2 : ‖∑ k, A 0 1 k * hermitianSpin k 0 0‖ ≤ 1 / 10 ^ 10 := by
      refine (norm_sum_le _ _).trans ?_
      simpa only [norm_mul] using hS
    have hv : (hermitianSpin 0 * hermitianSpin 1 - hermitianSpin 1 * hermitianSpin 0) 0 0 = Complex.I / 2 := by
      simp [hermitianSpin, su2]
      ring_nf
      simp
      try ring
    have hl := norm_sub_norm_le (Complex.I / 2) (∑ k, A 0 1 k * hermitianSpin k 0 0)
    rw [hv] at hs
    have hn : ‖Complex.I / 2‖ = 1 / 2 := by norm_num
    rw [hn] at hl
    have hg : 3 / 2 * ((1 + 1 / 2 ^ 53) ^ (2 * 3) - 1) * ∑ k, ‖A 0 1 k‖ * ‖hermitianSpin k 0 0‖ ≤
        3 / 2 * ((1 + 1 / 2 ^ 53) ^ (2 * 3) - 1) * (1 / 10 ^ 10 : ℝ) :=
      mul_le_mul_of_nonneg_left hS (by norm_num)
    have hce : commErr (1 / 2 ^ 53) 2 (1 / 2) ≤ 1 / 10 ^ 10 := by norm_num [commErr, dotErr]
    norm_num at *
    linarith

end LieNN.Props
