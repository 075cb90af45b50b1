import Verif.Proofs.Rational
import Verif.Model.SympyRound
/-!
# Helper lemmas: rounding a perturbed square root of a rational
-/
namespace LieNN.Rational

/-- Error of `as_approx_integer_ratio` in all cases below `2^51`. -/
theorem asApprox_error (x : ℝ) (hx : 0 ≤ x) (h51 : x ≤ 2 ^ 51) : ∃ n d : ℤ, asApprox x = .ok (n, d) ∧ 0 < d ∧
    Int.gcd n d = 1 ∧ |(n : ℝ) / d - x| ≤ max x 1 / 2 ^ 51 := by
  obtain ⟨h1, -, h3⟩ := asApprox_spec x
  have hax : |x| = x := abs_of_nonneg hx
  rcases lt_or_ge (|x| * 2 ^ 51) 1 with h | h
  · refine ⟨0, 1, h1 h, one_pos, by decide, ?_⟩
    rw [hax] at h
    simp only [Int.cast_zero, Int.cast_one, zero_div, zero_sub, abs_neg, hax]
    rw [le_div_iff₀ (by positivity)]
    exact h.le.trans (le_max_right _ _)
  · obtain ⟨n, d, e, h4, h5, -, h6⟩ := h3 h (by rwa [hax])
    refine ⟨n, d, e, h4, h5, h6.trans ?_⟩
    rw [hax]
    gcongr
    exact le_max_left _ _

/-- The pair that is found for a perturbed rational. -/
theorem limit_noise (p q N : ℤ) (hq : 1 ≤ q) (hqN : q ≤ N ^ 2) {x δ : ℝ} (hx0 : 0 ≤ x) (h51 : x ≤ 2 ^ 51)
    (hx : |x - (p : ℝ) / q| ≤ δ) (hsmall : 2 * (δ + max x 1 / 2 ^ 51) * (q * ((N : ℝ) ^ 2 + 1)) < 1) :
    ∃ n d : ℤ, asApprox x = .ok (n, d) ∧ ∃ a b : ℤ, (∃ F : ℕ, ∀ fuel ≥ F,
      limitDenominator fuel n d (N ^ 2 + 1) = some (a, b)) ∧ 1 ≤ b ∧ Int.gcd a b = 1 ∧ (a : ℝ) / b = (p : ℝ) / q := by
  have hq' : (0 : ℝ) < q := by exact_mod_cast hq
  have hM : 1 ≤ N ^ 2 + 1 := by nlinarith [sq_nonneg N]
  obtain ⟨n, d, e, h2, h3, h4⟩ := asApprox_error x hx0 h51
  set ε := δ + max x 1 / 2 ^ 51 with hε
  have hd' : (0 : ℝ) < d := by exact_mod_cast h2
  have hnd : |(n : ℝ) / d - (p : ℝ) / q| ≤ ε := by
    calc |(n : ℝ) / d - (p : ℝ) / q| = |((n : ℝ) / d - x) + (x - (p : ℝ) / q)| := by ring_nf
      _ ≤ |(n : ℝ) / d - x| + |x - (p : ℝ) / q| := abs_add_le _ _
      _ ≤ ε := by rw [hε]; linarith
  have hε0 : 0 ≤ ε := (abs_nonneg _).trans hnd
  have gap : ∀ r t : ℤ, 1 ≤ t → t ≤ N ^ 2 + 1 → |(r : ℝ) / t - (p : ℝ) / q| ≤ 2 * ε →
      (r : ℝ) / t = (p : ℝ) / q := by
    intro r t ht1 ht2 hle
    by_contra hne
    have hg := (frac_gap r t p q (by omega) (by omega) hne).trans hle
    have ht' : (0 : ℝ) < t := by exact_mod_cast ht1
    have ht2' : (t : ℝ) ≤ (N : ℝ) ^ 2 + 1 := by exact_mod_cast ht2
    rw [div_le_iff₀ (by positivity)] at hg
    have : 2 * ε * (t * q) ≤ 2 * ε * (q * ((N : ℝ) ^ 2 + 1)) := by
      rw [mul_comm (t : ℝ) q]
      gcongr
    linarith
  have hdne : d ≠ N ^ 2 + 1 := by
    intro hd
    have h6 := gap n d (by omega) (by omega) (by linarith)
    have h7 : n * q = p * d := by
      rw [div_eq_div_iff hd'.ne' hq'.ne'] at h6
      exact_mod_cast h6
    have h8 : d ∣ q := by
      have : d ∣ n * q := ⟨p, by rw [h7, mul_comm]⟩
      exact (Int.isCoprime_iff_gcd_eq_one.2 h3).symm.dvd_of_dvd_mul_left this
    have := Int.le_of_dvd (by omega) h8
    omega
  obtain ⟨a, b, hab, hb1, hb2, hcop, hopt⟩ := limitDenominator_spec n d (N ^ 2 + 1) h2 h3 hM hdne
  have hopt1 := hopt p q hq (by omega)
  have hopt' : |(a : ℝ) / b - (n : ℝ) / d| ≤ |(p : ℝ) / q - (n : ℝ) / d| := by exact_mod_cast hopt1
  refine ⟨n, d, e, a, b, ⟨d.toNat + 1, fun fuel hf => hab fuel (by omega)⟩, hb1, hcop, gap a b hb1 hb2 ?_⟩
  rw [abs_sub_comm ((p : ℝ) / q)] at hopt'
  calc |(a : ℝ) / b - (p : ℝ) / q| = |((a : ℝ) / b - (n : ℝ) / d) + ((n : ℝ) / d - (p : ℝ) / q)| := by ring_nf
    _ ≤ |(a : ℝ) / b - (n : ℝ) / d| + |(n : ℝ) / d - (p : ℝ) / q| := abs_add_le _ _
    _ ≤ 2 * ε := by linarith

theorem sign_cast (x : ℝ) : (((SignType.sign x : SignType) : ℤ) : ℝ) = (SignType.sign x : ℝ) := by
  cases SignType.sign x <;> simp

/-- A perturbation of `y` that is small compared with `y` has its sign. -/
theorem sign_mul_sqrt_of_near {x y : ℝ} (h : y ≠ 0 → |x - y| < |y|) :
    (SignType.sign x : ℝ) * Real.sqrt (y ^ 2) = y := by
  rw [Real.sqrt_sq_eq_abs]
  by_cases hy : y = 0
  · simp [hy]
  · have h' := h hy
    have : SignType.sign x = SignType.sign y := by
      rcases lt_or_gt_of_ne hy with h0 | h0
      · rw [abs_of_neg h0, abs_lt] at h'
        rw [sign_neg h0, sign_neg (by linarith)]
      · rw [abs_of_pos h0, abs_lt] at h'
        rw [sign_pos h0, sign_pos (by linarith)]
    rw [this, sign_mul_abs]

/-- `_round_to_sqrt_rational` on a perturbed square root of a rational. -/
theorem roundSqrtAux_noise (p q N : ℤ) (hq : 1 ≤ q) (hqN : q ≤ N ^ 2) {x y δ : ℝ}
    (hy : y ^ 2 = (p : ℝ) / q) (h51 : x ^ 2 ≤ 2 ^ 51) (hx : |x ^ 2 - y ^ 2| ≤ δ)
    (hs : y ≠ 0 → |x - y| < |y|)
    (hsmall : 2 * (δ + max (x ^ 2) 1 / 2 ^ 51) * (q * ((N : ℝ) ^ 2 + 1)) < 1) :
    (∃ F : ℕ, ∀ fuel ≥ F, roundSqrtAux fuel x N = some (.ok y)) ∧
    ∃ a b : ℤ, 1 ≤ b ∧ Int.gcd a b = 1 ∧ (a : ℝ) / b = (p : ℝ) / q ∧
      ∃ F : ℕ, ∀ fuel ≥ F, symAux fuel x N = some (.ok ⟨decide ((SignType.sign x : ℤ) < 0), a, b⟩) := by
  obtain ⟨n, d, e, a, b, ⟨F, hF⟩, hb, hcop, hab⟩ :=
    limit_noise p q N hq hqN (sq_nonneg x) h51 (by rwa [← hy]) hsmall
  refine ⟨⟨F, fun fuel hf => ?_⟩, a, b, hb, hcop, hab, F, fun fuel hf => ?_⟩
  · unfold roundSqrtAux
    rw [e]
    simp only [hF fuel hf]
    rw [hab, ← hy, sign_cast, sign_mul_sqrt_of_near hs]
  · unfold symAux
    rw [e]
    simp only [hF fuel hf]

/-- The expression stands for the number that the NumPy version computes. -/
theorem symAux_value (fuel : ℕ) (x : ℝ) (N : ℤ) (hx : x ≠ 0) :
    (symAux fuel x N).map (Except.map Sym.value) = roundSqrtAux fuel x N := by
  unfold symAux roundSqrtAux
  cases asApprox (x ^ 2) with
  | error e => rfl
  | ok nd =>
    simp only
    cases limitDenominator fuel nd.1 nd.2 (N ^ 2 + 1) with
    | none => rfl
    | some r =>
      simp only [Option.map_some, Except.map, Sym.value]
      congr 2
      rcases lt_or_gt_of_ne hx with h | h
      · simp [sign_neg h]
      · simp [sign_pos h]

end LieNN.Rational
