import Verif.Proofs.RoundNoise
import Verif.Props.Rational
/-!
# C102: rounding removes noise; the SymPy version
-/
namespace LieNN.Props
open LieNN.Rational

/-- `ε` is a perturbation of `y` that `round_to_sqrt_rational` with denominators up to `N²` can undo. -/
def Removable (y ε : ℝ) (q N : ℤ) : Prop :=
  0 ≤ ε ∧ 2 * (ε * (2 * |y| + ε) + max ((|y| + ε) ^ 2) 1 / 2 ^ 51) * (q * ((N : ℝ) ^ 2 + 1)) < 1

theorem noise_hyps {p q N : ℤ} (hq : 1 ≤ q) {x y ε : ℝ} (hy : y ^ 2 = (p : ℝ) / q) (hx : |x - y| ≤ ε)
    (hε : Removable y ε q N) : x ^ 2 ≤ 2 ^ 51 ∧ |x ^ 2 - y ^ 2| ≤ ε * (2 * |y| + ε) ∧ (y ≠ 0 → |x - y| < |y|) ∧
    2 * (ε * (2 * |y| + ε) + max (x ^ 2) 1 / 2 ^ 51) * (q * ((N : ℝ) ^ 2 + 1)) < 1 := by
  obtain ⟨h0, h1⟩ := hε
  have hq1 : (1 : ℝ) ≤ q := by exact_mod_cast hq
  have hN : (1 : ℝ) ≤ (N : ℝ) ^ 2 + 1 := by nlinarith [sq_nonneg (N : ℝ)]
  have hQ : (1 : ℝ) ≤ q * ((N : ℝ) ^ 2 + 1) := by nlinarith
  have hxa : |x| ≤ |y| + ε := by
    have := abs_sub_abs_le_abs_sub x y
    linarith
  have hx2 : x ^ 2 ≤ (|y| + ε) ^ 2 := by
    rw [← sq_abs x]
    exact pow_le_pow_left₀ (abs_nonneg x) hxa 2
  have hsum : |x + y| ≤ 2 * |y| + ε := by
    have := abs_add_le x y
    linarith
  have hle : 2 * (ε * (2 * |y| + ε) + max (x ^ 2) 1 / 2 ^ 51) * (q * ((N : ℝ) ^ 2 + 1)) ≤
      2 * (ε * (2 * |y| + ε) + max ((|y| + ε) ^ 2) 1 / 2 ^ 51) * (q * ((N : ℝ) ^ 2 + 1)) := by
    gcongr
  have hp1 : 0 ≤ ε * (2 * |y| + ε) := mul_nonneg h0 (by positivity)
  have hm : 0 ≤ max (x ^ 2) 1 / 2 ^ 51 := by positivity
  have hlt : 2 * (ε * (2 * |y| + ε) + max (x ^ 2) 1 / 2 ^ 51) < 1 := by
    have : 2 * (ε * (2 * |y| + ε) + max (x ^ 2) 1 / 2 ^ 51) * 1 ≤
        2 * (ε * (2 * |y| + ε) + max (x ^ 2) 1 / 2 ^ 51) * (q * ((N : ℝ) ^ 2 + 1)) := by gcongr
    linarith
  refine ⟨?_, ?_, ?_, lt_of_le_of_lt hle h1⟩
  · have h3 : max (x ^ 2) 1 / 2 ^ 51 < 1 := by linarith
    rw [div_lt_one (by positivity)] at h3
    exact (le_max_left _ _).trans h3.le
  · rw [show x ^ 2 - y ^ 2 = (x - y) * (x + y) by ring, abs_mul]
    exact mul_le_mul hx hsum (abs_nonneg _) h0
  · intro hy0
    refine lt_of_le_of_lt hx ?_
    have hp : 1 ≤ p := by
      have : 0 < (p : ℝ) / q := by
        rw [← hy]
        positivity
      have h4 : (0 : ℝ) < p := by
        rcases div_pos_iff.1 this with h | h
        · exact h.1
        · linarith [h.2]
      exact_mod_cast h4
    have hyq : 1 ≤ |y| ^ 2 * q := by
      rw [sq_abs, hy, div_mul_cancel₀ _ (by linarith)]
      exact_mod_cast hp
    by_contra hc
    have hc' : |y| ≤ ε := not_lt.1 hc
    have h5 : |y| ^ 2 ≤ ε * (2 * |y| + ε) := by nlinarith [abs_nonneg y]
    have h6 : |y| ^ 2 * q ≤ ε * (2 * |y| + ε) * (q * ((N : ℝ) ^ 2 + 1)) := by
      have : |y| ^ 2 * q * 1 ≤ ε * (2 * |y| + ε) * q * ((N : ℝ) ^ 2 + 1) := by gcongr
      linarith
    have h7 : 0 ≤ max ((|y| + ε) ^ 2) 1 / 2 ^ 51 * (q * ((N : ℝ) ^ 2 + 1)) := by positivity
    nlinarith

/-- C102: `round_to_sqrt_rational` recovers `y = ±√(p/q)`, `q ≤ max_denominator²`, exactly from every number that is
close enough to it. -/
theorem C102_recovers {p q N : ℤ} (hq : 1 ≤ q) (hqN : q ≤ N ^ 2) {x y ε : ℝ} (hy : y ^ 2 = (p : ℝ) / q)
    (hx : |x - y| ≤ ε) (hε : Removable y ε q N) :
    ∃ F : ℕ, ∀ fuel ≥ F, roundSqrt fuel (x : ℂ) N = some (.ok (y : ℂ)) := by
  obtain ⟨h1, h2, h3, h4⟩ := noise_hyps hq hy hx hε
  obtain ⟨⟨F, hF⟩, -⟩ := roundSqrtAux_noise p q N hq hqN hy h1 h2 h3 h4
  refine ⟨F, fun fuel hf => ?_⟩
  simp only [roundSqrt, Complex.ofReal_im, ne_eq, not_true, if_false, Complex.ofReal_re, hF fuel hf]
  rfl

/-- C102 for complex numbers: noise is removed from both parts, also when the noise makes a real number complex. -/
theorem C102_recovers_complex {p q p' q' N : ℤ} (hq : 1 ≤ q) (hqN : q ≤ N ^ 2) (hq' : 1 ≤ q') (hqN' : q' ≤ N ^ 2)
    {z w : ℂ} {ε : ℝ} (hre : w.re ^ 2 = (p : ℝ) / q) (him : w.im ^ 2 = (p' : ℝ) / q')
    (hx : |z.re - w.re| ≤ ε) (hx' : |z.im - w.im| ≤ ε) (hε : Removable w.re ε q N) (hε' : Removable w.im ε q' N) :
    ∃ F : ℕ, ∀ fuel ≥ F, roundSqrt fuel z N = some (.ok w) := by
  obtain ⟨h1, h2, h3, h4⟩ := noise_hyps hq hre hx hε
  obtain ⟨⟨F, hF⟩, -⟩ := roundSqrtAux_noise p q N hq hqN hre h1 h2 h3 h4
  obtain ⟨h1', h2', h3', h4'⟩ := noise_hyps hq' him hx' hε'
  obtain ⟨⟨F', hF'⟩, -⟩ := roundSqrtAux_noise p' q' N hq' hqN' him h1' h2' h3' h4'
  refine ⟨max F F', fun fuel hf => ?_⟩
  have e := hF fuel ((le_max_left _ _).trans hf)
  have e' := hF' fuel ((le_max_right _ _).trans hf)
  unfold roundSqrt
  by_cases hz : z.im ≠ 0
  · rw [if_pos hz, e, e']
  · rw [if_neg hz, e]
    have hw : w.im = 0 := by
      by_contra hne
      have := h3' hne
      rw [not_not.1 hz, zero_sub, abs_neg] at this
      exact lt_irrefl _ this
    simp only [Option.some.injEq, Except.ok.injEq]
    exact Complex.ext rfl hw.symm

/-- C102 at the default `max_denominator = 4096`: coefficients `±√(p/q)` of absolute value at most two with `q ≤ 1000`
are recovered from errors up to `5·10⁻¹²`. -/
theorem C102_default {p q : ℤ} (hq : 1 ≤ q) (hq2 : q ≤ 1000) (hpq : p ≤ 4 * q) {x y : ℝ} (hy : y ^ 2 = (p : ℝ) / q)
    (hx : |x - y| ≤ 5 / 10 ^ 12) :
    ∃ F : ℕ, ∀ fuel ≥ F, roundSqrt fuel (x : ℂ) 4096 = some (.ok (y : ℂ)) := by
  refine C102_recovers hq (by norm_num; omega) hy hx ⟨by norm_num, ?_⟩
  have hq1 : (1 : ℝ) ≤ q := by exact_mod_cast hq
  have hq2' : (q : ℝ) ≤ 1000 := by exact_mod_cast hq2
  have hy2 : |y| ≤ 2 := by
    have : y ^ 2 ≤ 4 := by
      rw [hy, div_le_iff₀ (by linarith)]
      exact_mod_cast hpq
    exact abs_le_of_sq_le_sq (by linarith) (by norm_num)
  have h1 : 5 / 10 ^ 12 * (2 * |y| + 5 / 10 ^ 12) ≤ 5 / 10 ^ 12 * (2 * 2 + 5 / 10 ^ 12) := by gcongr
  have h2 : max ((|y| + 5 / 10 ^ 12) ^ 2) 1 ≤ (5 : ℝ) := by
    refine max_le ?_ (by norm_num)
    calc (|y| + 5 / 10 ^ 12) ^ 2 ≤ (2 + 5 / 10 ^ 12) ^ 2 := by gcongr
      _ ≤ 5 := by norm_num
  calc 2 * (5 / 10 ^ 12 * (2 * |y| + 5 / 10 ^ 12) + max ((|y| + 5 / 10 ^ 12) ^ 2) 1 / 2 ^ 51) *
        (q * (((4096 : ℤ) : ℝ) ^ 2 + 1))
      ≤ 2 * (5 / 10 ^ 12 * (2 * 2 + 5 / 10 ^ 12) + 5 / 2 ^ 51) * (1000 * (((4096 : ℤ) : ℝ) ^ 2 + 1)) := by gcongr
    _ < 1 := by norm_num

/-- C102 (zeros): at the default, every number of absolute value at most `10⁻⁴` is rounded to zero. -/
theorem C102_zero {x : ℝ} (hx : |x| ≤ 1 / 10 ^ 4) :
    ∃ F : ℕ, ∀ fuel ≥ F, roundSqrt fuel (x : ℂ) 4096 = some (.ok 0) := by
  have := C102_recovers (p := 0) (q := 1) (N := 4096) (x := x) (y := 0) (ε := 1 / 10 ^ 4) le_rfl (by norm_num)
    (by norm_num) (by simpa using hx) ⟨by norm_num, by norm_num⟩
  simpa using this

/-- C102 (sharpness of the zeros): `1/4096` is kept, so no bound from there on would do. -/
theorem C102_zero_sharp : ∃ F : ℕ, ∀ fuel ≥ F, roundSqrt fuel ((1 / 4096 : ℝ) : ℂ) 4096 = some (.ok ((1 / 4096 : ℝ) : ℂ)) :=
  C10_default 1 (4096 ^ 2) (by norm_num) (by norm_num) le_rfl (by norm_num) _ (by norm_num)

/-- C102 (symmetry): the rounded value of `-z` is the negative of the rounded value of `z`. -/
theorem C102_neg (fuel : ℕ) (z : ℂ) (N : ℤ) :
    roundSqrt fuel (-z) N = (roundSqrt fuel z N).map (Except.map (-·)) := by
  have aux : ∀ x : ℝ, roundSqrtAux fuel (-x) N = (roundSqrtAux fuel x N).map (Except.map (-·)) := by
    intro x
    unfold roundSqrtAux
    rw [neg_sq]
    cases asApprox (x ^ 2) with
    | error e => rfl
    | ok nd =>
      simp only
      cases limitDenominator fuel nd.1 nd.2 (N ^ 2 + 1) with
      | none => rfl
      | some r =>
        simp only [Option.map_some, Except.map]
        congr 2
        rw [sign_cast, sign_cast, Left.sign_neg]
        push_cast
        ring
  unfold roundSqrt
  simp only [Complex.neg_im, Complex.neg_re, aux, ne_eq, neg_eq_zero]
  split
  · rcases roundSqrtAux fuel z.re N with _ | (e | a) <;> rcases roundSqrtAux fuel z.im N with _ | (e' | b) <;>
      simp [Except.map]
    exact Complex.ext rfl rfl
  · rcases roundSqrtAux fuel z.re N with _ | (e | a) <;> simp [Except.map]
    exact Complex.ext rfl (by simp)

theorem sym_zero (fuel : ℕ) (hf : 0 < fuel) (N : ℤ) (hN : N ≠ 0) : symAux fuel 0 N = some (.ok ⟨false, 0, 1⟩) := by
  have h1 := (asApprox_spec (0 ^ 2)).1 (by norm_num)
  have hM : (1 : ℤ) < N ^ 2 + 1 := by
    have := pow_pos (abs_pos.2 hN) 2
    rw [sq_abs] at this
    omega
  unfold symAux
  rw [h1]
  simp [C07_exact_below 0 1 (N ^ 2 + 1) hM fuel hf]

/-- C102 (SymPy): the SymPy version and the NumPy version agree: the expression for `z` stands for the number that
`round_to_sqrt_rational` computes, and either both raise or both return. -/
theorem C102_sympy (fuel : ℕ) (hf : 0 < fuel) (z : ℂ) (N : ℤ) (hN : N ≠ 0) :
    (symRound fuel z N).map (Except.map fun s => (⟨s.1.value, s.2.value⟩ : ℂ)) = roundSqrt fuel z N := by
  have h0 := sym_zero fuel hf N hN
  have key : ∀ x : ℝ, (symAux fuel x N).map (Except.map Sym.value) = roundSqrtAux fuel x N := by
    intro x
    by_cases hx : x = 0
    · subst hx
      have h1 := (asApprox_spec (0 ^ 2)).1 (by norm_num)
      have hM : (1 : ℤ) < N ^ 2 + 1 := by
        have := pow_pos (abs_pos.2 hN) 2
        rw [sq_abs] at this
        omega
      rw [h0]
      unfold roundSqrtAux
      rw [h1]
      simp [C07_exact_below 0 1 (N ^ 2 + 1) hM fuel hf, Except.map, Sym.value]
    · exact symAux_value fuel x N hx
  unfold symRound roundSqrt
  split_ifs with hz
  · rw [← key z.re, ← key z.im]
    rcases symAux fuel z.re N with _ | (e | a) <;> rcases symAux fuel z.im N with _ | (e' | b) <;> simp [Except.map]
  · rw [← key z.re, not_not.1 hz, h0]
    rcases symAux fuel z.re N with _ | (e | a) <;> simp [Except.map, Sym.value]

/-- C102 (SymPy, exactness): under the hypotheses of `C102_recovers` the expression is `√(a/b)` or `-√(a/b)` with `a/b`
the fraction `p/q` in lowest terms, and its value is `y`. -/
theorem C102_sympy_exact {p q N : ℤ} (hq : 1 ≤ q) (hqN : q ≤ N ^ 2) {x y ε : ℝ} (hy : y ^ 2 = (p : ℝ) / q)
    (hx : |x - y| ≤ ε) (hε : Removable y ε q N) :
    ∃ s : Sym, (∃ F : ℕ, ∀ fuel ≥ F, symAux fuel x N = some (.ok s)) ∧ Int.gcd s.n s.d = 1 ∧ 0 < s.d ∧
      s.n * q = p * s.d ∧ s.value = y := by
  obtain ⟨h1, h2, h3, h4⟩ := noise_hyps hq hy hx hε
  obtain ⟨-, a, b, hb, hcop, hab, F, hF⟩ := roundSqrtAux_noise p q N hq hqN hy h1 h2 h3 h4
  refine ⟨_, ⟨F, hF⟩, hcop, show 0 < b by omega, ?_, ?_⟩
  · have hq' : (q : ℝ) ≠ 0 := by exact_mod_cast (by omega : q ≠ 0)
    have hb' : (b : ℝ) ≠ 0 := by exact_mod_cast (by omega : b ≠ 0)
    rw [div_eq_div_iff hb' hq'] at hab
    exact_mod_cast hab
  · simp only [Sym.value]
    rw [hab, ← hy, Real.sqrt_sq_eq_abs]
    by_cases hy0 : y = 0
    · simp [hy0]
    · have h5 := h3 hy0
      rcases lt_or_gt_of_ne hy0 with h0 | h0
      · rw [abs_of_neg h0, abs_lt] at h5
        rw [sign_neg (by linarith), abs_of_neg h0]
        simp
      · rw [abs_of_pos h0, abs_lt] at h5
        rw [sign_pos (by linarith), abs_of_pos h0]
        simp

/-- `√(2/3)` with an error of `10⁻¹²`. -/
example : ∃ F : ℕ, ∀ fuel ≥ F, roundSqrt fuel ((Real.sqrt (2 / 3) + 1 / 10 ^ 12 : ℝ) : ℂ) 4096 =
    some (.ok ((Real.sqrt (2 / 3) : ℝ) : ℂ)) :=
  C102_default (p := 2) (q := 3) (by decide) (by decide) (by decide)
    (by rw [Real.sq_sqrt (by norm_num)]; norm_num) (by rw [add_sub_cancel_left]; norm_num)

/-- `-1/2` with an error of one thousandth is recovered when denominators are limited to `2²`. -/
example : Removable (-1 / 2) (1 / 1000) 4 2 := by
  refine ⟨by norm_num, ?_⟩
  rw [show |(-1 / 2 : ℝ)| = 1 / 2 by norm_num]
  norm_num

end LieNN.Props
