import Verif.Proofs.RoundFloat
import Verif.Props.RoundNoise
/-!
# C103: rounding in floating point arithmetic
-/
namespace LieNN.Props
open LieNN.Rational LieNN.Spec

/-- `ε` is a perturbation of `y` that the floating point `round_to_sqrt_rational` can undo. -/
def RemovableF (y ε : ℝ) (q N : ℤ) : Prop :=
  0 ≤ ε ∧ 2 * (ε * (2 * |y| + ε) + max ((|y| + ε) ^ 2) 1 / 2 ^ 48) * (q * ((N : ℝ) ^ 2 + 1)) < 1

/-- The floating point number that is returned for `y = ±√r`. -/
noncomputable def floatRoot (fl : ℝ → ℝ) (y r : ℝ) : ℝ := SignType.sign y * fl (Real.sqrt (fl r))

theorem RemovableF.removable {y ε : ℝ} {q N : ℤ} (hq : 1 ≤ q) (h : RemovableF y ε q N) : Removable y ε q N := by
  obtain ⟨h0, h1⟩ := h
  have hq1 : (1 : ℝ) ≤ q := by exact_mod_cast hq
  refine ⟨h0, lt_of_le_of_lt ?_ h1⟩
  gcongr
  · norm_num
  · norm_num

theorem noise_hypsF {p q N : ℤ} (hq : 1 ≤ q) {x y ε : ℝ} (hy : y ^ 2 = (p : ℝ) / q) (hx : |x - y| ≤ ε)
    (hε : RemovableF y ε q N) : x ^ 2 ≤ 2 ^ 49 ∧ |x ^ 2 - (p : ℝ) / q| ≤ ε * (2 * |y| + ε) ∧ (y ≠ 0 → |x - y| < |y|) ∧
    2 * (ε * (2 * |y| + ε) + max (x ^ 2) 1 / 2 ^ 48) * (q * ((N : ℝ) ^ 2 + 1)) < 1 := by
  obtain ⟨-, h2, h3, -⟩ := noise_hyps hq hy hx (hε.removable hq)
  rw [hy] at h2
  obtain ⟨h0, h1⟩ := hε
  have hq1 : (1 : ℝ) ≤ q := by exact_mod_cast hq
  have hN : (1 : ℝ) ≤ (N : ℝ) ^ 2 + 1 := by nlinarith [sq_nonneg (N : ℝ)]
  have hQ : (1 : ℝ) ≤ q * ((N : ℝ) ^ 2 + 1) := by nlinarith
  have hxa : |x| ≤ |y| + ε := by
    have := abs_sub_abs_le_abs_sub x y
    linarith
  have hx2 : x ^ 2 ≤ (|y| + ε) ^ 2 := by
    rw [← sq_abs x]
    exact pow_le_pow_left₀ (abs_nonneg x) hxa 2
  have hp1 : 0 ≤ ε * (2 * |y| + ε) := mul_nonneg h0 (by positivity)
  have hlt : 2 * (ε * (2 * |y| + ε) + max (x ^ 2) 1 / 2 ^ 48) * (q * ((N : ℝ) ^ 2 + 1)) < 1 := by
    refine lt_of_le_of_lt ?_ h1
    gcongr
  refine ⟨?_, h2, h3, hlt⟩
  have h5 : 2 * (ε * (2 * |y| + ε) + max (x ^ 2) 1 / 2 ^ 48) * 1 ≤
      2 * (ε * (2 * |y| + ε) + max (x ^ 2) 1 / 2 ^ 48) * (q * ((N : ℝ) ^ 2 + 1)) := by gcongr
  have h6 : max (x ^ 2) 1 / 2 ^ 48 < 1 := by
    have : 0 ≤ max (x ^ 2) 1 / 2 ^ 48 := by positivity
    linarith
  rw [div_lt_one (by positivity)] at h6
  have := le_max_left (x ^ 2) 1
  have : (2 : ℝ) ^ 48 ≤ 2 ^ 49 := by norm_num
  linarith

theorem auxF_recovers {fl : ℝ → ℝ} (h : RoundNearest fl) {p q N : ℤ} (hq : 1 ≤ q) (hqN : q ≤ N ^ 2)
    (hN : N ^ 2 + 1 < 2 ^ 63) {x y ε : ℝ} (hy : y ^ 2 = (p : ℝ) / q) (hx : |x - y| ≤ ε) (hε : RemovableF y ε q N) :
    ∃ F : ℕ, ∀ fuel ≥ F, roundSqrtAuxF fl fuel x N = some (.ok (floatRoot fl y ((p : ℝ) / q))) := by
  obtain ⟨h1, h2, h3, h4⟩ := noise_hypsF hq hy hx hε
  obtain ⟨n, d, a, b, e1, ⟨F, hF⟩, -, -, hab⟩ := fraction_float h p q N hq hqN hN h1 h2 h4
  refine ⟨F, fun fuel hf => ?_⟩
  unfold roundSqrtAuxF
  rw [e1]
  simp only [hF fuel hf, hab, Option.some.injEq, Except.ok.injEq, floatRoot]
  rw [sign_cast]
  by_cases hy0 : y = 0
  · rw [← hy, hy0]
    simp [h.zero]
  · have h5 := h3 hy0
    rcases lt_or_gt_of_ne hy0 with h0 | h0
    · rw [abs_of_neg h0, abs_lt] at h5
      rw [sign_neg h0, sign_neg (by linarith)]
    · rw [abs_of_pos h0, abs_lt] at h5
      rw [sign_pos h0, sign_pos (by linarith)]

/-- C103: in floating point and `int64` arithmetic, `round_to_sqrt_rational` returns for every number close enough to
`y = ±√(p/q)` the rounded square root of the rounded quotient `p/q`: the noise is gone entirely. -/
theorem C103_recovers {fl : ℝ → ℝ} (h : RoundNearest fl) {p q N : ℤ} (hq : 1 ≤ q) (hqN : q ≤ N ^ 2)
    (hN : N ^ 2 + 1 < 2 ^ 63) {x y ε : ℝ} (hy : y ^ 2 = (p : ℝ) / q) (hx : |x - y| ≤ ε) (hε : RemovableF y ε q N) :
    ∃ F : ℕ, ∀ fuel ≥ F, roundSqrtF fl fuel (x : ℂ) N =
      some (.ok ((SignType.sign y * fl (Real.sqrt (fl ((p : ℝ) / q))) : ℝ) : ℂ)) := by
  obtain ⟨F, hF⟩ := auxF_recovers h hq hqN hN hy hx hε
  refine ⟨F, fun fuel hf => ?_⟩
  simp only [roundSqrtF, Complex.ofReal_im, ne_eq, not_true, if_false, Complex.ofReal_re, hF fuel hf]
  rfl

/-- C103 for complex numbers. -/
theorem C103_recovers_complex {fl : ℝ → ℝ} (h : RoundNearest fl) {p q p' q' N : ℤ} (hq : 1 ≤ q) (hqN : q ≤ N ^ 2)
    (hq' : 1 ≤ q') (hqN' : q' ≤ N ^ 2) (hN : N ^ 2 + 1 < 2 ^ 63)
    {z w : ℂ} {ε : ℝ} (hre : w.re ^ 2 = (p : ℝ) / q) (him : w.im ^ 2 = (p' : ℝ) / q')
    (hx : |z.re - w.re| ≤ ε) (hx' : |z.im - w.im| ≤ ε) (hε : RemovableF w.re ε q N) (hε' : RemovableF w.im ε q' N) :
    ∃ F : ℕ, ∀ fuel ≥ F, roundSqrtF fl fuel z N = some (.ok
      ⟨SignType.sign w.re * fl (Real.sqrt (fl ((p : ℝ) / q))), SignType.sign w.im * fl (Real.sqrt (fl ((p' : ℝ) / q')))⟩) := by
  obtain ⟨F, hF⟩ := auxF_recovers h hq hqN hN hre hx hε
  obtain ⟨F', hF'⟩ := auxF_recovers h hq' hqN' hN him hx' hε'
  obtain ⟨-, -, h3', -⟩ := noise_hypsF hq' him hx' hε'
  refine ⟨max F F', fun fuel hf => ?_⟩
  have e := hF fuel ((le_max_left _ _).trans hf)
  have e' := hF' fuel ((le_max_right _ _).trans hf)
  unfold roundSqrtF
  by_cases hz : z.im ≠ 0
  · rw [if_pos hz, e, e']
    rfl
  · rw [if_neg hz, e]
    have hw : w.im = 0 := by
      by_contra hne
      have := h3' hne
      rw [not_not.1 hz, zero_sub, abs_neg] at this
      exact lt_irrefl _ this
    simp [hw, floatRoot]

/-- C103 (accuracy): what is returned is `y` up to a relative error of `2⁻⁵⁰`. -/
theorem C103_accuracy {fl : ℝ → ℝ} (h : RoundNearest fl) {p q : ℤ} (hq : 1 ≤ q) (hq2 : q < 2 ^ 63) {y : ℝ}
    (hy : y ^ 2 = (p : ℝ) / q) : |SignType.sign y * fl (Real.sqrt (fl ((p : ℝ) / q))) - y| ≤ |y| / 2 ^ 50 := by
  by_cases hy0 : y = 0
  · simp [hy0]
  · have hq1 : (1 : ℝ) ≤ q := by exact_mod_cast hq
    have hpos : 0 < (p : ℝ) / q := by
      rw [← hy]
      positivity
    have hp : 1 ≤ p := by
      have h4 : (0 : ℝ) < p := by
        rcases div_pos_iff.1 hpos with h | h
        · exact h.1
        · linarith [h.2]
      exact_mod_cast h4
    have hlow : (1 : ℝ) / 2 ^ 64 ≤ (p : ℝ) / q := by
      have hp' : (1 : ℝ) ≤ p := by exact_mod_cast hp
      have hq2' : (q : ℝ) ≤ 2 ^ 64 := by
        have : (q : ℝ) < 2 ^ 63 := by exact_mod_cast hq2
        exact this.le.trans (by norm_num)
      gcongr
    have hs := sqrt_float h hlow
    rw [← hy, Real.sqrt_sq_eq_abs] at hs
    rw [← hy]
    rcases lt_or_gt_of_ne hy0 with h0 | h0
    · rw [sign_neg h0]
      rw [abs_of_neg h0] at hs ⊢
      have : ((-1 : SignType) : ℝ) * fl (Real.sqrt (fl (y ^ 2))) - y = -(fl (Real.sqrt (fl (y ^ 2))) - -y) := by
        simp; ring
      rw [this, abs_neg]
      exact hs
    · rw [sign_pos h0]
      rw [abs_of_pos h0] at hs ⊢
      simpa using hs

/-- C103 (idempotence): rounding what was returned changes nothing. -/
theorem C103_idempotent {fl : ℝ → ℝ} (h : RoundNearest fl) {p q N : ℤ} (hq : 1 ≤ q) (hqN : q ≤ N ^ 2)
    (hN : N ^ 2 + 1 < 2 ^ 63) {x y : ℝ} (hy : y ^ 2 = (p : ℝ) / q) {ε : ℝ} (hx : |x - y| ≤ ε)
    (hε : RemovableF y ε q N) (hε2 : |y| / 2 ^ 50 ≤ ε) :
    ∃ v : ℝ, ∃ F : ℕ, ∀ fuel ≥ F, roundSqrtF fl fuel (x : ℂ) N = some (.ok (v : ℂ)) ∧
      roundSqrtF fl fuel (v : ℂ) N = some (.ok (v : ℂ)) := by
  obtain ⟨F, hF⟩ := C103_recovers h hq hqN hN hy hx hε
  have hacc := C103_accuracy h hq (by omega) hy
  obtain ⟨F', hF'⟩ := C103_recovers h hq hqN hN hy (hacc.trans hε2) hε
  exact ⟨_, max F F', fun fuel hf => ⟨hF fuel ((le_max_left _ _).trans hf), hF' fuel ((le_max_right _ _).trans hf)⟩⟩

/-- C103 at the default `max_denominator = 4096`: coefficients `±√(p/q)` of absolute value at most two with `q ≤ 1000`
and errors up to `5·10⁻¹²`. -/
theorem C103_default {fl : ℝ → ℝ} (h : RoundNearest fl) {p q : ℤ} (hq : 1 ≤ q) (hq2 : q ≤ 1000) (hpq : p ≤ 4 * q)
    {x y : ℝ} (hy : y ^ 2 = (p : ℝ) / q) (hx : |x - y| ≤ 5 / 10 ^ 12) :
    ∃ F : ℕ, ∀ fuel ≥ F, roundSqrtF fl fuel (x : ℂ) 4096 =
      some (.ok ((SignType.sign y * fl (Real.sqrt (fl ((p : ℝ) / q))) : ℝ) : ℂ)) := by
  refine C103_recovers h hq (by norm_num; omega) (by norm_num) hy hx ⟨by norm_num, ?_⟩
  have hq1 : (1 : ℝ) ≤ q := by exact_mod_cast hq
  have hq2' : (q : ℝ) ≤ 1000 := by exact_mod_cast hq2
  have hy2 : |y| ≤ 2 := by
    have : y ^ 2 ≤ 4 := by
      rw [hy, div_le_iff₀ (by linarith)]
      exact_mod_cast hpq
    exact abs_le_of_sq_le_sq (by linarith) (by norm_num)
  have h1 : 5 / 10 ^ 12 * (2 * |y| + 5 / 10 ^ 12) ≤ 5 / 10 ^ 12 * (2 * 2 + 5 / 10 ^ 12) := by gcongr
  have h2 : max ((|y| + 5 / 10 ^ 12) ^ 2) 1 ≤ (5 : ℝ) := by
    refine max_le ?_ (by norm_num)
    calc (|y| + 5 / 10 ^ 12) ^ 2 ≤ (2 + 5 / 10 ^ 12) ^ 2 := by gcongr
      _ ≤ 5 := by norm_num
  calc 2 * (5 / 10 ^ 12 * (2 * |y| + 5 / 10 ^ 12) + max ((|y| + 5 / 10 ^ 12) ^ 2) 1 / 2 ^ 48) *
        (q * (((4096 : ℤ) : ℝ) ^ 2 + 1))
      ≤ 2 * (5 / 10 ^ 12 * (2 * 2 + 5 / 10 ^ 12) + 5 / 2 ^ 48) * (1000 * (((4096 : ℤ) : ℝ) ^ 2 + 1)) := by gcongr
    _ < 1 := by norm_num

/-- C103 (zeros): at the default, every number of absolute value at most `10⁻⁴` is returned as zero. -/
theorem C103_zero {fl : ℝ → ℝ} (h : RoundNearest fl) {x : ℝ} (hx : |x| ≤ 1 / 10 ^ 4) :
    ∃ F : ℕ, ∀ fuel ≥ F, roundSqrtF fl fuel (x : ℂ) 4096 = some (.ok 0) := by
  have := C103_recovers h (p := 0) (q := 1) (N := 4096) (x := x) (y := 0) (ε := 1 / 10 ^ 4) le_rfl (by norm_num)
    (by norm_num) (by norm_num) (by simpa using hx) ⟨by norm_num, by norm_num⟩
  simpa using this

/-- A rounding that is not the identity: down to the next multiple of `2⁻¹⁰⁷⁴`. -/
example : RoundNearest fun t => (⌊t * 2 ^ 1074⌋ : ℝ) / 2 ^ 1074 where
  err t := by
    have hp : (0 : ℝ) < 2 ^ 1074 := by positivity
    have h1 := Int.floor_le (t * 2 ^ 1074)
    have h2 := Int.lt_floor_add_one (t * 2 ^ 1074)
    generalize (2 : ℝ) ^ 1074 = c at *
    have h3 : |(⌊t * c⌋ : ℝ) / c - t| ≤ 1 / c := by
      rw [abs_le, neg_le_sub_iff_le_add, sub_le_iff_le_add, ← add_div, le_div_iff₀ hp, div_le_iff₀ hp, add_mul,
        one_div_mul_cancel hp.ne']
      constructor <;> linarith
    have : 0 ≤ |t| / 2 ^ 53 := by positivity
    linarith
  mono a b hab := by
    have hp : (0 : ℝ) < 2 ^ 1074 := by positivity
    generalize (2 : ℝ) ^ 1074 = c at *
    simp only
    gcongr
  zero := by simp
  one := by
    have hp : (0 : ℝ) < 2 ^ 1074 := by positivity
    have : ⌊(1 : ℝ) * 2 ^ 1074⌋ = (2 : ℤ) ^ 1074 := by
      rw [one_mul, Int.floor_eq_iff]
      constructor <;> push_cast <;> generalize (2 : ℝ) ^ 1074 = c <;> linarith
    simp only [this]
    push_cast
    exact div_self hp.ne'

/-- `√(2/3)` with an error of `10⁻¹²`. -/
example {fl : ℝ → ℝ} (h : RoundNearest fl) : ∃ F : ℕ, ∀ fuel ≥ F,
    roundSqrtF fl fuel ((Real.sqrt (2 / 3) + 1 / 10 ^ 12 : ℝ) : ℂ) 4096 =
    some (.ok ((SignType.sign (Real.sqrt (2 / 3)) * fl (Real.sqrt (fl (((2 : ℤ) : ℝ) / ((3 : ℤ) : ℝ)))) : ℝ) : ℂ)) :=
  C103_default h (p := 2) (q := 3) (by decide) (by decide) (by decide)
    (by rw [Real.sq_sqrt (by norm_num)]; norm_num) (by rw [add_sub_cancel_left]; norm_num)

/-- `-1/2` with an error of one thousandth and denominators up to `2²`. -/
example : RemovableF (-1 / 2) (1 / 1000) 4 2 ∧ |(-1 / 2 : ℝ)| / 2 ^ 50 ≤ 1 / 1000 := by
  rw [RemovableF, show |(-1 / 2 : ℝ)| = 1 / 2 by norm_num]
  norm_num

end LieNN.Props
