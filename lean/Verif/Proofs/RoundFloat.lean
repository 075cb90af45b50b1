import Verif.Proofs.RoundNoise
import Verif.Proofs.RationalInt64
import Verif.Model.RationalFloat
import Verif.Spec.Float
/-!
# Helper lemmas: rounding in floating point arithmetic
-/
namespace LieNN.Rational

open Spec

/-- Relative error away from underflow. -/
theorem fl_rel {fl : ℝ → ℝ} (h : RoundNearest fl) {t : ℝ} (ht : 1 / 2 ^ 100 ≤ |t|) : |fl t - t| ≤ |t| / 2 ^ 52 := by
  have h1 := h.err t
  have h2 : (1 : ℝ) / 2 ^ 1074 ≤ |t| / 2 ^ 53 := by
    have h3 : (1 : ℝ) / 2 ^ 1074 ≤ 1 / 2 ^ 153 :=
      one_div_le_one_div_of_le (by positivity) (pow_le_pow_right₀ (by norm_num) (by norm_num))
    have h4 : (1 : ℝ) / 2 ^ 153 = 1 / 2 ^ 100 / 2 ^ 53 := by norm_num
    rw [h4] at h3
    refine h3.trans ?_
    gcongr
  have h3 : |t| / 2 ^ 53 + |t| / 2 ^ 53 = |t| / 2 ^ 52 := by ring
  exact h1.trans ((add_le_add_right h2 _).trans h3.le)

/-- Pairs near a fraction with small denominator. -/
theorem limit_near (p q N n d : ℤ) (hq : 1 ≤ q) (hqN : q ≤ N ^ 2) (hd : 0 < d) (hcop : Int.gcd n d = 1) {ε : ℝ}
    (hnd : |(n : ℝ) / d - (p : ℝ) / q| ≤ ε) (hsmall : 2 * ε * (q * ((N : ℝ) ^ 2 + 1)) < 1) :
    ∃ a b : ℤ, (∃ F : ℕ, ∀ fuel ≥ F, limitDenominator fuel n d (N ^ 2 + 1) = some (a, b)) ∧ 1 ≤ b ∧
      Int.gcd a b = 1 ∧ (a : ℝ) / b = (p : ℝ) / q := by
  have hq' : (0 : ℝ) < q := by exact_mod_cast hq
  have hM : 1 ≤ N ^ 2 + 1 := by nlinarith [sq_nonneg N]
  have hd' : (0 : ℝ) < d := by exact_mod_cast hd
  have hε0 : 0 ≤ ε := (abs_nonneg _).trans hnd
  have gap : ∀ r t : ℤ, 1 ≤ t → t ≤ N ^ 2 + 1 → |(r : ℝ) / t - (p : ℝ) / q| ≤ 2 * ε →
      (r : ℝ) / t = (p : ℝ) / q := by
    intro r t ht1 ht2 hle
    by_contra hne
    have hg := (frac_gap r t p q (by omega) (by omega) hne).trans hle
    have ht' : (0 : ℝ) < t := by exact_mod_cast ht1
    have ht2' : (t : ℝ) ≤ (N : ℝ) ^ 2 + 1 := by exact_mod_cast ht2
    rw [div_le_iff₀ (by positivity)] at hg
    have : 2 * ε * (t * q) ≤ 2 * ε * (q * ((N : ℝ) ^ 2 + 1)) := by
      rw [mul_comm (t : ℝ) q]
      gcongr
    linarith
  have hdne : d ≠ N ^ 2 + 1 := by
    intro hdM
    have h6 := gap n d (by omega) (by omega) (by linarith)
    have h7 : n * q = p * d := by
      rw [div_eq_div_iff hd'.ne' hq'.ne'] at h6
      exact_mod_cast h6
    have h8 : d ∣ q := by
      have : d ∣ n * q := ⟨p, by rw [h7, mul_comm]⟩
      exact (Int.isCoprime_iff_gcd_eq_one.2 hcop).symm.dvd_of_dvd_mul_left this
    have := Int.le_of_dvd (by omega) h8
    omega
  obtain ⟨a, b, hab, hb1, hb2, hcop', hopt⟩ := limitDenominator_spec n d (N ^ 2 + 1) hd hcop hM hdne
  have hopt1 := hopt p q hq (by omega)
  have hopt' : |(a : ℝ) / b - (n : ℝ) / d| ≤ |(p : ℝ) / q - (n : ℝ) / d| := by exact_mod_cast hopt1
  refine ⟨a, b, ⟨d.toNat + 1, fun fuel hf => hab fuel (by omega)⟩, hb1, hcop', gap a b hb1 hb2 ?_⟩
  rw [abs_sub_comm ((p : ℝ) / q)] at hopt'
  calc |(a : ℝ) / b - (p : ℝ) / q| = |((a : ℝ) / b - (n : ℝ) / d) + ((n : ℝ) / d - (p : ℝ) / q)| := by ring_nf
    _ ≤ |(a : ℝ) / b - (n : ℝ) / d| + |(n : ℝ) / d - (p : ℝ) / q| := abs_add_le _ _
    _ ≤ 2 * ε := by linarith

theorem asApproxAuxF_spec {fl : ℝ → ℝ} (h : RoundNearest fl) (x : ℝ) (h0 : 0 < x) (h1 : x ≤ 1) :
    ∃ n d : ℤ, asApproxAuxF fl x = .ok (n, d) ∧ 0 ≤ n ∧ n ≤ 2 ^ 52 ∧ 1 ≤ d ∧ d ≤ 2 ^ 52 ∧
      ((n = 0 ∧ d = 1 ∧ x * 2 ^ 51 < 5 / 4) ∨
       (1 ≤ n ∧ x * 2 ^ 51 * (1 - 1 / 2 ^ 52) ≤ 2 * n ∧ 2 ^ 50 - 4 ≤ (d : ℝ) ∧ |(d : ℝ) - n / x| ≤ 5 / 4)) := by
  refine ⟨_, _, by simp only [asApproxAuxF, pyAssert, if_pos h0, if_pos h1]; rfl, ?_⟩
  rw [big_real]
  have hfl := Int.floor_le (fl (x * 2 ^ 51))
  have hfl2 := Int.lt_floor_add_one (fl (x * 2 ^ 51))
  have hpos : 0 < x * 2 ^ 51 := by positivity
  have hnn : 0 ≤ fl (x * 2 ^ 51) := by
    rw [← h.zero]
    exact h.mono hpos.le
  set t := x * 2 ^ 51 with ht
  set n := ⌊fl t⌋ with hn
  have hn0 : 0 ≤ n := by
    rw [hn, Int.floor_nonneg]
    exact hnn
  have htop : fl t ≤ 2 ^ 51 + 1 := by
    have h2 : fl t ≤ fl (2 ^ 51) := h.mono (by rw [ht]; nlinarith)
    have h3 := fl_rel h (t := 2 ^ 51) (by norm_num)
    rw [abs_le] at h3
    have : |(2 : ℝ) ^ 51| / 2 ^ 52 ≤ 1 := by norm_num
    have h4 := h3.2.trans this
    have h5 : fl (2 ^ 51) ≤ 2 ^ 51 + 1 := by rwa [sub_le_iff_le_add'] at h4
    exact h2.trans h5
  have hntop : (n : ℝ) ≤ 2 ^ 51 + 1 := hfl.trans htop
  have hntop' : n ≤ 2 ^ 51 + 1 := by exact_mod_cast hntop
  have hn52 : n ≤ 2 ^ 52 := hntop'.trans (by norm_num)
  rcases hn0.eq_or_lt with hz | hpos1
  · rw [← hz]
    simp only [Int.cast_zero, zero_div, h.zero, npRound_zero, if_true]
    refine ⟨le_rfl, by norm_num, le_rfl, by norm_num, Or.inl ⟨by simp, by simp, ?_⟩⟩
    rw [← hz] at hfl2
    by_contra hc
    have h2 : fl (5 / 4) ≤ fl t := h.mono (not_lt.1 hc)
    have h3 := fl_rel h (t := 5 / 4) (by norm_num [abs_of_pos])
    rw [abs_le] at h3
    have : |(5 / 4 : ℝ)| / 2 ^ 52 ≤ 1 / 8 := by norm_num [abs_of_pos]
    norm_num at hfl2
    linarith [h3.1]
  · have hn1 : (1 : ℝ) ≤ n := by exact_mod_cast hpos1
    have ht0 : (1 : ℝ) / 2 ≤ t := by
      by_contra hc
      have h2 : fl t ≤ fl (1 / 2) := h.mono (not_le.1 hc).le
      have h3 := fl_rel h (t := 1 / 2) (by norm_num)
      rw [abs_le] at h3
      have : |(1 / 2 : ℝ)| / 2 ^ 52 ≤ 1 / 4 := by norm_num
      linarith [h3.2]
    have hrel := fl_rel h (t := t) (by rw [abs_of_pos hpos]; exact le_trans (by norm_num) ht0)
    rw [abs_of_pos hpos, abs_le] at hrel
    have hlow : t * (1 - 1 / 2 ^ 52) ≤ fl t := by
      have : t * (1 - 1 / 2 ^ 52) = t - t / 2 ^ 52 := by ring
      linarith [hrel.1]
    have h2n : t * (1 - 1 / 2 ^ 52) ≤ 2 * n := by linarith
    have hup : (n : ℝ) ≤ t * (1 + 1 / 2 ^ 52) := by
      have : t * (1 + 1 / 2 ^ 52) = t + t / 2 ^ 52 := by ring
      linarith [hrel.2]
    -- the quotient
    have hs1 : (n : ℝ) / x ≤ 2 ^ 51 + 1 := by
      rw [div_le_iff₀ h0]
      have : t * (1 + 1 / 2 ^ 52) = (2 ^ 51 + 1 / 2) * x := by rw [ht]; ring
      nlinarith
    have hs2 : (2 : ℝ) ^ 50 - 1 ≤ n / x := by
      rw [le_div_iff₀ h0]
      have : t * (1 - 1 / 2 ^ 52) = (2 ^ 51 - 1 / 2) * x := by rw [ht]; ring
      nlinarith
    have hspos : 0 < (n : ℝ) / x := lt_of_lt_of_le (by norm_num) hs2
    have hrel2 := fl_rel h (t := (n : ℝ) / x) (by
      rw [abs_of_pos hspos]
      exact le_trans (by norm_num) hs2)
    rw [abs_of_pos hspos] at hrel2
    have herr : |fl ((n : ℝ) / x) - n / x| ≤ 3 / 4 := by
      refine hrel2.trans ?_
      rw [div_le_iff₀ (by positivity)]
      refine hs1.trans (by norm_num)
    have hround := npRound_err (fl ((n : ℝ) / x))
    have hd : |(npRound (fl ((n : ℝ) / x)) : ℝ) - n / x| ≤ 5 / 4 := by
      calc |(npRound (fl ((n : ℝ) / x)) : ℝ) - n / x|
          = |((npRound (fl ((n : ℝ) / x)) : ℝ) - fl ((n : ℝ) / x)) + (fl ((n : ℝ) / x) - n / x)| := by ring_nf
        _ ≤ |(npRound (fl ((n : ℝ) / x)) : ℝ) - fl ((n : ℝ) / x)| + |fl ((n : ℝ) / x) - n / x| := abs_add_le _ _
        _ ≤ 5 / 4 := by linarith
    set d := npRound (fl ((n : ℝ) / x)) with hdd
    rw [abs_le] at hd
    have hd1 : (2 : ℝ) ^ 50 - 4 ≤ d := by linarith [hd.1]
    have hd2 : (d : ℝ) ≤ 2 ^ 52 := by
      have : (2 : ℝ) ^ 51 + 1 + 5 / 4 ≤ 2 ^ 52 := by norm_num
      linarith [hd.2]
    have hd1' : (2 : ℤ) ^ 50 - 4 ≤ d := by exact_mod_cast hd1
    have hd2' : d ≤ 2 ^ 52 := by exact_mod_cast hd2
    have hdne : d ≠ 0 := by
      intro h'
      rw [h'] at hd1'
      norm_num at hd1'
    rw [if_neg hdne]
    refine ⟨hn0, hn52, by norm_num at hd1'; omega, hd2', Or.inr ⟨by omega, h2n, hd1, ?_⟩⟩
    rw [abs_le]
    exact hd

theorem normalize_bounds (n d : ℤ) (hd : 0 < d) (hn : 0 ≤ n) :
    |(normalize n d).1| ≤ n ∧ (normalize n d).2 ≤ d := by
  obtain ⟨h1, h2, h3⟩ := normalize_spec n d hd.ne'
  have hc := Int.isCoprime_iff_gcd_eq_one.2 h2
  constructor
  · have hdvd : (normalize n d).1 ∣ n := by
      have : (normalize n d).1 ∣ n * (normalize n d).2 := ⟨d, h3.symm⟩
      exact hc.dvd_of_dvd_mul_right this
    rcases hn.eq_or_lt with h0 | h0
    · have : (normalize n d).1 * d = 0 := by rw [h3, ← h0]; simp
      rcases mul_eq_zero.1 this with h' | h'
      · rw [h']; simpa using hn
      · omega
    · exact Int.le_of_dvd h0 ((abs_dvd _ _).2 hdvd)
  · have hdvd : (normalize n d).2 ∣ d := by
      have : (normalize n d).2 ∣ (normalize n d).1 * d := ⟨n, by rw [h3]; ring⟩
      exact hc.symm.dvd_of_dvd_mul_left this
    exact Int.le_of_dvd hd hdvd

/-- `as_approx_integer_ratio` in floating point. -/
theorem asApproxF_spec {fl : ℝ → ℝ} (h : RoundNearest fl) (x : ℝ) (hx0 : 0 ≤ x) (hx : x ≤ 2 ^ 50) :
    ∃ n d : ℤ, asApproxF fl x = .ok (n, d) ∧ 0 < d ∧ Int.gcd n d = 1 ∧ |n| ≤ 2 ^ 52 ∧ d ≤ 2 ^ 52 ∧
      |(n : ℝ) / d - x| ≤ max x 1 / 2 ^ 49 := by
  rcases hx0.eq_or_lt with hz | hpos
  · subst hz
    obtain ⟨n1, d1, e1, -⟩ := asApproxAuxF_spec h 1 one_pos le_rfl
    refine ⟨0, 1, ?_, one_pos, by decide, by norm_num, by norm_num, by simp⟩
    unfold asApproxF
    simp only [abs_zero, if_true, le_refl, div_one, h.one, e1, pyAssert, gt_iff_lt, zero_lt_one]
    show Except.ok (normalize _ 1) = _
    simp [normalize_zero_one]
  · have hax : |x| = x := abs_of_pos hpos
    have hxne : x ≠ 0 := hpos.ne'
    set y := if x ≤ 1 then x else 1 with hy
    set z := if fl (1 / x) ≤ 1 then fl (1 / x) else 1 with hzd
    have hinv : (1 : ℝ) / 2 ^ 50 ≤ 1 / x := one_div_le_one_div_of_le hpos hx
    have hinvpos : 0 < 1 / x := by positivity
    have hrel := fl_rel h (t := 1 / x) (by
      rw [abs_of_pos hinvpos]
      exact le_trans (by norm_num) hinv)
    rw [abs_of_pos hinvpos, abs_le] at hrel
    have hlow : 1 / x * (1 - 1 / 2 ^ 52) ≤ fl (1 / x) := by
      have : 1 / x * (1 - 1 / 2 ^ 52) = 1 / x - 1 / x / 2 ^ 52 := by ring
      linarith [hrel.1]
    have hflpos : 0 < fl (1 / x) := lt_of_lt_of_le (mul_pos hinvpos (by norm_num)) hlow
    obtain ⟨n1, d1, e1, a1, a2, a3, a4, s1⟩ := asApproxAuxF_spec h y (by rw [hy]; split_ifs <;> linarith)
      (by rw [hy]; split_ifs <;> linarith)
    obtain ⟨n2, d2, e2, b1, b2, b3, b4, s2⟩ := asApproxAuxF_spec h z (by rw [hzd]; split_ifs <;> linarith)
      (by rw [hzd]; split_ifs <;> linarith)
    have hred : asApproxF fl x = (let nd := if x ≤ 1 then (n1, d1) else (d2, n2)
        if 0 < nd.2 then .ok (normalize nd.1 nd.2) else .error .assertionError) := by
      unfold asApproxF
      simp only [hax, if_neg hxne, ← hy, ← hzd, e1, e2, sign_pos hpos]
      show (pyAssert _ >>= _) = _
      simp only [pyAssert, SignType.coe_one, one_mul]
      split_ifs with h1 h2 <;> rfl
    have finish : ∀ n d : ℤ, 0 ≤ n → n ≤ 2 ^ 52 → 1 ≤ d → d ≤ 2 ^ 52 → |(n : ℝ) / d - x| ≤ max x 1 / 2 ^ 49 →
        asApproxF fl x = .ok (normalize n d) → ∃ n d : ℤ, asApproxF fl x = .ok (n, d) ∧ 0 < d ∧ Int.gcd n d = 1 ∧
          |n| ≤ 2 ^ 52 ∧ d ≤ 2 ^ 52 ∧ |(n : ℝ) / d - x| ≤ max x 1 / 2 ^ 49 := by
      intro n d h1 h2 h3 h4 h5 h6
      obtain ⟨f1, f2, -⟩ := normalize_spec n d (by omega)
      obtain ⟨g1, g2⟩ := normalize_bounds n d (by omega) h1
      refine ⟨_, _, h6, f1, f2, g1.trans h2, g2.trans h4, ?_⟩
      have h7 := normalize_real n d (by omega)
      rw [← h7] at h5
      exact h5
    by_cases hle : x ≤ 1
    · have hyx : y = x := by rw [hy, if_pos hle]
      rw [hyx] at s1
      refine finish n1 d1 a1 a2 a3 a4 ?_ (by rw [hred, if_pos hle]; simp only; rw [if_pos (by omega)])
      rw [max_eq_right hle]
      rcases s1 with ⟨h1, h2, h3⟩ | ⟨h1, h2, h3, h4⟩
      · rw [h1, h2]
        simp only [Int.cast_zero, Int.cast_one, zero_div, zero_sub, abs_neg, hax]
        rw [le_div_iff₀ (by positivity)]
        nlinarith [show (2 : ℝ) ^ 51 = 4 * 2 ^ 49 by norm_num]
      · have hdp : (0 : ℝ) < d1 := lt_of_lt_of_le (by norm_num) h3
        have e : (n1 : ℝ) / d1 - x = -(x / d1 * (d1 - n1 / x)) := by field_simp; ring
        rw [e, abs_neg, abs_mul, abs_of_pos (div_pos hpos hdp)]
        calc x / d1 * |(d1 : ℝ) - n1 / x| ≤ 1 / (2 ^ 50 - 4) * (5 / 4) := by
              gcongr
          _ ≤ 1 / 2 ^ 49 := by norm_num
    · have hgt : 1 < x := not_le.1 hle
      have hfl1 : fl (1 / x) ≤ 1 := by
        have := h.mono (show 1 / x ≤ 1 by rw [div_le_one hpos]; exact hgt.le)
        rwa [h.one] at this
      have hzx : z = fl (1 / x) := by rw [hzd, if_pos hfl1]
      have hz0 : 0 < z := by rw [hzx]; exact hflpos
      have hzlow : 1 / x * (1 - 1 / 2 ^ 52) ≤ z := by rw [hzx]; exact hlow
      -- the numerator is not zero
      rcases s2 with ⟨-, -, h3⟩ | ⟨h1, h2, h3, h4⟩
      · exfalso
        have h5 : 1 / 2 ^ 50 * (1 - 1 / 2 ^ 52) ≤ z := by
          refine le_trans ?_ hzlow
          gcongr
        have h6 : 1 / 2 ^ 50 * (1 - 1 / 2 ^ 52) * (2 : ℝ) ^ 51 ≤ z * 2 ^ 51 := by gcongr
        have h7 : (5 / 4 : ℝ) ≤ 1 / 2 ^ 50 * (1 - 1 / 2 ^ 52) * (2 : ℝ) ^ 51 := by norm_num
        linarith
      · refine finish d2 n2 (by omega) b4 h1 b2 ?_ (by
          rw [hred, if_neg hle]
          simp only
          rw [if_pos (by omega)])
        rw [max_eq_left hgt.le]
        have hn2 : (1 : ℝ) ≤ n2 := by exact_mod_cast h1
        have hnp : (0 : ℝ) < n2 := by linarith
        have hzup : z ≤ 1 / x * (1 + 1 / 2 ^ 52) := by
          have : 1 / x * (1 + 1 / 2 ^ 52) = 1 / x + 1 / x / 2 ^ 52 := by ring
          rw [hzx]
          linarith [hrel.2]
        -- first part
        have hc : (1 - 1 / 2 ^ 51 : ℝ) ≤ (1 - 1 / 2 ^ 52) * (1 - 1 / 2 ^ 52) := by norm_num
        have hn2x : 2 ^ 50 * (1 - 1 / 2 ^ 51) ≤ n2 * x := by
          have h6 : 1 / x * (1 - 1 / 2 ^ 52) * 2 ^ 51 * (1 - 1 / 2 ^ 52) ≤ 2 * n2 := by
            refine le_trans ?_ h2
            gcongr
          have h7 := mul_le_mul_of_nonneg_right h6 hpos.le
          have h8 : 1 / x * (1 - 1 / 2 ^ 52) * 2 ^ 51 * (1 - 1 / 2 ^ 52) * x =
              2 ^ 51 * ((1 - 1 / 2 ^ 52) * (1 - 1 / 2 ^ 52)) := by field_simp
          rw [h8] at h7
          nlinarith
        have p1 : |((d2 : ℝ) - n2 / z) / n2| ≤ x * (3 / 4 / 2 ^ 49) := by
          rw [abs_div, abs_of_pos hnp, div_le_iff₀ hnp]
          refine h4.trans ?_
          have : (5 / 4 : ℝ) ≤ 2 ^ 50 * (1 - 1 / 2 ^ 51) * (3 / 4 / 2 ^ 49) := by norm_num
          nlinarith
        have p2 : |1 / z - x| ≤ x * (1 / 4 / 2 ^ 49) := by
          have e : 1 / z - x = (1 - x * z) / z := by field_simp
          rw [e, abs_div, abs_of_pos hz0, div_le_iff₀ hz0]
          have hxz1 : x * z ≤ 1 + 1 / 2 ^ 52 := by
            have := mul_le_mul_of_nonneg_left hzup hpos.le
            rwa [← mul_assoc, mul_one_div_cancel hxne, one_mul] at this
          have hxz2 : 1 - 1 / 2 ^ 52 ≤ x * z := by
            have := mul_le_mul_of_nonneg_left hzlow hpos.le
            rwa [← mul_assoc, mul_one_div_cancel hxne, one_mul] at this
          have : |1 - x * z| ≤ 1 / 2 ^ 52 := by
            rw [abs_le]
            constructor <;> linarith
          refine this.trans ?_
          have : x * (1 / 4 / 2 ^ 49) * z = x * z * (1 / 4 / 2 ^ 49) := by ring
          rw [this]
          calc (1 : ℝ) / 2 ^ 52 ≤ (1 - 1 / 2 ^ 52) * (1 / 4 / 2 ^ 49) := by norm_num
            _ ≤ x * z * (1 / 4 / 2 ^ 49) := by gcongr
        have e : (d2 : ℝ) / n2 - x = (d2 - n2 / z) / n2 + (1 / z - x) := by field_simp; ring
        rw [e]
        calc |((d2 : ℝ) - n2 / z) / n2 + (1 / z - x)| ≤ |((d2 : ℝ) - n2 / z) / n2| + |1 / z - x| := abs_add_le _ _
          _ ≤ x * (3 / 4 / 2 ^ 49) + x * (1 / 4 / 2 ^ 49) := by linarith
          _ = x / 2 ^ 49 := by ring

/-- The fraction found from a perturbed square root. -/
theorem fraction_float {fl : ℝ → ℝ} (h : RoundNearest fl) (p q N : ℤ) (hq : 1 ≤ q) (hqN : q ≤ N ^ 2)
    (hN : N ^ 2 + 1 < 2 ^ 63) {x δ : ℝ} (hx : x ^ 2 ≤ 2 ^ 49) (hδ : |x ^ 2 - (p : ℝ) / q| ≤ δ)
    (hsmall : 2 * (δ + max (x ^ 2) 1 / 2 ^ 48) * (q * ((N : ℝ) ^ 2 + 1)) < 1) :
    ∃ n d a b : ℤ, asApproxF fl (fl (x ^ 2)) = .ok (n, d) ∧
      (∃ F : ℕ, ∀ fuel ≥ F, limitDenominatorW fuel n d (N ^ 2 + 1) = some (a, b)) ∧ 1 ≤ b ∧ Int.gcd a b = 1 ∧
      (a : ℝ) / b = (p : ℝ) / q := by
  have h0 : 0 ≤ fl (x ^ 2) := by
    rw [← h.zero]
    exact h.mono (sq_nonneg x)
  set m := max (x ^ 2) 1 with hm
  have hm1 : 1 ≤ m := le_max_right _ _
  have hmx : x ^ 2 ≤ m := le_max_left _ _
  have herr : |fl (x ^ 2) - x ^ 2| ≤ m / 2 ^ 50 := by
    have e := h.err (x ^ 2)
    rw [abs_of_nonneg (sq_nonneg x)] at e
    have h3 : (1 : ℝ) / 2 ^ 1074 ≤ 1 / 2 ^ 52 :=
      one_div_le_one_div_of_le (by positivity) (pow_le_pow_right₀ (by norm_num) (by norm_num))
    have h4 : x ^ 2 / 2 ^ 53 + 1 / 2 ^ 1074 ≤ m / 2 ^ 53 + m / 2 ^ 52 :=
      add_le_add (by gcongr) (h3.trans (by gcongr))
    refine (e.trans h4).trans ?_
    have : m / 2 ^ 53 + m / 2 ^ 52 = m * (3 / 2 ^ 53) := by ring
    rw [this]
    have : m / 2 ^ 50 = m * (8 / 2 ^ 53) := by ring
    rw [this]
    gcongr
    norm_num
  have herr' := abs_le.1 herr
  have hle : fl (x ^ 2) ≤ m * (3 / 2) := by
    have : m / 2 ^ 50 ≤ m * (1 / 2) := by
      rw [div_eq_mul_inv]
      gcongr
      norm_num
    linarith [herr'.2]
  have hm49 : m ≤ 2 ^ 49 := max_le hx (by norm_num)
  obtain ⟨n, d, e1, hd, hcop, hn, hd2, hnd⟩ := asApproxF_spec h (fl (x ^ 2)) h0 (by
    refine hle.trans ?_
    have : (2 : ℝ) ^ 50 = 2 * 2 ^ 49 := by norm_num
    linarith)
  have hmax : max (fl (x ^ 2)) 1 ≤ m * (3 / 2) := max_le hle (by linarith)
  have hnd2 : |(n : ℝ) / d - (p : ℝ) / q| ≤ δ + m / 2 ^ 48 := by
    have h5 : max (fl (x ^ 2)) 1 / 2 ^ 49 ≤ m * (3 / 2) / 2 ^ 49 := by gcongr
    have h6 : m * (3 / 2) / 2 ^ 49 + m / 2 ^ 50 = m / 2 ^ 48 := by ring
    calc |(n : ℝ) / d - (p : ℝ) / q|
        = |((n : ℝ) / d - fl (x ^ 2)) + (fl (x ^ 2) - x ^ 2) + (x ^ 2 - (p : ℝ) / q)| := by ring_nf
      _ ≤ |(n : ℝ) / d - fl (x ^ 2)| + |fl (x ^ 2) - x ^ 2| + |x ^ 2 - (p : ℝ) / q| := abs_add_three _ _ _
      _ ≤ δ + m / 2 ^ 48 := by linarith
  obtain ⟨a, b, ⟨F, hF⟩, hb, hc, hab⟩ := limit_near p q N n d hq hqN hd hcop hnd2 hsmall
  refine ⟨n, d, a, b, e1, ⟨F, fun fuel hf => ?_⟩, hb, hc, hab⟩
  rw [limitDenominatorW_eq n d (N ^ 2 + 1) hd hcop (by nlinarith [sq_nonneg N])]
  · exact hF fuel hf
  all_goals first | (norm_num at hn hd2 hN ⊢; omega)

/-- Error of the square root of a rounded fraction. -/
theorem sqrt_float {fl : ℝ → ℝ} (h : RoundNearest fl) {r : ℝ} (hr : 1 / 2 ^ 64 ≤ r) :
    |fl (Real.sqrt (fl r)) - Real.sqrt r| ≤ Real.sqrt r / 2 ^ 50 := by
  have hr0 : 0 < r := lt_of_lt_of_le (by norm_num) hr
  have h1 := fl_rel h (t := r) (by rw [abs_of_pos hr0]; exact le_trans (by norm_num) hr)
  rw [abs_of_pos hr0] at h1
  have h1' := abs_le.1 h1
  set s := Real.sqrt r with hs
  have hs0 : 0 < s := Real.sqrt_pos.2 hr0
  have hss : s * s = r := Real.mul_self_sqrt hr0.le
  have hs32 : (1 : ℝ) / 2 ^ 32 ≤ s := by
    rw [hs]
    refine Real.le_sqrt_of_sq_le (le_trans ?_ hr)
    norm_num
  have hf0 : 0 < fl r := by
    have : r / 2 ^ 52 ≤ r * (1 / 2) := by
      rw [div_eq_mul_inv]
      gcongr
      norm_num
    linarith [h1'.1]
  set v := Real.sqrt (fl r) with hv
  have hv0 : 0 < v := Real.sqrt_pos.2 hf0
  have hvv : v * v = fl r := Real.mul_self_sqrt hf0.le
  have h2 : |v - s| ≤ s / 2 ^ 52 := by
    have e : |v - s| * (v + s) ≤ s / 2 ^ 52 * s := by
      rw [← abs_of_pos (add_pos hv0 hs0), ← abs_mul]
      have : (v - s) * (v + s) = fl r - r := by rw [← hvv, ← hss]; ring
      rw [this]
      refine h1.trans (le_of_eq ?_)
      rw [← hss]
      ring
    have e2 : |v - s| * s ≤ |v - s| * (v + s) := by gcongr; linarith
    exact le_of_mul_le_mul_right (e2.trans e) hs0
  have h2' := abs_le.1 h2
  have hvle : v ≤ 2 * s := by
    have : s / 2 ^ 52 ≤ s := div_le_self hs0.le (by norm_num)
    linarith [h2'.2]
  have hvge : s / 2 ≤ v := by
    have : s / 2 ^ 52 ≤ s / 2 := by gcongr; norm_num
    linarith [h2'.1]
  have h3 := fl_rel h (t := v) (by
    rw [abs_of_pos hv0]
    refine le_trans ?_ hvge
    refine le_trans ?_ (div_le_div_of_nonneg_right hs32 (by norm_num))
    norm_num)
  rw [abs_of_pos hv0] at h3
  calc |fl v - s| = |(fl v - v) + (v - s)| := by ring_nf
    _ ≤ |fl v - v| + |v - s| := abs_add_le _ _
    _ ≤ 2 * s / 2 ^ 52 + s / 2 ^ 52 := add_le_add (h3.trans (by gcongr)) h2
    _ = s * (3 / 2 ^ 52) := by ring
    _ ≤ s * (4 / 2 ^ 52) := by gcongr; norm_num
    _ = s / 2 ^ 50 := by ring

end LieNN.Rational
