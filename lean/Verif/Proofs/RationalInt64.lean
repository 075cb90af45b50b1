import Verif.Proofs.Rational

namespace LieNN.Rational

theorem w_of_bound {x : ℤ} (h1 : -2 ^ 63 ≤ x) (h2 : x < 2 ^ 63) : w x = x := by
  unfold w
  exact Int.bmod_eq_of_le (by norm_num at h1 ⊢; omega) (by norm_num at h2 ⊢; omega)

theorem w_abs {x : ℤ} (h : |x| < 2 ^ 63) : w x = x :=
  w_of_bound (by have := (abs_lt.1 h).1; omega) (abs_lt.1 h).2

theorem w_add_w (a b : ℤ) : w (a + w b) = w (a + b) := by simp [w, Int.add_bmod_bmod]
theorem w_sub_w (a b : ℤ) : w (a - w b) = w (a - b) := by simp [w, Int.sub_bmod_bmod]
theorem w_w_sub (a b : ℤ) : w (w a - b) = w (a - b) := by simp [w, Int.bmod_sub_bmod]
theorem w_mul_w (a b : ℤ) : w (a * w b) = w (a * b) := by simp [w, Int.mul_bmod_bmod]

/-- The invariant including the start data and the size bounds that keep `int64` exact. -/
structure InvW (M n0 d0 : ℤ) (s : LD) : Prop where
  inv : Inv M s
  en : s.n0 = n0
  ed : s.d0 = d0
  p0b : |s.p0| ≤ |n0| + 1
  p1b : |s.p1| ≤ |n0| + 1
  nd : s.q1 ≠ 0 → s.n ≤ d0
  dd : s.d ≤ d0

/-- `|p| ≤ |n0| + 1` for a fraction `p/q` with `0 ≤ q ≤ d0` and numerator defect at most `d0`. -/
theorem num_bound (n0 d0 p q : ℤ) (hd0 : 0 < d0) (hq0 : 0 ≤ q) (hq : q ≤ d0)
    (hN : |p * d0 - n0 * q| ≤ d0) : |p| ≤ |n0| + 1 := by
  have h1 : |p * d0| ≤ |n0 * q| + d0 := by
    have := abs_add_le (p * d0 - n0 * q) (n0 * q)
    have e : p * d0 - n0 * q + n0 * q = p * d0 := by ring
    rw [e] at this
    linarith
  rw [abs_mul, abs_mul, abs_of_pos hd0, abs_of_nonneg hq0] at h1
  have h2 : |n0| * q ≤ |n0| * d0 := mul_le_mul_of_nonneg_left hq (abs_nonneg _)
  have h3 : |p| * d0 ≤ (|n0| + 1) * d0 := by linarith
  exact le_of_mul_le_mul_right h3 hd0

variable {M n0 d0 : ℤ}

theorem q2_bounds {s : LD} (h : InvW M n0 d0 s) : 0 ≤ s.q2 ∧ s.q2 ≤ d0 := by
  obtain ⟨ha1, ha2⟩ := a_spec h.inv.dpos
  have hq2def : s.q2 = s.q0 + s.a * s.q1 := rfl
  by_cases hq : s.q1 = 0
  · have h0 := h.inv.hq1 hq
    have hd := h.inv.hd
    rw [hq, h0] at hd
    rw [hq2def, hq, h0]
    have := h.inv.dpos
    have := h.ed
    constructor <;> omega
  · have hn := h.inv.nnn hq
    have hane : 0 ≤ s.a := by
      by_contra hc
      have : s.a * s.d + s.d ≤ 0 := by nlinarith [h.inv.dpos]
      omega
    have hq2nn : 0 ≤ s.q2 := by
      rw [hq2def]
      have := mul_nonneg hane h.inv.q1nn
      linarith [h.inv.q0nn]
    refine ⟨hq2nn, ?_⟩
    have e2 : s.q2 * s.d + s.q1 * (s.n - s.a * s.d) = d0 := by
      rw [hq2def, ← h.ed]; linear_combination h.inv.hd
    have h1 : 0 ≤ s.q1 * (s.n - s.a * s.d) := mul_nonneg h.inv.q1nn (by omega)
    have h2 : s.q2 * 1 ≤ s.q2 * s.d := mul_le_mul_of_nonneg_left h.inv.dpos hq2nn
    linarith

theorem q2W_eq {s : LD} (h : InvW M n0 d0 s) (hb : d0 < 2 ^ 63) : s.q2W = s.q2 := by
  obtain ⟨h1, h2⟩ := q2_bounds h
  unfold LD.q2W
  rw [w_add_w]
  exact w_of_bound (by have : s.q0 + s.a * s.q1 = s.q2 := rfl; rw [this]; omega)
    (by have : s.q0 + s.a * s.q1 = s.q2 := rfl; rw [this]; omega)

theorem stopW_iff {s : LD} (h : InvW M n0 d0 s) (hb : d0 < 2 ^ 63) : s.stopW M ↔ s.stop M := by
  unfold LD.stopW LD.stop
  rw [q2W_eq h hb]

theorem stepW_eq {s : LD} (h : InvW M n0 d0 s) (hcop : Int.gcd n0 d0 = 1)
    (hn : |n0| + 1 < 2 ^ 63) (hb : d0 < 2 ^ 63) (hs : ¬ s.stop M) :
    s.stepW M = s.step M ∧ InvW M n0 d0 (s.step M) := by
  have hsW : ¬ s.stopW M := fun hc => hs ((stopW_iff h hb).1 hc)
  obtain ⟨hi, hlt⟩ := inv_step h.inv (by rw [h.en, h.ed]; exact hcop) hs
  have hstep : s.step M = ⟨s.n0, s.d0, s.d, s.n - s.a * s.d, s.p1, s.q1, s.p0 + s.a * s.p1, s.q2⟩ := by
    unfold LD.step
    rw [if_neg hs]
  have hd0pos : 0 < d0 := lt_of_lt_of_le h.inv.dpos h.dd
  have hqb := q2_bounds h
  have hp2 : |s.p0 + s.a * s.p1| ≤ |n0| + 1 := by
    apply num_bound n0 d0 _ s.q2 hd0pos hqb.1 hqb.2
    have hN : (s.p0 + s.a * s.p1) * d0 - n0 * s.q2 =
        -(s.p1 * s.q0 - s.p0 * s.q1) * (s.n - s.a * s.d) := by
      have : s.q2 = s.q0 + s.a * s.q1 := rfl
      rw [this, ← h.en, ← h.ed, ← h.inv.hn, ← h.inv.hd]; ring
    rw [hN]
    obtain ⟨ha1, ha2⟩ := a_spec h.inv.dpos
    have hdd := h.dd
    have habs : |s.n - s.a * s.d| ≤ d0 := by rw [abs_of_nonneg (by omega)]; omega
    rw [abs_mul, abs_neg]
    rcases h.inv.det with hdet | hdet <;> rw [hdet] <;> simpa using habs
  constructor
  · unfold LD.stepW
    rw [if_neg hsW, hstep, q2W_eq h hb, w_sub_w, w_add_w]
    obtain ⟨ha1, ha2⟩ := a_spec h.inv.dpos
    have hdd := h.dd
    rw [w_of_bound (by omega) (by omega), w_abs (by omega)]
  · rw [hstep] at hi hlt ⊢
    exact ⟨hi, h.en, h.ed, h.p1b, hp2, fun _ => h.dd, by have := h.dd; simp only at hlt ⊢; omega⟩

theorem finishW_eq {s : LD} (hM : 1 ≤ M) (h : InvW M n0 d0 s)
    (hs : s.stop M) (hd0 : M < d0) (hn : |n0| + 1 < 2 ^ 63) (hb : d0 < 2 ^ 63) :
    s.finishW M = s.finish M := by
  have hi := h.inv
  have hq2 : M < s.q2 := by
    rcases hs with hs | hs
    · exact hs
    · have := h.ed; omega
  have hq2def : s.q2 = s.q0 + s.a * s.q1 := rfl
  have hq1pos : 0 < s.q1 := by
    rcases hi.q1nn.lt_or_eq with hlt | heq
    · exact hlt
    · exfalso
      rw [hq2def, ← heq, hi.hq1 heq.symm] at hq2
      omega
  have hq0 := hi.q0nn
  have hq0le := hi.q0le
  have hwM : w (M - s.q0) = M - s.q0 := w_of_bound (by omega) (by omega)
  have hk1 : s.q0 + (M - s.q0).fdiv s.q1 * s.q1 ≤ M := by
    have h2 := Int.fmod_nonneg_of_pos (M - s.q0) hq1pos
    have h3 := Int.mul_fdiv_add_fmod (M - s.q0) s.q1
    have h4 : (M - s.q0).fdiv s.q1 * s.q1 = s.q1 * (M - s.q0).fdiv s.q1 := by rw [mul_comm]
    omega
  have hk2 : M < s.q0 + (M - s.q0).fdiv s.q1 * s.q1 + s.q1 := by
    have h2 := Int.fmod_lt_of_pos (M - s.q0) hq1pos
    have h3 := Int.mul_fdiv_add_fmod (M - s.q0) s.q1
    have h4 : (M - s.q0).fdiv s.q1 * s.q1 = s.q1 * (M - s.q0).fdiv s.q1 := by rw [mul_comm]
    omega
  unfold LD.finishW LD.finish
  simp only [hwM]
  generalize (M - s.q0).fdiv s.q1 = k at hk1 hk2 ⊢
  have hknn : 0 ≤ k := by
    by_contra hc
    have : k * s.q1 ≤ -1 * s.q1 := mul_le_mul_of_nonneg_right (by omega) hq1pos.le
    linarith
  have hka : k ≤ s.a := by
    by_contra hc
    have h1 : (s.a + 1) * s.q1 ≤ k * s.q1 := mul_le_mul_of_nonneg_right (by omega) hq1pos.le
    rw [hq2def] at hq2
    nlinarith
  obtain ⟨ha1, ha2⟩ := a_spec hi.dpos
  have hnk : 0 ≤ s.n - k * s.d := by
    have : k * s.d ≤ s.a * s.d := mul_le_mul_of_nonneg_right hka hi.dpos.le
    linarith
  have hkd : 0 ≤ k * s.d := mul_nonneg hknn hi.dpos.le
  have hkq : 0 ≤ k * s.q1 := mul_nonneg hknn hq1pos.le
  obtain ⟨ε, hε, hdet⟩ : ∃ ε : ℤ, (ε = 1 ∨ ε = -1) ∧ s.p1 * s.q0 - s.p0 * s.q1 = ε :=
    ⟨_, hi.det, rfl⟩
  have hN2 : s.p1 * s.d0 - s.n0 * s.q1 = ε * s.d := by
    rw [← hi.hn, ← hi.hd, ← hdet]; ring
  have hN1 : (s.p0 + k * s.p1) * s.d0 - s.n0 * (s.q0 + k * s.q1) = -ε * (s.n - k * s.d) := by
    rw [← hi.hn, ← hi.hd, ← hdet]; ring
  have hnd := h.nd hq1pos.ne'
  have hsum : s.q1 * (s.n - k * s.d) + (s.q0 + k * s.q1) * s.d = d0 := by
    rw [← h.ed]; linear_combination hi.hd
  have hA : 0 ≤ s.q1 * (s.n - k * s.d) := mul_nonneg hq1pos.le hnk
  have hB : 0 ≤ (s.q0 + k * s.q1) * s.d := mul_nonneg (by omega) hi.dpos.le
  have habsε : ∀ x : ℤ, |ε * x| = |x| := fun x => by
    rcases hε with h | h <;> simp [h]
  have habsε' : ∀ x : ℤ, |-ε * x| = |x| := fun x => by
    rcases hε with h | h <;> simp [h]
  have e1 : w (s.p0 + w (k * s.p1)) = s.p0 + k * s.p1 := by
    rw [w_add_w]
    apply w_abs
    have : |s.p0 + k * s.p1| ≤ |n0| + 1 := by
      apply num_bound n0 d0 _ (s.q0 + k * s.q1) (by omega) (by omega) (by omega)
      rw [← h.en, ← h.ed, hN1, habsε', abs_of_nonneg hnk, h.ed]
      omega
    omega
  have e2 : w (s.q0 + w (k * s.q1)) = s.q0 + k * s.q1 := by
    rw [w_add_w]
    exact w_of_bound (by omega) (by omega)
  rw [e1, e2]
  have e3 : w (w (s.p1 * s.d0) - w (s.n0 * s.q1)) = s.p1 * s.d0 - s.n0 * s.q1 := by
    rw [w_sub_w, w_w_sub]
    apply w_abs
    rw [hN2, habsε, abs_of_pos hi.dpos]
    have := h.dd
    omega
  have e4 : w (w ((s.p0 + k * s.p1) * s.d0) - w (s.n0 * (s.q0 + k * s.q1))) =
      (s.p0 + k * s.p1) * s.d0 - s.n0 * (s.q0 + k * s.q1) := by
    rw [w_sub_w, w_w_sub]
    apply w_abs
    rw [hN1, habsε', abs_of_nonneg hnk]
    omega
  rw [e3, e4, hN1, hN2]
  have b1 : |(s.q0 + k * s.q1) * (ε * s.d)| ≤ d0 := by
    rw [abs_mul, habsε, ← abs_mul, abs_of_nonneg hB]; omega
  have b2 : |s.q1 * (-ε * (s.n - k * s.d))| ≤ d0 := by
    rw [abs_mul, habsε', ← abs_mul, abs_of_nonneg hA]; omega
  rw [w_abs (x := (s.q0 + k * s.q1) * (ε * s.d)) (by omega),
    w_abs (x := s.q1 * (-ε * (s.n - k * s.d))) (by omega),
    w_abs (x := |(s.q0 + k * s.q1) * (ε * s.d)|) (by rw [abs_abs]; omega),
    w_abs (x := |s.q1 * (-ε * (s.n - k * s.d))|) (by rw [abs_abs]; omega)]

theorem ldLoop1W_eq (hcop : Int.gcd n0 d0 = 1) (hM : 1 ≤ M) (hd0 : M < d0)
    (hn : |n0| + 1 < 2 ^ 63) (hb : d0 < 2 ^ 63) (fuel : ℕ) : ∀ s : LD, InvW M n0 d0 s →
    (ldLoop1W M fuel s).map (LD.finishW M) = (ldLoop1 M fuel s).map (LD.finish M) := by
  induction fuel with
  | zero => intro s _; rfl
  | succ fuel ih =>
    intro s h
    unfold ldLoop1W ldLoop1
    by_cases hs : s.stop M
    · rw [if_pos hs, if_pos ((stopW_iff h hb).2 hs)]
      simp only [Option.map_some]
      rw [finishW_eq hM h hs hd0 hn hb]
    · rw [if_neg hs, if_neg (fun hc => hs ((stopW_iff h hb).1 hc))]
      obtain ⟨e, h'⟩ := stepW_eq h hcop hn hb hs
      rw [e]
      exact ih _ h'

theorem limitDenominatorW_eq (n d M : ℤ) (hd : 0 < d) (hcop : Int.gcd n d = 1) (hM : 1 ≤ M)
    (hn : |n| + 1 < 2 ^ 63) (hb : d < 2 ^ 63) (hMb : M < 2 ^ 63) (fuel : ℕ) :
    limitDenominatorW fuel n d M = limitDenominator fuel n d M := by
  rcases lt_or_ge M d with hlt | hge
  · refine ldLoop1W_eq hcop hM hlt hn hb fuel (LD.init n d) ⟨inv_init hM hd, rfl, rfl, ?_, ?_, ?_, ?_⟩
    · have := abs_nonneg n
      simp only [LD.init, abs_zero]; omega
    · have := abs_nonneg n
      simp only [LD.init, abs_one]; omega
    · simp [LD.init]
    · simp [LD.init]
  · cases fuel with
    | zero => rfl
    | succ fuel =>
      have hs : (LD.init n d).stop M := .inr hge
      have hsW : (LD.init n d).stopW M := .inr hge
      unfold limitDenominatorW limitDenominator ldLoop1W ldLoop1
      rw [if_pos hs, if_pos hsW]
      simp only [Option.map_some]
      congr 1
      rcases hge.lt_or_eq with hlt | heq
      · unfold LD.finishW LD.finish
        have : (LD.init n d).d0 < M := hlt
        simp only [if_pos this]
      · subst heq
        have h1 : ¬ (LD.init n d).d0 < d := lt_irrefl d
        unfold LD.finishW LD.finish
        rw [if_neg h1, if_neg h1]
        have hw1 : w d = d := w_of_bound (by omega) hb
        have hw0 : w 0 = 0 := by decide
        have hw01 : w 1 = 1 := by decide
        have hwabs : w |d| = |d| := w_abs (by rw [abs_abs, abs_of_pos hd]; exact hb)
        simp [LD.init, hw0, hw01, hw1, hwabs]

end LieNN.Rational
