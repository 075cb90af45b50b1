import Verif.Model.Rational
import Mathlib.Tactic.Linarith
import Mathlib.Tactic.Ring
import Mathlib.Tactic.LinearCombination
import Mathlib.Tactic.FieldSimp
import Mathlib.Data.Rat.Floor

namespace LieNN.Rational

/-! ### normalisation -/

theorem normalize_spec (n d : ℤ) (hd : d ≠ 0) :
    0 < (normalize n d).2 ∧ Int.gcd (normalize n d).1 (normalize n d).2 = 1 ∧
      (normalize n d).1 * d = n * (normalize n d).2 := by
  have hg : 0 < Int.gcd n d := Int.gcd_pos_of_ne_zero_right _ hd
  obtain ⟨a, ha⟩ : (Int.gcd n d : ℤ) ∣ n := Int.gcd_dvd_left _ _
  obtain ⟨b, hb⟩ : (Int.gcd n d : ℤ) ∣ d := Int.gcd_dvd_right _ _
  have hcop : Int.gcd a b = 1 := by
    have h : Int.gcd ((Int.gcd n d : ℤ) * a) ((Int.gcd n d : ℤ) * b) = Int.gcd n d * Int.gcd a b := by
      rw [Int.gcd_mul_left]; simp
    rw [← ha, ← hb] at h
    have : Int.gcd n d * 1 = Int.gcd n d * Int.gcd a b := by rw [mul_one]; exact h
    exact (Nat.eq_of_mul_eq_mul_left hg this).symm
  set g : ℤ := (Int.gcd n d : ℤ) with hgdef
  have hgpos : 0 < g := by rw [hgdef]; exact_mod_cast hg
  unfold normalize
  simp only [← hgdef]
  by_cases hneg : d < 0
  · have hbneg : b < 0 := by
      by_contra hb'
      have : 0 ≤ g * b := mul_nonneg hgpos.le (not_lt.1 hb')
      omega
    simp only [if_pos hneg]
    have e1 : n.fdiv (-g) = -a := by
      have h : n = (-g) * (-a) := by rw [ha]; ring
      nth_rewrite 1 [h]
      rw [Int.mul_fdiv_cancel_left _ (by omega)]
    have e2 : d.fdiv (-g) = -b := by
      have h : d = (-g) * (-b) := by rw [hb]; ring
      nth_rewrite 1 [h]
      rw [Int.mul_fdiv_cancel_left _ (by omega)]
    rw [e1, e2]
    refine ⟨by omega, by simpa using hcop, ?_⟩
    calc -a * d = -a * (g * b) := by rw [← hb]
      _ = (g * a) * -b := by ring
      _ = n * -b := by rw [← ha]
  · have hbpos : 0 < b := by
      by_contra hb'
      have : g * b ≤ 0 := mul_nonpos_of_nonneg_of_nonpos hgpos.le (not_lt.1 hb')
      omega
    simp only [if_neg hneg]
    have e1 : n.fdiv g = a := by
      nth_rewrite 1 [ha]
      rw [Int.mul_fdiv_cancel_left _ (by omega)]
    have e2 : d.fdiv g = b := by
      nth_rewrite 1 [hb]
      rw [Int.mul_fdiv_cancel_left _ (by omega)]
    rw [e1, e2]
    refine ⟨hbpos, hcop, ?_⟩
    calc a * d = a * (g * b) := by rw [← hb]
      _ = (g * a) * b := by ring
      _ = n * b := by rw [← ha]

/-! ### limit_denominator: vectorised = scalar -/

theorem step_of_stop {M : ℤ} {s : LD} (h : s.stop M) : s.step M = s := by
  simp [LD.step, h]

theorem ldLoop1_mono (M : ℤ) : ∀ (fuel : ℕ) (s r : LD), ldLoop1 M fuel s = some r →
    ∀ k, ldLoop1 M (fuel + k) s = some r := by
  intro fuel
  induction fuel with
  | zero => intro s r h; simp [ldLoop1] at h
  | succ fuel ih =>
    intro s r h k
    rw [Nat.succ_add]
    simp only [ldLoop1] at h ⊢
    split_ifs at h ⊢ with hs
    · exact h
    · exact ih _ _ h k

theorem ldLoop1_step (M : ℤ) (fuel : ℕ) (s r : LD) (h : ldLoop1 M (fuel + 1) s = some r) :
    ldLoop1 M (fuel + 1) (s.step M) = some r := by
  by_cases hs : s.stop M
  · rw [step_of_stop hs]; exact h
  · simp only [ldLoop1, if_neg hs] at h
    exact ldLoop1_mono M fuel _ _ h 1

theorem ldLoop1_stop (M : ℤ) (fuel : ℕ) (s r : LD) (h : ldLoop1 M fuel s = some r) (hs : s.stop M) :
    r = s := by
  cases fuel with
  | zero => simp [ldLoop1] at h
  | succ fuel => simp only [ldLoop1, if_pos hs] at h; exact (Option.some.inj h).symm

/-- If every element's own loop ends, the array loop ends with the same values. -/
theorem ldLoop_of_each (M : ℤ) : ∀ (fuel : ℕ) (l : List (LD × LD)),
    (∀ x ∈ l, ldLoop1 M (fuel + 1) x.1 = some x.2) →
      ldLoop M (fuel + 1) (l.map Prod.fst) = some (l.map Prod.snd) := by
  intro fuel
  induction fuel with
  | zero =>
    intro l h
    have hst : ∀ x ∈ l, x.1.stop M := by
      intro x hx
      by_contra hc
      have := h x hx
      simp [ldLoop1, hc] at this
    have hall : ∀ s ∈ l.map Prod.fst, s.stop M := by
      intro s hs
      obtain ⟨x, hx, rfl⟩ := List.mem_map.1 hs
      exact hst x hx
    rw [ldLoop, if_pos hall]
    congr 1
    apply List.map_congr_left
    intro x hx
    exact (ldLoop1_stop M _ _ _ (h x hx) (hst x hx)).symm
  | succ fuel ih =>
    intro l h
    rw [ldLoop]
    split_ifs with hall
    · congr 1
      apply List.map_congr_left
      intro x hx
      exact (ldLoop1_stop M _ _ _ (h x hx) (hall _ (List.mem_map.2 ⟨x, hx, rfl⟩))).symm
    · have := ih (l.map fun x => (x.1.step M, x.2)) (by
        intro y hy
        obtain ⟨x, hx, rfl⟩ := List.mem_map.1 hy
        have h1 := h x hx
        by_cases hs : x.1.stop M
        · have e := ldLoop1_stop M _ _ _ h1 hs
          simp only [step_of_stop hs]
          rw [ldLoop1, if_pos hs, e]
        · rw [ldLoop1, if_neg hs] at h1
          exact h1)
      simpa [List.map_map, Function.comp_def] using this

/-- Conversely, if the array loop ends then every element's own loop ends, with the same value. -/
theorem each_of_ldLoop (M : ℤ) : ∀ (fuel : ℕ) (l r : List LD), ldLoop M fuel l = some r →
    List.Forall₂ (fun s t => ldLoop1 M fuel s = some t) l r := by
  intro fuel
  induction fuel with
  | zero => intro l r h; simp [ldLoop] at h
  | succ fuel ih =>
    intro l r h
    rw [ldLoop] at h
    split_ifs at h with hall
    · have : l = r := Option.some.inj h
      subst this
      rw [List.forall₂_same]
      intro s hs
      simp [ldLoop1, hall s hs]
    · have := ih _ _ h
      rw [List.forall₂_map_left_iff] at this
      refine this.imp ?_
      intro s t hst
      by_cases hs : s.stop M
      · rw [step_of_stop hs] at hst
        exact ldLoop1_mono M _ _ _ hst 1
      · rw [ldLoop1, if_neg hs]; exact hst

/-! ### limit_denominator: best approximation -/

/-- Loop invariant of the continued-fraction loop (for `d0 > M`). -/
structure Inv (M : ℤ) (s : LD) : Prop where
  hn : s.p1 * s.n + s.p0 * s.d = s.n0
  hd : s.q1 * s.n + s.q0 * s.d = s.d0
  det : s.p1 * s.q0 - s.p0 * s.q1 = 1 ∨ s.p1 * s.q0 - s.p0 * s.q1 = -1
  dpos : 0 < s.d
  q0nn : 0 ≤ s.q0
  q1nn : 0 ≤ s.q1
  q0le : s.q0 ≤ M
  q1le : s.q1 ≤ M
  hq1 : s.q1 = 0 → s.q0 = 1
  nnn : s.q1 ≠ 0 → 0 ≤ s.n

theorem inv_init {M n d : ℤ} (hM : 1 ≤ M) (hd : 0 < d) : Inv M (LD.init n d) where
  hn := by simp [LD.init]
  hd := by simp [LD.init]
  det := by simp [LD.init]
  dpos := hd
  q0nn := by simp [LD.init]
  q1nn := by simp [LD.init]
  q0le := hM
  q1le := by simp only [LD.init]; omega
  hq1 := by simp [LD.init]
  nnn := by simp [LD.init]

theorem a_spec {s : LD} (hd : 0 < s.d) : s.a * s.d ≤ s.n ∧ s.n < s.a * s.d + s.d := by
  have h1 := Int.fmod_nonneg_of_pos s.n hd
  have h2 := Int.fmod_lt_of_pos s.n hd
  have h3 := Int.mul_fdiv_add_fmod s.n s.d
  have h4 : s.a * s.d = s.d * s.n.fdiv s.d := by rw [LD.a, mul_comm]
  constructor <;> omega

theorem step_n0 (M : ℤ) (s : LD) : (s.step M).n0 = s.n0 := by unfold LD.step; split_ifs <;> rfl
theorem step_d0 (M : ℤ) (s : LD) : (s.step M).d0 = s.d0 := by unfold LD.step; split_ifs <;> rfl

theorem inv_step {M : ℤ} {s : LD} (h : Inv M s) (hcop : Int.gcd s.n0 s.d0 = 1)
    (hs : ¬ s.stop M) : Inv M (s.step M) ∧ (s.step M).d < s.d := by
  obtain ⟨ha1, ha2⟩ := a_spec h.dpos
  have hq2 : s.q2 ≤ M := by
    by_contra hc; exact hs (.inl (not_le.1 hc))
  have hM : M < s.d0 := by
    by_contra hc; exact hs (.inr (not_lt.1 hc))
  have hstep : s.step M = ⟨s.n0, s.d0, s.d, s.n - s.a * s.d, s.p1, s.q1, s.p0 + s.a * s.p1, s.q2⟩ := by
    unfold LD.step
    rw [if_neg hs]
  rw [hstep]
  have hq2def : s.q2 = s.q0 + s.a * s.q1 := rfl
  have e1 : (s.p0 + s.a * s.p1) * s.d + s.p1 * (s.n - s.a * s.d) = s.n0 := by
    linear_combination h.hn
  have e2 : s.q2 * s.d + s.q1 * (s.n - s.a * s.d) = s.d0 := by
    rw [hq2def]; linear_combination h.hd
  have hane : s.q1 ≠ 0 → 0 ≤ s.a := by
    intro hq
    have := h.nnn hq
    by_contra hc
    have : s.a * s.d + s.d ≤ 0 := by nlinarith [h.dpos]
    omega
  have hq2nn : 0 ≤ s.q2 := by
    rw [hq2def]
    by_cases hq : s.q1 = 0
    · rw [hq, h.hq1 hq]; simp
    · have := mul_nonneg (hane hq) h.q1nn
      linarith [h.q0nn]
  have hpos : 0 < s.n - s.a * s.d := by
    rcases lt_or_eq_of_le (sub_nonneg.2 ha1) with hlt | heq
    · exact hlt
    · exfalso
      rw [← heq] at e1 e2
      simp only [mul_zero, add_zero] at e1 e2
      have hdvd : s.d ∣ 1 := by
        have : s.d ∣ (Int.gcd s.n0 s.d0 : ℤ) := Int.dvd_coe_gcd ⟨_, by rw [← e1, mul_comm]⟩ ⟨_, by rw [← e2, mul_comm]⟩
        rwa [hcop] at this
      have h1 : s.d = 1 := Int.eq_one_of_dvd_one h.dpos.le hdvd
      rw [h1, mul_one] at e2
      omega
  refine ⟨⟨e1, e2, ?_, hpos, h.q1nn, hq2nn, h.q1le, hq2, ?_, fun _ => h.dpos.le⟩, ?_⟩
  · rcases h.det with hdet | hdet
    · right; simp only [hq2def]; linear_combination -hdet
    · left; simp only [hq2def]; linear_combination -hdet
  · intro hq
    simp only at hq ⊢
    by_cases hq1 : s.q1 = 0
    · exfalso; rw [hq2def, hq1, h.hq1 hq1] at hq; simp at hq
    · -- q0 + a q1 = 0 with det ±1
      have h0 : s.q0 = 0 := by
        have := mul_nonneg (hane hq1) h.q1nn
        rw [hq2def] at hq
        linarith [h.q0nn]
      have hq1pos : 0 < s.q1 := lt_of_le_of_ne h.q1nn (Ne.symm hq1)
      have hdv : s.q1 ∣ 1 := by
        rcases h.det with hdet | hdet
        · exact ⟨-s.p0, by rw [h0] at hdet; linear_combination -hdet⟩
        · exact ⟨s.p0, by rw [h0] at hdet; linear_combination hdet⟩
      exact Int.eq_one_of_dvd_one hq1pos.le hdv
  · simp only; omega

theorem ldLoop1_spec {M : ℤ} (fuel : ℕ) : ∀ s : LD, Inv M s → Int.gcd s.n0 s.d0 = 1 →
    s.d.toNat < fuel →
    ∃ r, ldLoop1 M fuel s = some r ∧ Inv M r ∧ r.stop M ∧ r.n0 = s.n0 ∧ r.d0 = s.d0 := by
  induction fuel with
  | zero => intro s _ _ h; omega
  | succ fuel ih =>
    intro s h hcop hf
    by_cases hs : s.stop M
    · exact ⟨s, by simp [ldLoop1, hs], h, hs, rfl, rfl⟩
    · obtain ⟨h', hlt⟩ := inv_step h hcop hs
      have := h'.dpos
      obtain ⟨r, hr, h1, h2, h3, h4⟩ := ih (s.step M) h' (by rw [step_n0, step_d0]; exact hcop)
        (by omega)
      refine ⟨r, ?_, h1, h2, by rw [h3, step_n0], by rw [h4, step_d0]⟩
      rw [ldLoop1, if_neg hs]; exact hr

/-- A candidate outside the interval spanned by two adjacent fractions is no closer than one of them
(cross-multiplied). -/
theorem candidate (α β d m d1 q1 t : ℤ) (hd : 0 < d) (hm : 0 ≤ m) (hd1 : 1 ≤ d1) (hq1 : 0 < q1)
    (ht : t = α * d1 + β * q1) (ht1 : 1 ≤ t) (hbound : t < d1 + q1) :
    d * t ≤ |β * d - α * m| * q1 ∨ m * t ≤ |β * d - α * m| * d1 := by
  by_cases hα1 : α ≤ 0
  · left
    have hβ1 : 1 ≤ β := by
      by_contra hc
      have h1 : α * d1 ≤ 0 := mul_nonpos_of_nonpos_of_nonneg hα1 (by omega)
      have h2 : β * q1 ≤ 0 := mul_nonpos_of_nonpos_of_nonneg (by omega) hq1.le
      omega
    have h1 : 0 ≤ -α * m := mul_nonneg (by omega) hm
    have h2 : 0 ≤ β * d := mul_nonneg (by omega) hd.le
    rw [abs_of_nonneg (by linarith)]
    have h3 : 0 ≤ -α * m * q1 := mul_nonneg h1 hq1.le
    have h4 : 0 ≤ d * (-α * d1) := mul_nonneg hd.le (mul_nonneg (by omega) (by omega))
    rw [ht]
    linarith
  · by_cases hβ1 : β ≤ 0
    · right
      have h1 : 0 ≤ α * m := mul_nonneg (by omega) hm
      have h2 : 0 ≤ -β * d := mul_nonneg (by omega) hd.le
      rw [abs_of_nonpos (by linarith)]
      have h3 : 0 ≤ -β * d * d1 := mul_nonneg h2 (by omega)
      have h4 : 0 ≤ m * (-β * q1) := mul_nonneg hm (mul_nonneg (by omega) hq1.le)
      rw [ht]
      linarith
    · exfalso
      have h1 : 1 * d1 ≤ α * d1 := mul_le_mul_of_nonneg_right (by omega) (by omega)
      have h2 : 1 * q1 ≤ β * q1 := mul_le_mul_of_nonneg_right (by omega) hq1.le
      omega

theorem choose_first (d1 d q1 m t N : ℤ) (hd1 : 0 < d1) (hq1 : 0 < q1) (ht : 0 ≤ t)
    (hm : d1 * d ≤ q1 * m) (hc : m * t ≤ N * d1) : d * t ≤ N * q1 := by
  have h1 : d1 * d * t ≤ q1 * m * t := mul_le_mul_of_nonneg_right hm ht
  have h2 : q1 * (m * t) ≤ q1 * (N * d1) := mul_le_mul_of_nonneg_left hc hq1.le
  have h3 : d1 * (d * t) ≤ d1 * (N * q1) := by linarith
  exact le_of_mul_le_mul_left h3 hd1

/-- Cross-multiplied optimality of the final choice. -/
theorem finish_spec {M : ℤ} {s : LD} (hM : 1 ≤ M) (h : Inv M s) (hs : s.stop M) (hd0 : M < s.d0) :
    1 ≤ (s.finish M).2 ∧ (s.finish M).2 ≤ M ∧ Int.gcd (s.finish M).1 (s.finish M).2 = 1 ∧
    ∀ r t : ℤ, 1 ≤ t → t ≤ M →
      |(s.finish M).1 * s.d0 - s.n0 * (s.finish M).2| * t ≤
        |r * s.d0 - s.n0 * t| * (s.finish M).2 := by
  have hq2 : M < s.q2 := by
    rcases hs with hs | hs
    · exact hs
    · omega
  have hq2def : s.q2 = s.q0 + s.a * s.q1 := rfl
  have hq1pos : 0 < s.q1 := by
    rcases h.q1nn.lt_or_eq with hlt | heq
    · exact hlt
    · exfalso
      rw [hq2def, ← heq, h.hq1 heq.symm] at hq2
      omega
  set k := (M - s.q0).fdiv s.q1 with hk
  have hk1 : s.q0 + k * s.q1 ≤ M := by
    have h2 := Int.fmod_nonneg_of_pos (M - s.q0) hq1pos
    have h3 := Int.mul_fdiv_add_fmod (M - s.q0) s.q1
    have h4 : k * s.q1 = s.q1 * (M - s.q0).fdiv s.q1 := by rw [hk, mul_comm]
    omega
  have hk2 : M < s.q0 + k * s.q1 + s.q1 := by
    have h2 := Int.fmod_lt_of_pos (M - s.q0) hq1pos
    have h3 := Int.mul_fdiv_add_fmod (M - s.q0) s.q1
    have h4 : k * s.q1 = s.q1 * (M - s.q0).fdiv s.q1 := by rw [hk, mul_comm]
    omega
  have hknn : 0 ≤ k := by
    by_contra hc
    have : k * s.q1 ≤ -1 * s.q1 := mul_le_mul_of_nonneg_right (by omega) hq1pos.le
    have := h.q0le
    linarith
  have hka : k ≤ s.a := by
    by_contra hc
    have h1 : (s.a + 1) * s.q1 ≤ k * s.q1 := mul_le_mul_of_nonneg_right (by omega) hq1pos.le
    rw [hq2def] at hq2
    have := h.q1nn
    nlinarith
  obtain ⟨ha1, ha2⟩ := a_spec h.dpos
  have hnk : 0 ≤ s.n - k * s.d := by
    have : k * s.d ≤ s.a * s.d := mul_le_mul_of_nonneg_right hka h.dpos.le
    linarith
  have hd1pos : 1 ≤ s.q0 + k * s.q1 := by
    by_contra hc
    have h1 : 0 ≤ k * s.q1 := mul_nonneg hknn hq1pos.le
    have h2 := h.q0nn
    have hq0 : s.q0 = 0 := by omega
    have hk0 : k * s.q1 = 0 := by omega
    -- then q1 > M, contradiction
    have := h.q1le
    have hM1 : s.q1 = 1 := by
      have hdv : s.q1 ∣ 1 := by
        rcases h.det with hdet | hdet
        · exact ⟨-s.p0, by rw [hq0] at hdet; linear_combination -hdet⟩
        · exact ⟨s.p0, by rw [hq0] at hdet; linear_combination hdet⟩
      exact Int.eq_one_of_dvd_one hq1pos.le hdv
    omega
  set n1 := s.p0 + k * s.p1 with hn1
  set d1 := s.q0 + k * s.q1 with hd1
  obtain ⟨ε, hε, hdet⟩ : ∃ ε : ℤ, (ε = 1 ∨ ε = -1) ∧ s.p1 * s.q0 - s.p0 * s.q1 = ε :=
    ⟨_, h.det, rfl⟩
  have hεε : ε * ε = 1 := by rcases hε with h | h <;> simp [h]
  have hdet' : s.p1 * d1 - n1 * s.q1 = ε := by rw [hn1, hd1]; linear_combination hdet
  have hN2 : s.p1 * s.d0 - s.n0 * s.q1 = ε * s.d := by
    rw [← h.hn, ← h.hd, ← hdet]; ring
  have hN1 : n1 * s.d0 - s.n0 * d1 = -ε * (s.n - k * s.d) := by
    rw [← h.hn, ← h.hd, ← hdet, hn1, hd1]; ring
  have hab2 : |s.p1 * s.d0 - s.n0 * s.q1| = s.d := by
    rw [hN2, abs_mul, abs_of_pos h.dpos]
    rcases hε with h | h <;> simp [h]
  have hab1 : |n1 * s.d0 - s.n0 * d1| = s.n - k * s.d := by
    rw [hN1, abs_mul, abs_of_nonneg hnk]
    rcases hε with h | h <;> simp [h]
  -- any candidate is at least as far as one of the two end points
  have hcand : ∀ r t : ℤ, 1 ≤ t → t ≤ M →
      s.d * t ≤ |r * s.d0 - s.n0 * t| * s.q1 ∨
      (s.n - k * s.d) * t ≤ |r * s.d0 - s.n0 * t| * d1 := by
    intro r t ht1 ht2
    -- coordinates in the unimodular basis
    set α := ε * (s.p1 * t - r * s.q1) with hα
    set β := ε * (r * d1 - n1 * t) with hβ
    have ht : t = α * d1 + β * s.q1 := by
      have e : α * d1 + β * s.q1 = ε * (s.p1 * d1 - n1 * s.q1) * t := by rw [hα, hβ]; ring
      rw [e, hdet', hεε, one_mul]
    have hr : r = α * n1 + β * s.p1 := by
      have e : α * n1 + β * s.p1 = ε * (s.p1 * d1 - n1 * s.q1) * r := by rw [hα, hβ]; ring
      rw [e, hdet', hεε, one_mul]
    have hN : r * s.d0 - s.n0 * t = ε * (β * s.d - α * (s.n - k * s.d)) := by
      have e : r * s.d0 - s.n0 * t = α * (n1 * s.d0 - s.n0 * d1) + β * (s.p1 * s.d0 - s.n0 * s.q1) := by
        nth_rewrite 1 [hr, ht]; ring
      rw [e, hN1, hN2]; ring
    have habs : |r * s.d0 - s.n0 * t| = |β * s.d - α * (s.n - k * s.d)| := by
      rw [hN, abs_mul]
      rcases hε with h | h <;> simp [h]
    rw [habs]
    exact candidate α β s.d _ d1 s.q1 t h.dpos hnk hd1pos hq1pos ht ht1 (by omega)
  have hcop : ∀ a b c d : ℤ, (a * b - c * d = 1 ∨ a * b - c * d = -1) → Int.gcd a d = 1 := by
    intro a b c d h
    rw [← Int.isCoprime_iff_gcd_eq_one]
    rcases h with h | h
    · exact ⟨b, -c, by linear_combination h⟩
    · exact ⟨-b, c, by linear_combination -h⟩
  have hfin : s.finish M = if |d1 * (s.p1 * s.d0 - s.n0 * s.q1)| ≤ |s.q1 * (n1 * s.d0 - s.n0 * d1)|
      then (s.p1, s.q1) else (n1, d1) := by
    unfold LD.finish
    rw [if_neg (by omega)]
  have hmask : (|d1 * (s.p1 * s.d0 - s.n0 * s.q1)| ≤ |s.q1 * (n1 * s.d0 - s.n0 * d1)|) ↔
      d1 * s.d ≤ s.q1 * (s.n - k * s.d) := by
    rw [abs_mul, abs_mul, hab1, hab2, abs_of_pos hq1pos, abs_of_pos (by omega : 0 < d1)]
  rw [hfin]
  by_cases hm : |d1 * (s.p1 * s.d0 - s.n0 * s.q1)| ≤ |s.q1 * (n1 * s.d0 - s.n0 * d1)|
  · rw [if_pos hm]
    rw [hmask] at hm
    refine ⟨hq1pos, h.q1le, hcop s.p1 d1 n1 s.q1 (by rw [hdet']; exact hε), ?_⟩
    intro r t ht1 ht2
    simp only
    rw [hab2]
    rcases hcand r t ht1 ht2 with hc | hc
    · exact hc
    · exact choose_first d1 s.d s.q1 _ t _ (by omega) hq1pos (by omega) hm hc
  · rw [if_neg hm]
    rw [hmask] at hm
    have hm : s.q1 * (s.n - k * s.d) ≤ d1 * s.d := (not_le.1 hm).le
    refine ⟨hd1pos, hk1, hcop n1 s.q1 s.p1 d1 ?_, ?_⟩
    · rcases hε with he | he
      · right; rw [he] at hdet'; linear_combination -hdet'
      · left; rw [he] at hdet'; linear_combination -hdet'
    intro r t ht1 ht2
    simp only
    rw [hab1]
    rcases hcand r t ht1 ht2 with hc | hc
    · exact choose_first s.q1 _ d1 s.d t _ hq1pos (by omega) (by omega) hm hc
    · exact hc

theorem abs_sub_div (p q n d : ℤ) (hq : 0 < q) (hd : 0 < d) :
    |(p : ℚ) / q - (n : ℚ) / d| = (|p * d - n * q| : ℤ) / ((q : ℚ) * d) := by
  have hq' : (0 : ℚ) < q := by exact_mod_cast hq
  have hd' : (0 : ℚ) < d := by exact_mod_cast hd
  rw [div_sub_div _ _ hq'.ne' hd'.ne', abs_div, abs_of_pos (mul_pos hq' hd')]
  push_cast
  congr 2
  ring

/-- Main result on `limit_denominator`. -/
theorem limitDenominator_spec (n d M : ℤ) (hd : 0 < d) (hcop : Int.gcd n d = 1) (hM : 1 ≤ M)
    (hne : d ≠ M) : ∃ p q : ℤ, (∀ fuel : ℕ, d.toNat < fuel → limitDenominator fuel n d M = some (p, q)) ∧
      1 ≤ q ∧ q ≤ M ∧ Int.gcd p q = 1 ∧
      ∀ r t : ℤ, 1 ≤ t → t ≤ M → |(p : ℚ) / q - (n : ℚ) / d| ≤ |(r : ℚ) / t - (n : ℚ) / d| := by
  rcases lt_or_ge d M with hlt | hge
  · refine ⟨n, d, ?_, by omega, by omega, hcop, ?_⟩
    · intro fuel hf
      obtain ⟨fuel, rfl⟩ : ∃ f, fuel = f + 1 := ⟨fuel - 1, by omega⟩
      have hs : (LD.init n d).stop M := .inr (by simp only [LD.init]; omega)
      simp only [limitDenominator, ldLoop1, if_pos hs, Option.map_some]
      unfold LD.finish
      have : (LD.init n d).d0 < M := hlt
      rw [if_pos this]; rfl
    · intro r t _ _
      simp
  · have hMd : M < d := lt_of_le_of_ne hge (Ne.symm hne)
    obtain ⟨s, hs, h1, h2, h3, h4⟩ := ldLoop1_spec (M := M) (d.toNat + 1) (LD.init n d)
      (inv_init hM hd) hcop (by simp [LD.init])
    have hn0 : s.n0 = n := h3
    have hd0 : s.d0 = d := h4
    obtain ⟨f1, f2, f3, f4⟩ := finish_spec hM h1 h2 (by rw [hd0]; exact hMd)
    refine ⟨(s.finish M).1, (s.finish M).2, ?_, f1, f2, f3, ?_⟩
    · intro fuel hf
      have := ldLoop1_mono M _ _ _ hs (fuel - (d.toNat + 1))
      have e : d.toNat + 1 + (fuel - (d.toNat + 1)) = fuel := by omega
      rw [e] at this
      simp [limitDenominator, this]
    · intro r t ht1 ht2
      have key := f4 r t ht1 ht2
      rw [hn0, hd0] at key
      rw [abs_sub_div _ _ _ _ (by omega) hd, abs_sub_div _ _ _ _ (by omega) hd]
      have hq' : (0 : ℚ) < (s.finish M).2 := by exact_mod_cast f1
      have ht' : (0 : ℚ) < t := by exact_mod_cast (by omega : 0 < t)
      have hd' : (0 : ℚ) < d := by exact_mod_cast hd
      rw [div_le_div_iff₀ (mul_pos hq' hd') (mul_pos ht' hd')]
      have key' : ((|(s.finish M).1 * d - n * (s.finish M).2| : ℤ) : ℚ) * t ≤
          ((|r * d - n * t| : ℤ) : ℚ) * (s.finish M).2 := by exact_mod_cast key
      nlinarith

theorem limitDenominator_eq_max (n M : ℤ) (hM : 1 ≤ M) (fuel : ℕ) (hf : 0 < fuel) :
    limitDenominator fuel n M M = some (0, 1) := by
  obtain ⟨fuel, rfl⟩ : ∃ f, fuel = f + 1 := ⟨fuel - 1, by omega⟩
  have hs : (LD.init n M).stop M := .inr (by simp [LD.init])
  simp only [limitDenominator, ldLoop1, if_pos hs, Option.map_some]
  have h1 : ¬ (LD.init n M).d0 < M := lt_irrefl M
  unfold LD.finish
  rw [if_neg h1, if_neg]
  · simp [LD.init]
  · simp [LD.init]; omega

/-! ### as_approx_integer_ratio -/

theorem npRound_err (x : ℝ) : |(npRound x : ℝ) - x| ≤ 1 / 2 := by
  have h0 := Int.fract_nonneg x
  have h1 := Int.fract_lt_one x
  have h2 : (⌊x⌋ : ℝ) = x - Int.fract x := by rw [Int.fract]; ring
  unfold npRound
  split_ifs with ha hb hc
  · rw [h2, abs_le]; constructor <;> linarith
  · push_cast; rw [h2, abs_le]; constructor <;> linarith
  · rw [h2, abs_le]; constructor <;> linarith
  · push_cast; rw [h2, abs_le]; constructor <;> linarith

theorem le_npRound (x : ℝ) (k : ℤ) (h : (k : ℝ) ≤ x) : k ≤ npRound x := by
  have : k ≤ ⌊x⌋ := Int.le_floor.2 h
  unfold npRound
  split_ifs <;> omega

theorem npRound_zero : npRound 0 = 0 := by simp [npRound]

theorem big_real : ((big : ℤ) : ℝ) = 2 ^ 51 := by norm_num [big]

theorem asApproxAux_spec (x : ℝ) (h0 : 0 < x) (h1 : x ≤ 1) :
    ∃ n d : ℤ, asApproxAux x = .ok (n, d) ∧
      ((x * 2 ^ 51 < 1 ∧ n = 0 ∧ d = 1) ∨
       (1 ≤ x * 2 ^ 51 ∧ 1 ≤ n ∧ x * 2 ^ 51 ≤ 2 * n ∧ 2 ^ 50 ≤ d ∧ |(d : ℝ) - n / x| ≤ 1 / 2)) := by
  refine ⟨_, _, by simp only [asApproxAux, pyAssert, if_pos h0, if_pos h1]; rfl, ?_⟩
  rw [big_real]
  have hfl := Int.floor_le (x * 2 ^ 51)
  have hfl2 := Int.lt_floor_add_one (x * 2 ^ 51)
  have hpos : 0 < x * 2 ^ 51 := by positivity
  set N := ⌊x * 2 ^ 51⌋ with hN
  rcases lt_or_ge (x * 2 ^ 51) 1 with hlt | hge
  · left
    have hN0 : N = 0 := by
      rw [hN, Int.floor_eq_iff]
      constructor
      · simpa using hpos.le
      · simpa using hlt
    refine ⟨hlt, hN0, ?_⟩
    rw [hN0]; simp [npRound_zero]
  · right
    have hN1 : 1 ≤ N := by rw [hN, Int.le_floor]; simpa using hge
    have hN1' : (1 : ℝ) ≤ N := by exact_mod_cast hN1
    have hhalf : x * 2 ^ 51 ≤ 2 * N := by linarith
    have hge50 : ((2 ^ 50 : ℤ) : ℝ) ≤ N / x := by
      rw [le_div_iff₀ h0]
      push_cast
      linarith
    have hd := le_npRound _ _ hge50
    have hd' : (2 : ℤ) ^ 50 ≤ npRound (N / x) := hd
    have hne : npRound (N / x) ≠ 0 := by
      intro h; rw [h] at hd'; norm_num at hd'
    rw [if_neg hne]
    exact ⟨hge, hN1, hhalf, hd', npRound_err _⟩

theorem normalize_real (n d : ℤ) (hd : d ≠ 0) :
    ((normalize n d).1 : ℝ) / (normalize n d).2 = n / d := by
  obtain ⟨h1, _, h3⟩ := normalize_spec n d hd
  have hd' : (d : ℝ) ≠ 0 := by exact_mod_cast hd
  have h1' : ((normalize n d).2 : ℝ) ≠ 0 := by exact_mod_cast h1.ne'
  rw [div_eq_div_iff h1' hd']
  exact_mod_cast h3

theorem normalize_zero_one : normalize 0 1 = (0, 1) := by decide

/-- The unnormalised pair computed from `|x|`. -/
theorem asApprox_reduce (x : ℝ) (hx : x ≠ 0) : ∃ n d : ℤ,
    asApprox x = (if 0 < d then .ok (normalize ((SignType.sign x : ℤ) * n) d)
      else .error .assertionError) ∧
    ((|x| * 2 ^ 51 < 1 ∧ n = 0 ∧ d = 1) ∨ (2 ^ 51 < |x| ∧ d = 0) ∨
     (1 ≤ |x| * 2 ^ 51 ∧ |x| ≤ 2 ^ 51 ∧ 1 ≤ n ∧ 1 ≤ d ∧ |(n : ℝ) / d - (|x|)| ≤ |x| / 2 ^ 51)) := by
  have hx0 : |x| ≠ 0 := abs_ne_zero.2 hx
  have hpos : 0 < |x| := abs_pos.2 hx
  set y := if |x| ≤ 1 then |x| else 1 with hy
  set z := if 1 / |x| ≤ 1 then 1 / |x| else 1 with hz
  have hinv : 0 < 1 / |x| := by positivity
  obtain ⟨n1, d1, e1, s1⟩ := asApproxAux_spec y (by rw [hy]; split_ifs <;> linarith)
    (by rw [hy]; split_ifs <;> linarith)
  obtain ⟨n2, d2, e2, s2⟩ := asApproxAux_spec z (by rw [hz]; split_ifs <;> linarith)
    (by rw [hz]; split_ifs <;> linarith)
  have hred : asApprox x = (let nd := if |x| ≤ 1 then (n1, d1) else (d2, n2)
      if 0 < nd.2 then .ok (normalize ((SignType.sign x : ℤ) * nd.1) nd.2)
      else .error .assertionError) := by
    unfold asApprox
    simp only [if_neg hx0, ← hy, ← hz, e1, e2]
    show (pyAssert _ >>= _) = _
    simp only [pyAssert]
    split_ifs with h1 h2 <;> rfl
  by_cases hle : |x| ≤ 1
  · refine ⟨n1, d1, by rw [hred, if_pos hle], ?_⟩
    have hyx : y = |x| := by rw [hy, if_pos hle]
    rw [hyx] at s1
    rcases s1 with ⟨h1, h2, h3⟩ | ⟨h1, h2, h3, h4, h5⟩
    · exact .inl ⟨h1, h2, h3⟩
    · right; right
      have hd1 : (2 : ℝ) ^ 50 ≤ d1 := by exact_mod_cast h4
      have hdp : (0 : ℝ) < d1 := lt_of_lt_of_le (by positivity) hd1
      refine ⟨h1, by linarith [show (1 : ℝ) ≤ 2 ^ 51 by norm_num], h2, by omega, ?_⟩
      have e : (n1 : ℝ) / d1 - |x| = -(|x| / d1 * (d1 - n1 / |x|)) := by field_simp; ring
      rw [e, abs_neg, abs_mul, abs_of_pos (div_pos hpos hdp)]
      calc |x| / d1 * |(d1 : ℝ) - n1 / (|x|)| ≤ |x| / d1 * (1 / 2) :=
            mul_le_mul_of_nonneg_left h5 (div_pos hpos hdp).le
        _ = |x| / (2 * d1) := by field_simp
        _ ≤ |x| / 2 ^ 51 := by
            apply div_le_div_of_nonneg_left hpos.le (by positivity)
            linarith [show (2 : ℝ) ^ 51 = 2 * 2 ^ 50 by norm_num]
  · have hgt : 1 < |x| := not_le.1 hle
    refine ⟨d2, n2, by rw [hred, if_neg hle], ?_⟩
    have hzx : z = 1 / |x| := by
      rw [hz, if_pos]
      rw [div_le_one hpos]; exact hgt.le
    rw [hzx] at s2
    rcases s2 with ⟨h1, h2, h3⟩ | ⟨h1, h2, h3, h4, h5⟩
    · right; left
      refine ⟨?_, h2⟩
      rw [div_mul_eq_mul_div, one_mul, div_lt_one hpos] at h1
      exact h1
    · right; right
      have hn : (1 : ℝ) ≤ n2 := by exact_mod_cast h2
      have hnp : (0 : ℝ) < n2 := by linarith
      have hle51 : |x| ≤ 2 ^ 51 := by
        rw [div_mul_eq_mul_div, one_mul, one_le_div hpos] at h1
        exact h1
      refine ⟨by nlinarith [show (1 : ℝ) ≤ 2 ^ 51 by norm_num], hle51, ?_, h2, ?_⟩
      · have : (2 : ℤ) ^ 50 ≤ d2 := h4
        have : (1 : ℤ) ≤ 2 ^ 50 := by norm_num
        omega
      · have e5 : (n2 : ℝ) / (1 / |x|) = n2 * |x| := by field_simp
        rw [e5] at h5
        have e : (d2 : ℝ) / n2 - |x| = (d2 - n2 * |x|) / n2 := by field_simp
        rw [e, abs_div, abs_of_pos hnp, div_le_iff₀ hnp]
        have h3' : 1 / |x| * 2 ^ 51 ≤ 2 * n2 := h3
        have h6 : (2 : ℝ) ^ 51 ≤ 2 * n2 * |x| := by
          have := mul_le_mul_of_nonneg_right h3' hpos.le
          have e7 : 1 / |x| * 2 ^ 51 * |x| = 2 ^ 51 := by field_simp
          linarith
        calc |(d2 : ℝ) - n2 * (|x|)| ≤ 1 / 2 := h5
          _ ≤ |x| / 2 ^ 51 * n2 := by
            rw [div_mul_eq_mul_div, le_div_iff₀ (by positivity)]
            linarith

/-- Behaviour of `as_approx_integer_ratio` in exact arithmetic. -/
theorem asApprox_spec (x : ℝ) :
    (|x| * 2 ^ 51 < 1 → asApprox x = .ok (0, 1)) ∧
    (2 ^ 51 < |x| → asApprox x = .error .assertionError) ∧
    (1 ≤ |x| * 2 ^ 51 → |x| ≤ 2 ^ 51 → ∃ p q : ℤ, asApprox x = .ok (p, q) ∧ 0 < q ∧
      Int.gcd p q = 1 ∧ SignType.sign p = SignType.sign x ∧ |(p : ℝ) / q - x| ≤ |x| / 2 ^ 51) := by
  by_cases hx : x = 0
  · subst hx
    refine ⟨fun _ => ?_, fun h => ?_, fun h => ?_⟩
    · unfold asApprox
      simp only [abs_zero, if_true, le_refl, div_one]
      obtain ⟨n1, d1, e1, -⟩ := asApproxAux_spec 1 one_pos le_rfl
      simp only [e1, pyAssert, gt_iff_lt, zero_lt_one, if_true]
      show Except.ok (normalize _ 1) = _
      simp [normalize_zero_one]
    · simp only [abs_zero] at h
      exact absurd h (not_lt.2 (by positivity))
    · simp only [abs_zero, zero_mul] at h
      exact absurd h (by norm_num)
  · obtain ⟨n, d, e, hcases⟩ := asApprox_reduce x hx
    have hpos : 0 < |x| := abs_pos.2 hx
    have h51 : (1 : ℝ) ≤ 2 ^ 51 := by norm_num
    refine ⟨fun h => ?_, fun h => ?_, fun h h' => ?_⟩
    · rcases hcases with ⟨_, h2, h3⟩ | ⟨h1, _⟩ | ⟨h1, _⟩
      · rw [e, h2, h3]; simp [normalize_zero_one]
      · exfalso; nlinarith
      · exfalso; linarith
    · rcases hcases with ⟨h1, h2, h3⟩ | ⟨h1, h2⟩ | ⟨h1, h2, _⟩
      · exfalso; nlinarith
      · rw [e, h2]; rfl
      · exfalso; linarith
    · rcases hcases with ⟨h1, h2, h3⟩ | ⟨h1, h2⟩ | ⟨h1, h2, h3, h4, h5⟩
      · exfalso; linarith
      · exfalso; linarith
      · obtain ⟨f1, f2, f3⟩ := normalize_spec ((SignType.sign x : ℤ) * n) d (by omega)
        refine ⟨_, _, by rw [e, if_pos (by omega)], f1, f2, ?_, ?_⟩
        · have hsd : SignType.sign d = 1 := sign_pos (by omega)
          have hsn : SignType.sign n = 1 := sign_pos (by omega)
          have := congrArg SignType.sign f3
          rw [sign_mul, sign_mul, sign_mul, hsd, hsn, sign_pos f1, mul_one, mul_one, mul_one] at this
          rw [this]
          cases SignType.sign x <;> decide
        · have := normalize_real ((SignType.sign x : ℤ) * n) d (by omega)
          rw [this]
          have hsx : x = (SignType.sign x : ℝ) * |x| := (sign_mul_abs x).symm
          have hc : (((SignType.sign x : ℤ) * n : ℤ) : ℝ) = (SignType.sign x : ℝ) * n := by
            push_cast
            congr 1
          have e2 : (((SignType.sign x : ℤ) * n : ℤ) : ℝ) / d - x = (SignType.sign x : ℝ) * (n / d - |x|) := by
            rw [hc]
            nth_rewrite 2 [hsx]
            ring
          rw [e2, abs_mul]
          have hs1 : |(SignType.sign x : ℝ)| = 1 := by
            rcases lt_or_gt_of_ne hx with hl | hl
            · simp [sign_neg hl]
            · simp [sign_pos hl]
          rw [hs1, one_mul]
          exact h5

/-! ### round_to_sqrt_rational -/

theorem frac_gap (p q r t : ℤ) (hq : 0 < q) (ht : 0 < t) (h : (p : ℝ) / q ≠ r / t) :
    1 / ((q : ℝ) * t) ≤ |(p : ℝ) / q - r / t| := by
  have hq' : (0 : ℝ) < q := by exact_mod_cast hq
  have ht' : (0 : ℝ) < t := by exact_mod_cast ht
  rw [div_sub_div _ _ hq'.ne' ht'.ne', abs_div, abs_of_pos (mul_pos hq' ht')]
  apply div_le_div_of_nonneg_right _ (mul_pos hq' ht').le
  have hne : p * t - q * r ≠ 0 := by
    intro h0
    apply h
    rw [div_eq_div_iff hq'.ne' ht'.ne']
    have : p * t = r * q := by linarith
    exact_mod_cast this
  have : 1 ≤ |p * t - q * r| := Int.one_le_abs hne
  exact_mod_cast this

theorem roundSqrtAux_spec (p q N : ℤ) (hp : 0 ≤ p) (hq : 1 ≤ q) (hqN : q ≤ N ^ 2)
    (hsmall : p * (N ^ 2 + 1) < 2 ^ 50) (x : ℝ) (hx : x ^ 2 = (p : ℝ) / q) :
    ∃ F : ℕ, ∀ fuel ≥ F, roundSqrtAux fuel x N = some (.ok x) := by
  have hq' : (0 : ℝ) < q := by exact_mod_cast hq
  have hM : 1 ≤ N ^ 2 + 1 := by nlinarith [sq_nonneg N]
  rcases hp.eq_or_lt with hp0 | hppos
  · have hx0 : x = 0 := by
      rw [← hp0] at hx
      simpa using hx
    subst hx0
    refine ⟨2, fun fuel hf => ?_⟩
    have h1 := (asApprox_spec (0 ^ 2)).1 (by norm_num)
    unfold roundSqrtAux
    rw [h1]
    simp only
    have hNe : (1 : ℤ) ≠ N ^ 2 + 1 := by
      intro h
      have : N ^ 2 = 0 := by linarith
      omega
    obtain ⟨a, b, hab, -⟩ := limitDenominator_spec 0 1 (N ^ 2 + 1) one_pos (by simp) hM hNe
    rw [hab fuel (by simp; omega)]
    simp
  · have hp1 : (1 : ℝ) ≤ p := by exact_mod_cast hppos
    have hN2 : (1 : ℝ) ≤ (N : ℝ) ^ 2 := by
      have : (1 : ℤ) ≤ N ^ 2 := by omega
      exact_mod_cast this
    have hqN' : (q : ℝ) ≤ (N : ℝ) ^ 2 := by exact_mod_cast hqN
    have hsmall' : (p : ℝ) * ((N : ℝ) ^ 2 + 1) < 2 ^ 50 := by exact_mod_cast hsmall
    have hx2 : |x ^ 2| = (p : ℝ) / q := by rw [abs_of_nonneg (sq_nonneg x), hx]
    have hp50 : (p : ℝ) < 2 ^ 50 := by nlinarith
    have hq50 : (q : ℝ) < 2 ^ 50 := by nlinarith
    obtain ⟨n, d, h1, h2, h3, h4, h5⟩ := (asApprox_spec (x ^ 2)).2.2
      (by
        rw [hx2, div_mul_eq_mul_div, le_div_iff₀ hq']
        nlinarith [show (2 : ℝ) ^ 51 = 2 * 2 ^ 50 by norm_num])
      (by
        rw [hx2, div_le_iff₀ hq']
        have : (1 : ℝ) ≤ q := by exact_mod_cast hq
        nlinarith [show (2 : ℝ) ^ 51 = 2 * 2 ^ 50 by norm_num])
    rw [hx2, hx] at h5
    have hd' : (0 : ℝ) < d := by exact_mod_cast h2
    -- the crucial gap estimate
    have gap : ∀ r t : ℤ, 1 ≤ t → t ≤ N ^ 2 + 1 →
        |(r : ℝ) / t - (p : ℝ) / q| ≤ (p : ℝ) / q / 2 ^ 50 → (r : ℝ) / t = (p : ℝ) / q := by
      intro r t ht1 ht2 hle
      by_contra hne
      have hg := frac_gap r t p q (by omega) (by omega) hne
      have ht' : (0 : ℝ) < t := by exact_mod_cast ht1
      have ht2' : (t : ℝ) ≤ (N : ℝ) ^ 2 + 1 := by exact_mod_cast ht2
      have h6 : 1 / ((t : ℝ) * q) ≤ (p : ℝ) / q / 2 ^ 50 := hg.trans hle
      rw [div_div, div_le_div_iff₀ (by positivity) (by positivity)] at h6
      have h7 : (2 : ℝ) ^ 50 ≤ p * t := by
        have : (q : ℝ) * 2 ^ 50 ≤ q * (p * t) := by linarith
        exact le_of_mul_le_mul_left this hq'
      nlinarith
    have hdne : d ≠ N ^ 2 + 1 := by
      intro hd
      have h6 : (n : ℝ) / d = (p : ℝ) / q := by
        refine gap n d (by omega) (by omega) (h5.trans ?_)
        apply div_le_div_of_nonneg_left (by positivity) (by positivity)
        norm_num
      have h7 : n * q = p * d := by
        rw [div_eq_div_iff hd'.ne' hq'.ne'] at h6
        exact_mod_cast h6
      have h8 : d ∣ q := by
        have : d ∣ n * q := ⟨p, by rw [h7, mul_comm]⟩
        exact (Int.isCoprime_iff_gcd_eq_one.2 h3).symm.dvd_of_dvd_mul_left this
      have := Int.le_of_dvd (by omega) h8
      omega
    obtain ⟨a, b, hab, hb1, hb2, hcop, hopt⟩ := limitDenominator_spec n d (N ^ 2 + 1) h2 h3 hM hdne
    have hopt1 := hopt p q hq (by omega)
    have hopt' : |(a : ℝ) / b - (n : ℝ) / d| ≤ |(p : ℝ) / q - (n : ℝ) / d| := by exact_mod_cast hopt1
    have habpq : (a : ℝ) / b = (p : ℝ) / q := by
      refine gap a b hb1 hb2 ?_
      have h6 : |(p : ℝ) / q - (n : ℝ) / d| ≤ (p : ℝ) / q / 2 ^ 51 := by
        rw [abs_sub_comm]; exact h5
      calc |(a : ℝ) / b - (p : ℝ) / q|
          = |((a : ℝ) / b - (n : ℝ) / d) + ((n : ℝ) / d - (p : ℝ) / q)| := by ring_nf
        _ ≤ |(a : ℝ) / b - (n : ℝ) / d| + |(n : ℝ) / d - (p : ℝ) / q| := abs_add_le _ _
        _ ≤ (p : ℝ) / q / 2 ^ 51 + (p : ℝ) / q / 2 ^ 51 := by linarith
        _ = (p : ℝ) / q / 2 ^ 50 := by ring
    refine ⟨d.toNat + 1, fun fuel hf => ?_⟩
    unfold roundSqrtAux
    rw [h1]
    simp only
    rw [hab fuel (by omega)]
    simp only
    rw [habpq, ← hx, Real.sqrt_sq_eq_abs]
    congr 2
    have hc : ((SignType.sign x : ℤ) : ℝ) = (SignType.sign x : ℝ) := by
      cases SignType.sign x <;> simp
    rw [hc, sign_mul_abs]

end LieNN.Rational
