import Verif.Proofs.SU2UnderTop
/-!
# C82: `SU2_.clebsch_gordan` and `SU2.clebsch_gordan`

`SU2_((j, 0))` computes the coefficients by linear algebra on Gelfand-Tsetlin patterns, with rounding to
square roots of rationals, and `SU2(j)` by Racah's formula. The test `test_cg_su2` compares them for a few
labels.
-/
namespace LieNN.Props

open Matrix Spec SUN

/-- `rnd` is `round_to_sqrt_rational` with the default `max_denominator=4096` on the real numbers for
which that function ends and does not raise. -/
def IsRound (rnd : ℝ → ℝ) : Prop :=
  ∀ x v : ℝ, (∃ F : ℕ, ∀ fuel ≥ F, Rational.roundSqrtAux fuel x 4096 = some (.ok v)) → rnd x = v

/-- There is such a function. -/
theorem C82_isRound : ∃ rnd, IsRound rnd := by
  classical
  refine ⟨fun x => if h : ∃ v : ℝ, ∃ F : ℕ, ∀ fuel ≥ F, Rational.roundSqrtAux fuel x 4096 = some (.ok v) then h.choose else x,
    fun x v hv => ?_⟩
  have h : ∃ v : ℝ, ∃ F : ℕ, ∀ fuel ≥ F, Rational.roundSqrtAux fuel x 4096 = some (.ok v) := ⟨v, hv⟩
  simp only [dif_pos h]
  obtain ⟨F, hF⟩ := hv
  obtain ⟨F', hF'⟩ := h.choose_spec
  have e := (hF' (max F F') (le_max_right _ _)).symm.trans (hF (max F F') (le_max_left _ _))
  injection e with e
  injection e

theorem IsRound.keeps {rnd : ℝ → ℝ} (h : IsRound rnd) : Keeps rnd := by
  intro x p q hq1 hq2 hp hx
  refine h x x (Rational.roundSqrtAux_spec p q 4096 (by omega) (by omega) (by exact_mod_cast hq2) (by exact_mod_cast hp) x ?_)
  rw [hx]
  push_cast
  rfl

theorem IsRound.range {rnd : ℝ → ℝ} (h : IsRound rnd) {x : ℝ} (hx : |x| ≤ 1) :
    ∃ a b : ℤ, 0 ≤ a ∧ 1 ≤ b ∧ b ≤ 4096 ^ 2 + 1 ∧ rnd x ^ 2 = a / b := by
  obtain ⟨a, b, F, h1, h2, h3, v, h4, h5⟩ := roundSqrtAux_range 4096 x hx
  exact ⟨a, b, h1, h2, h3, by rw [h x v ⟨F, h5⟩, h4]⟩

section
variable {rnd : ℝ → ℝ} {eigh : EighFn}

/-- The label `(n, 0)` is accepted, and `SU2_((n, 0))` has the same dimension as `SU2(n)`. -/
theorem C82_label (n : ℕ) : iterSU2 n = .ok [(n : ℤ), 0] ∧ SUN.dim [(n : ℤ), 0] = .ok (SU2.dim n : ℤ) := by
  refine ⟨rfl, ?_⟩
  rw [dim_eq _ (lab_weight n), length_lab]

/-- C82: `SU2_.clebsch_gordan((n₁, 0), (n₂, 0), (n₃, 0))` returns exactly the array that
`SU2.clebsch_gordan(n₁, n₂, n₃)` returns, with the same signs, if the labels are not too large for the
rounding. It is the empty array for the same labels. -/
theorem C82_equal (he : EighSpec eigh) (hr : IsRound rnd) {n₁ n₂ n₃ : ℕ}
    (hb : (n₁ + 1) ^ 2 + (n₂ + 1) ^ 2 ≤ 32760)
    (hK : ∀ p q r, n₁ = q + r → n₂ = p + r → n₃ = p + q → (p + q + r + 1).choose r ≤ 4096) {fuel : ℕ} (hf : n₃ ≤ fuel) :
    ∃ L, SU2.cg n₁ n₂ n₃ = .ok L ∧ cgSU2 rnd eigh fuel (SU2.dim n₁) (SU2.dim n₂) (SU2.dim n₃)
      [(n₁ : ℤ), 0] [(n₂ : ℤ), 0] [(n₃ : ℤ), 0] = some (.ok L) := by
  have key : ∀ d₁ d₂ d₃ : ℕ, (pats (lab n₁)).length = d₁ → (pats (lab n₂)).length = d₂ → (pats (lab n₃)).length = d₃ →
      cgSU2 rnd eigh fuel d₁ d₂ d₃ (lab n₁) (lab n₂) (lab n₃) =
        if n₃ ∈ SU2.mulL n₁ n₂ then some (.ok [fun a b c => SU2.gj n₁ n₂ n₃ a b c]) else some (.ok []) := by
    rintro d₁ d₂ d₃ rfl rfl rfl
    split_ifs with hm
    · obtain ⟨p, q, r, rfl, rfl, rfl⟩ := SU2.mem_mulL.1 hm
      exact (cg_lab he hr.keeps p q r hb (hK p q r rfl rfl rfl) hf).trans rfl
    · exact cg_none he hr.keeps hb hm hf
  have h := key _ _ _ (length_lab n₁) (length_lab n₂) (length_lab n₃)
  by_cases hm : n₃ ∈ SU2.mulL n₁ n₂
  · rw [if_pos hm] at h
    exact ⟨_, SU2.cg_eq_ct hm, h⟩
  · rw [if_neg hm] at h
    exact ⟨_, SU2.cg_eq_nil hm, h⟩

/-- C82: in particular for all `n₁, n₂ ≤ 9` and all `n₃`. -/
theorem C82_small (he : EighSpec eigh) (hr : IsRound rnd) {n₁ n₂ : ℕ} (h₁ : n₁ ≤ 9) (h₂ : n₂ ≤ 9) (n₃ : ℕ)
    {fuel : ℕ} (hf : n₃ ≤ fuel) :
    ∃ L, SU2.cg n₁ n₂ n₃ = .ok L ∧ cgSU2 rnd eigh fuel (SU2.dim n₁) (SU2.dim n₂) (SU2.dim n₃)
      [(n₁ : ℤ), 0] [(n₂ : ℤ), 0] [(n₃ : ℤ), 0] = some (.ok L) := by
  refine C82_equal he hr (by nlinarith) ?_ hf
  rintro p q r rfl rfl rfl
  have key : ∀ r < 10, (19 - r).choose r ≤ 4096 := by decide +kernel
  exact (Nat.choose_le_choose r (by omega)).trans (key r (by omega))

/-- C82, the reason for the restriction: every entry of the highest column of every array that
`clebsch_gordan_matrix` returns is rounded, so its square is a fraction with a denominator of at most
`4096 ** 2 + 1`. This holds for all labels of all `SU(N)`. -/
theorem C82_top_rounded (hr : IsRound rnd) {S₁ S₂ S₃ : List ℤ} (hS : IsWeight S₃) {fuel d₁ d₂ d₃ : ℕ}
    (hd : SUN.dim S₃ = .ok (d₃ : ℤ)) {Cs : List (Fin d₁ → Fin d₂ → Fin d₃ → ℝ)}
    (h : cgSU2 rnd eigh fuel d₁ d₂ d₃ S₁ S₂ S₃ = some (.ok Cs)) :
    ∀ C ∈ Cs, ∀ i j, ∀ k : Fin d₃, (k : ℕ) + 1 = d₃ →
      ∃ a b : ℤ, 0 ≤ a ∧ 1 ≤ b ∧ b ≤ 4096 ^ 2 + 1 ∧ C i j k ^ 2 = a / b := by
  obtain rfl : (pats S₃).length = d₃ := by
    rw [dim_eq _ hS] at hd
    injection hd with hd
    exact_mod_cast hd
  intro C hC i j k hk
  obtain ⟨m, A, v, hv, e⟩ := top_of_null hS h C hC
  have hkt : k = topIdx hS := Fin.ext (by have := (pats_last hS).2; omega)
  rw [hkt, e i j]
  refine gsRnd_range (rnd := rnd) (by norm_num) (fun q => ∀ i, ∃ a b : ℤ, 0 ≤ a ∧ 1 ≤ b ∧ b ≤ 4096 ^ 2 + 1 ∧ q i ^ 2 = a / b)
    ?_ _ [] (by simp) v hv _
  intro u hu i
  refine hr.range ?_
  have h1 : u i * u i ≤ u ⬝ᵥ u := Finset.single_le_sum (f := fun i => u i * u i) (fun i _ => mul_self_nonneg _) (Finset.mem_univ i)
  rw [hu] at h1
  exact abs_le_one_iff_mul_self_le_one.2 h1

/-- C82 fails for large labels: if the first coefficient is smaller than what the rounding keeps, `SU2_`
and `SU2` do not return the same. -/
theorem C82_differs (hr : IsRound rnd) (p q r : ℕ)
    (h : (4096 ^ 2 + 1) * (q + r).choose q < (p + q + r + 1).choose r) (fuel : ℕ) :
    ∃ L, SU2.cg (q + r) (p + r) (p + q) = .ok L ∧
      cgSU2 rnd eigh fuel (SU2.dim (q + r)) (SU2.dim (p + r)) (SU2.dim (p + q))
        [((q + r : ℕ) : ℤ), 0] [((p + r : ℕ) : ℤ), 0] [((p + q : ℕ) : ℤ), 0] ≠ some (.ok L) := by
  have hm : p + q ∈ SU2.mulL (q + r) (p + r) := SU2.mem_mulL.2 ⟨p, q, r, rfl, rfl, rfl⟩
  refine ⟨_, SU2.cg_eq_ct hm, fun hc => ?_⟩
  obtain ⟨a, b, h1, h2, h3, h4⟩ := C82_top_rounded hr (lab_weight (p + q)) (C82_label (p + q)).2 hc _
    (List.mem_singleton_self _) ⟨q + r, by simp⟩ ⟨p, by simp [SU2.dim]⟩ ⟨p + q, by simp⟩ rfl
  have e : SU2.ct (q + r) (p + r) (p + q) ⟨q + r, by simp⟩ ⟨p, by simp [SU2.dim]⟩ ⟨p + q, by simp⟩ =
      SU2.g p q r (q + r) p (p + q) := by
    unfold SU2.ct
    rw [SU2.gj_eq]
  have h5 := g_top_sq p q r 0 (Nat.zero_le _)
  simp only [Nat.sub_zero, Nat.add_zero, Nat.choose_self, one_mul] at h5
  rw [e, h5] at h4
  have hK0 : 0 < (p + q + r + 1).choose r := Nat.choose_pos (by omega)
  have hq0 : 0 < (q + r).choose q := Nat.choose_pos (by omega)
  rw [div_eq_div_iff (by exact_mod_cast hK0.ne') (by exact_mod_cast (show b ≠ 0 by omega))] at h4
  have h6 : (((q + r).choose q : ℕ) : ℤ) * b = a * ((p + q + r + 1).choose r : ℕ) := by exact_mod_cast h4
  have h7 : ((4096 ^ 2 + 1 : ℤ)) * ((q + r).choose q : ℕ) < ((p + q + r + 1).choose r : ℕ) := by exact_mod_cast h
  have h8 : (0 : ℤ) < ((q + r).choose q : ℕ) := by exact_mod_cast hq0
  rcases h1.eq_or_lt with ha | ha
  · rw [← ha, zero_mul] at h6
    nlinarith
  · nlinarith

end

/-- The hypotheses are met: for `SU2_((3, 0)) ⊗ SU2_((2, 0)) → SU2_((1, 0))`. -/
example : ∃ rnd, ∃ L, SU2.cg 3 2 1 = .ok L ∧
    cgSU2 rnd exactEigh 1 (SU2.dim 3) (SU2.dim 2) (SU2.dim 1) [3, 0] [2, 0] [1, 0] = some (.ok L) := by
  obtain ⟨rnd, hr⟩ := C82_isRound
  exact ⟨rnd, C82_small exactEigh_spec hr (n₁ := 3) (n₂ := 2) (by norm_num) (by norm_num) 1 le_rfl⟩

/-- The two disagree on `(15, 0) ⊗ (29, 0) → (14, 0)`: a coefficient of `SU2` there is `1 / √155117520`. -/
theorem C82_witness {rnd : ℝ → ℝ} {eigh : EighFn} (hr : IsRound rnd) (fuel : ℕ) :
    ∃ L, SU2.cg 15 29 14 = .ok L ∧
      cgSU2 rnd eigh fuel (SU2.dim 15) (SU2.dim 29) (SU2.dim 14) [15, 0] [29, 0] [14, 0] ≠ some (.ok L) :=
  C82_differs hr 14 0 15 (by decide +kernel) fuel

end LieNN.Props
