import Verif.Proofs.RationalInt64

/-!
# Properties C06 – C10, C60: rational approximation
-/
namespace LieNN.Props
open LieNN.Rational

/-- C06: lowest terms, positive denominator, same value. -/
theorem C06_normalize (n d : ℤ) (hd : d ≠ 0) : ∃ n' d' : ℤ, normalize n d = (n', d') ∧
    0 < d' ∧ Int.gcd n' d' = 1 ∧ n' * d = n * d' := by
  obtain ⟨h1, h2, h3⟩ := normalize_spec n d hd
  exact ⟨_, _, rfl, h1, h2, h3⟩

example : normalize 6 (-4) = (-3, 2) := by decide

/-- C07: for a fraction in lowest terms whose denominator is not exactly `M`, `limit_denominator`
halts and returns a best approximation among all fractions with denominator at most `M`,
in lowest terms. -/
theorem C07_limit_denominator (n d M : ℤ) (hd : 0 < d) (hcop : Int.gcd n d = 1)
    (hM : 1 ≤ M) (hne : d ≠ M) :
    ∃ p q : ℤ, (∃ F : ℕ, ∀ fuel ≥ F, limitDenominator fuel n d M = some (p, q)) ∧
      1 ≤ q ∧ q ≤ M ∧ Int.gcd p q = 1 ∧
      ∀ r t : ℤ, 1 ≤ t → t ≤ M → |(p : ℚ) / q - (n : ℚ) / d| ≤ |(r : ℚ) / t - (n : ℚ) / d| := by
  obtain ⟨p, q, h1, h2⟩ := limitDenominator_spec n d M hd hcop hM hne
  exact ⟨p, q, ⟨d.toNat + 1, fun fuel hf => h1 fuel (by omega)⟩, h2⟩

/-- C07, exactness: a fraction whose denominator is below `M` is returned unchanged. -/
theorem C07_exact_below (n d M : ℤ) (hd : d < M) (fuel : ℕ) (hf : 0 < fuel) :
    limitDenominator fuel n d M = some (n, d) := by
  obtain ⟨fuel, rfl⟩ : ∃ f, fuel = f + 1 := ⟨fuel - 1, by omega⟩
  have hs : (LD.init n d).stop M := .inr hd.le
  simp only [limitDenominator, ldLoop1, if_pos hs, Option.map_some]
  unfold LD.finish
  have : (LD.init n d).d0 < M := hd
  rw [if_pos this]; rfl

/-- C07 is false at `d == max_denominator`: there the shipped code returns `0/1` whatever the
numerator, although `n/d` itself was an admissible answer. -/
theorem C07_fails_at_max (n M : ℤ) (hM : 1 ≤ M) (fuel : ℕ) (hf : 0 < fuel) :
    limitDenominator fuel n M M = some (0, 1) := limitDenominator_eq_max n M hM fuel hf

/-- Concrete refutation of the unrestricted claim: `limit_denominator(2, 3, 3)` is `0/1`. -/
theorem C07_unrestricted_false : ¬ ∀ n d M : ℤ, 0 < d → Int.gcd n d = 1 → 1 ≤ M →
    ∃ p q : ℤ, (∃ F : ℕ, ∀ fuel ≥ F, limitDenominator fuel n d M = some (p, q)) ∧
      ∀ r t : ℤ, 1 ≤ t → t ≤ M → |(p : ℚ) / q - (n : ℚ) / d| ≤ |(r : ℚ) / t - (n : ℚ) / d| := by
  intro h
  obtain ⟨p, q, ⟨F, hF⟩, hopt⟩ := h 2 3 3 (by norm_num) (by decide) (by norm_num)
  have h1 := hF (F + 1) (by omega)
  rw [C07_fails_at_max 2 3 (by norm_num) (F + 1) (by omega)] at h1
  obtain ⟨rfl, rfl⟩ := Prod.mk.inj (Option.some.inj h1)
  have h2 := hopt 2 3 (by norm_num) (by norm_num)
  norm_num at h2

/-- Non-vacuity of C07: a case where the continued-fraction loop really runs (355/113, M = 100). -/
example : limitDenominator 10 355 113 100 = some (311, 99) ∧ Int.gcd 355 113 = 1 ∧ (113 : ℤ) ≠ 100 := by
  decide

/-- C08: on arrays, `limit_denominator` is the element-wise scalar function: if each element's own
run ends (with whatever value), the array run ends with the list of those values … -/
theorem C08_vectorised (M : ℤ) (l : List (ℤ × ℤ)) (f : ℤ × ℤ → ℤ × ℤ)
    (h : ∀ x ∈ l, ∃ F, limitDenominator F x.1 x.2 M = some (f x)) :
    ∃ F, ∀ fuel ≥ F, limitDenominatorVec fuel l M = some (l.map f) := by
  have hpt : ∀ x ∈ l, ∃ F, ∀ fuel ≥ F, ∃ r, ldLoop1 M fuel (LD.init x.1 x.2) = some r ∧ r.finish M = f x := by
    intro x hx
    obtain ⟨F, hF⟩ := h x hx
    unfold limitDenominator at hF
    rw [Option.map_eq_some_iff] at hF
    obtain ⟨r, hr, hr'⟩ := hF
    refine ⟨F, fun fuel hf => ⟨r, ?_, hr'⟩⟩
    have := ldLoop1_mono M _ _ _ hr (fuel - F)
    rwa [show F + (fuel - F) = fuel by omega] at this
  have huni : ∃ F, ∀ fuel ≥ F, ∀ x ∈ l, ∃ r, ldLoop1 M fuel (LD.init x.1 x.2) = some r ∧ r.finish M = f x := by
    clear h
    induction l with
    | nil => exact ⟨0, by simp⟩
    | cons a l ih =>
      obtain ⟨F1, h1⟩ := hpt a (by simp)
      obtain ⟨F2, h2⟩ := ih (fun x hx => hpt x (by simp [hx]))
      refine ⟨max F1 F2, fun fuel hf x hx => ?_⟩
      rcases List.mem_cons.1 hx with rfl | hx
      · exact h1 fuel (le_trans (le_max_left _ _) hf)
      · exact h2 fuel (le_trans (le_max_right _ _) hf) x hx
  obtain ⟨F, hF⟩ := huni
  refine ⟨F + 1, fun fuel hf => ?_⟩
  obtain ⟨fuel, rfl⟩ : ∃ k, fuel = k + 1 := ⟨fuel - 1, by omega⟩
  classical
  let g : ℤ × ℤ → LD := fun x => if hx : x ∈ l then (hF (fuel + 1) (by omega) x hx).choose else LD.init 0 0
  have hg : ∀ x ∈ l, ldLoop1 M (fuel + 1) (LD.init x.1 x.2) = some (g x) ∧ (g x).finish M = f x := by
    intro x hx
    simp only [g, dif_pos hx]
    exact (hF (fuel + 1) (by omega) x hx).choose_spec
  have := ldLoop_of_each M fuel (l.map fun x => (LD.init x.1 x.2, g x)) (by
    intro y hy
    obtain ⟨x, hx, rfl⟩ := List.mem_map.1 hy
    exact (hg x hx).1)
  simp only [List.map_map] at this
  unfold limitDenominatorVec
  have e : (l.map fun x => LD.init x.1 x.2) =
      l.map (Prod.fst ∘ fun x => (LD.init x.1 x.2, g x)) := rfl
  rw [e, this]
  simp only [Option.map_some, List.map_map]
  congr 1
  apply List.map_congr_left
  intro x hx
  exact (hg x hx).2

/-- … and conversely a result of the array run is, position by position, the scalar result. -/
theorem C08_vectorised_converse (M : ℤ) (fuel : ℕ) (l r : List (ℤ × ℤ))
    (h : limitDenominatorVec fuel l M = some r) :
    List.Forall₂ (fun x y => limitDenominator fuel x.1 x.2 M = some y) l r := by
  unfold limitDenominatorVec at h
  rw [Option.map_eq_some_iff] at h
  obtain ⟨ss, hs, rfl⟩ := h
  have := each_of_ldLoop M fuel _ _ hs
  rw [List.forall₂_map_left_iff] at this
  rw [List.forall₂_map_right_iff]
  refine this.imp ?_
  intro x s hx
  simp [limitDenominator, hx]

/-- C08 combined with C07: on arrays of coprime pairs the array call always ends. -/
theorem C08_terminates (M : ℤ) (hM : 1 ≤ M) (l : List (ℤ × ℤ))
    (h : ∀ x ∈ l, 0 < x.2 ∧ Int.gcd x.1 x.2 = 1) :
    ∃ F, ∀ fuel ≥ F, ∃ r, limitDenominatorVec fuel l M = some r := by
  classical
  have hex : ∀ x ∈ l, ∃ y, ∃ F, limitDenominator F x.1 x.2 M = some y := by
    intro x hx
    obtain ⟨h1, h2⟩ := h x hx
    by_cases hne : x.2 = M
    · exact ⟨(0, 1), 1, by rw [hne]; exact limitDenominator_eq_max _ _ hM 1 one_pos⟩
    · obtain ⟨p, q, ⟨F, hF⟩, _⟩ := C07_limit_denominator x.1 x.2 M h1 h2 hM hne
      exact ⟨(p, q), F, hF F le_rfl⟩
  obtain ⟨F, hF⟩ := C08_vectorised M l
    (fun x => if hx : ∃ y, ∃ F, limitDenominator F x.1 x.2 M = some y then hx.choose else (0, 0))
    (fun x hx => by simp only [dif_pos (hex x hx)]; exact (hex x hx).choose_spec)
  exact ⟨F, fun fuel hf => ⟨_, hF fuel hf⟩⟩

example : limitDenominatorVec 10 [(355, 113), (1, 3), (-7, 1000)] 100 =
    some [(311, 99), (1, 3), (-1, 100)] := by decide

/-- C09: in exact arithmetic, below `2^-51` the result is `0/1`; above `2^51` the function raises
`AssertionError`; in between it is a normalised fraction of the same sign with relative error at
most `2^-51`. -/
theorem C09_as_approx_integer_ratio (x : ℝ) :
    (|x| < 1 / 2 ^ 51 → asApprox x = .ok (0, 1)) ∧
    (2 ^ 51 < |x| → asApprox x = .error .assertionError) ∧
    (1 / 2 ^ 51 ≤ |x| → |x| ≤ 2 ^ 51 → ∃ p q : ℤ, asApprox x = .ok (p, q) ∧ 0 < q ∧
      Int.gcd p q = 1 ∧ SignType.sign p = SignType.sign x ∧ |(p : ℝ) / q - x| ≤ |x| / 2 ^ 51) := by
  obtain ⟨h1, h2, h3⟩ := asApprox_spec x
  refine ⟨fun h => h1 ?_, h2, fun h h' => h3 ?_ h'⟩
  · rwa [lt_div_iff₀ (by positivity)] at h
  · rwa [div_le_iff₀ (by positivity)] at h

/-- C09: absolute error on `[-1, 1]`. -/
theorem C09_abs_error (x : ℝ) (hx : |x| ≤ 1) : ∃ p q : ℤ, asApprox x = .ok (p, q) ∧ 0 < q ∧
    Int.gcd p q = 1 ∧ |(p : ℝ) / q - x| ≤ 1 / 2 ^ 51 := by
  obtain ⟨h1, -, h3⟩ := C09_as_approx_integer_ratio x
  rcases lt_or_ge |x| (1 / 2 ^ 51) with h | h
  · exact ⟨0, 1, h1 h, one_pos, by decide, by simpa using h.le⟩
  · obtain ⟨p, q, e1, e2, e3, _, e5⟩ := h3 h (hx.trans (by norm_num))
    refine ⟨p, q, e1, e2, e3, e5.trans ?_⟩
    gcongr

/-- Non-vacuity of the middle branch and of the raising branch. -/
example : (1 : ℝ) / 2 ^ 51 ≤ |(1 / 3 : ℝ)| ∧ |(1 / 3 : ℝ)| ≤ 2 ^ 51 ∧ (2 : ℝ) ^ 51 < |2 ^ 52| := by
  norm_num

/-- C10: `round_to_sqrt_rational` is the identity on square roots (of either sign) of rationals `p/q`
with `q ≤ max_denominator²` and `p (max_denominator² + 1) < 2^50`. -/
theorem C10_round_to_sqrt_rational (p q N : ℤ) (hp : 0 ≤ p) (hq : 1 ≤ q) (hqN : q ≤ N ^ 2)
    (hsmall : p * (N ^ 2 + 1) < 2 ^ 50) (x : ℝ) (hx : x ^ 2 = (p : ℝ) / q) :
    ∃ F : ℕ, ∀ fuel ≥ F, roundSqrt fuel (x : ℂ) N = some (.ok (x : ℂ)) := by
  obtain ⟨F, hF⟩ := roundSqrtAux_spec p q N hp hq hqN hsmall x hx
  refine ⟨F, fun fuel hf => ?_⟩
  simp only [roundSqrt, Complex.ofReal_im, ne_eq, not_true, if_false, Complex.ofReal_re, hF fuel hf]
  rfl

/-- C10 with the default `max_denominator = 4096`: every `±√(p/q)` with `0 ≤ p ≤ 3q`, `q ≤ 4096²`. -/
theorem C10_default (p q : ℤ) (hp : 0 ≤ p) (hq : 1 ≤ q) (hq2 : q ≤ 4096 ^ 2) (hpq : p ≤ 3 * q) (x : ℝ)
    (hx : x ^ 2 = (p : ℝ) / q) :
    ∃ F : ℕ, ∀ fuel ≥ F, roundSqrt fuel (x : ℂ) 4096 = some (.ok (x : ℂ)) := by
  refine C10_round_to_sqrt_rational p q 4096 hp hq hq2 ?_ x hx
  norm_num at hq2 ⊢
  omega

/-- C10 for complex numbers with both parts of that form. -/
theorem C10_complex (p q p' q' N : ℤ) (hp : 0 ≤ p) (hq : 1 ≤ q) (hqN : q ≤ N ^ 2)
    (hsmall : p * (N ^ 2 + 1) < 2 ^ 50) (hp' : 0 ≤ p') (hq' : 1 ≤ q') (hqN' : q' ≤ N ^ 2)
    (hsmall' : p' * (N ^ 2 + 1) < 2 ^ 50) (z : ℂ) (hx : z.re ^ 2 = (p : ℝ) / q)
    (hy : z.im ^ 2 = (p' : ℝ) / q') :
    ∃ F : ℕ, ∀ fuel ≥ F, roundSqrt fuel z N = some (.ok z) := by
  obtain ⟨F1, h1⟩ := roundSqrtAux_spec p q N hp hq hqN hsmall z.re hx
  obtain ⟨F2, h2⟩ := roundSqrtAux_spec p' q' N hp' hq' hqN' hsmall' z.im hy
  refine ⟨max F1 F2, fun fuel hf => ?_⟩
  have e1 := h1 fuel (le_trans (le_max_left _ _) hf)
  have e2 := h2 fuel (le_trans (le_max_right _ _) hf)
  unfold roundSqrt
  by_cases hz : z.im ≠ 0
  · rw [if_pos hz]; simp only [e1, e2]
  · rw [if_neg hz]; simp only [e1]
    have : z.im = 0 := not_not.1 hz
    rw [← this]

example : ((Real.sqrt (2 / 3)) : ℝ) ^ 2 = ((2 : ℤ) : ℝ) / (3 : ℤ) ∧ (2 : ℤ) ≤ 3 * 3 ∧ (3 : ℤ) ≤ 4096 ^ 2 := by
  refine ⟨?_, by norm_num, by norm_num⟩
  rw [Real.sq_sqrt (by norm_num)]; norm_num

/-- C60: for coprime `n/d` with `|n| + 1 < 2^63`, `0 < d < 2^63`, `1 ≤ M < 2^63`, the wrap-around of
`int64` (in the loop and in the silenced products of the final comparison) never changes the result:
the 64-bit run and the exact run agree, for every number of iterations. -/
theorem C60_int64_exact (n d M : ℤ) (hd : 0 < d) (hcop : Int.gcd n d = 1) (hM : 1 ≤ M)
    (hn : |n| + 1 < 2 ^ 63) (hb : d < 2 ^ 63) (hMb : M < 2 ^ 63) (fuel : ℕ) :
    limitDenominatorW fuel n d M = limitDenominator fuel n d M :=
  limitDenominatorW_eq n d M hd hcop hM hn hb hMb fuel

/-- Non-vacuity of C60: the wrap-around really happens: an intermediate product exceeds `2^63`
while the result is still right. -/
example : limitDenominatorW 60 (2 ^ 50 + 1) (2 ^ 51 + 5) (4096 ^ 2 + 1) =
    limitDenominator 60 (2 ^ 50 + 1) (2 ^ 51 + 5) (4096 ^ 2 + 1) ∧
    (2 ^ 63 : ℤ) ≤ 4096 ^ 2 * (2 ^ 51 + 5) ∧ Int.gcd (2 ^ 50 + 1) (2 ^ 51 + 5) = 1 := by
  have hg : Int.gcd (2 ^ 50 + 1) (2 ^ 51 + 5) = 1 := by decide
  exact ⟨C60_int64_exact _ _ _ (by norm_num) hg (by norm_num) (by norm_num)
    (by norm_num) (by norm_num) _, by norm_num, hg⟩

end LieNN.Props
