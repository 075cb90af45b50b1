import Verif.Proofs.RoundingExtend
/-!
# C107: `gram_schmidt` and `extend_basis` with rounding errors
-/
namespace LieNN.Props

open LieNN.Spec

variable {n : ℕ} {eps τ κ : ℝ}

/-- C107, consistency: the runs without errors are exactly the results of the exact models. -/
theorem C107_exact (A Q : List (Vec n)) (ret : Returns) (res : Py (List (Vec n))) :
    (GramRun 0 eps A Q ↔ Q = gramSchmidt eps A) ∧
    (ExtendRun 0 eps A ret Q res ↔ Q = gramSchmidt eps A ∧ res = extendBasis eps A ret) :=
  ⟨Rounding.gramRun_zero, Rounding.extendRun_zero⟩

/-- C107, `gram_schmidt`: for a number of columns, a tolerance and a wanted accuracy there is an error bound
below which every run, on every list of rows of norm at most one, returns at most `n` rows, each within the
wanted accuracy of the corresponding vector of an orthonormal family in the span of the input, and every
input row is within the tolerance plus the wanted accuracy of the span of that family. -/
theorem C107_gram_schmidt (n : ℕ) (heps : 0 < eps) (hτ : 0 < τ) :
    ∃ Δ > 0, ∀ δ, 0 ≤ δ → δ ≤ Δ → ∀ A : List (Vec n), (∀ a ∈ A, ‖a‖ ≤ 1) → ∀ R, GramRun δ eps A R →
      R.length ≤ n ∧ ∃ U, OrthonormalList U ∧ (∀ u ∈ U, u ∈ lspan A) ∧
        List.Forall₂ (fun q u => ‖q - u‖ ≤ τ) R U ∧ ∀ a ∈ A, ∃ z ∈ lspan U, ‖a - z‖ ≤ eps + τ := by
  obtain ⟨Δ, h0, h⟩ := Rounding.exists_delta_gs n heps hτ
  refine ⟨Δ, h0, fun δ h1 h2 A hA R hR => ?_⟩
  obtain ⟨g1, g2, g3, g4⟩ := h δ h1 h2
  obtain ⟨U, u1, u2, u3, u4, u5⟩ := Rounding.gramRun_close h1 heps g1 g2 hA hR
  refine ⟨by rw [u4.length_eq]; exact u3, U, u1.orthonormal, u2,
    u4.imp fun q u hq => hq.trans ((Rounding.err_mono u3).trans g4), fun a ha => ?_⟩
  obtain ⟨z, hz, hd⟩ := u5 a ha
  exact ⟨z, hz, by linarith⟩

/-- C107, `gram_schmidt`: when in exact arithmetic no row has a distance to the span of the vectors accepted
before it that is within `κ` of the tolerance, every run accepts the same rows, and its vectors are within
the wanted accuracy of the exact ones. -/
theorem C107_gram_schmidt_close (n : ℕ) (heps : 0 < eps) (hτ : 0 < τ) (hκ : 0 < κ) :
    ∃ Δ > 0, ∀ δ, 0 ≤ δ → δ ≤ Δ → ∀ A : List (Vec n), (∀ a ∈ A, ‖a‖ ≤ 1) →
      (∀ P a S, A = P ++ a :: S →
        κ ≤ |Metric.infDist a (lspan (gramSchmidt eps P) : Set (Vec n)) - eps|) →
      ∀ R, GramRun δ eps A R → List.Forall₂ (fun q u => ‖q - u‖ ≤ τ) R (gramSchmidt eps A) := by
  obtain ⟨Δ, h0, h⟩ := Rounding.exists_delta_gs n heps (τ := min τ (κ / 2)) (by positivity)
  refine ⟨Δ, h0, fun δ h1 h2 A hA hm R hR => ?_⟩
  obtain ⟨g1, g2, g3, g4⟩ := h δ h1 h2
  obtain ⟨A', k1, k2⟩ := hR
  have hmar := Rounding.margin_of (E := Vec n) (eps := eps) (κ := κ) heps.le (A := A) (P := []) (U := [])
    ⟨by simp, List.Pairwise.nil⟩ rfl (fun P' a S hS => by simpa using hm P' a S hS)
  have := Rounding.loop_follow (κ := κ) (δ₀ := 4 * δ + 4 * δ / 1) heps (by linarith) h1 (M := n) (by simp) g2
    (by
      have := min_le_right τ (κ / 2)
      linarith)
    (k1.imp fun _ _ h => h.trans (by linarith)) hA ⟨by simp, List.Pairwise.nil⟩ .nil hmar k2
  exact this.imp fun q u hq => hq.trans (g4.trans (min_le_left _ _))

/-- C107, `extend_basis`: below an error bound every run on rows of norm at most one extends the result of
`gram_schmidt` to `n` vectors, each within the wanted accuracy of the corresponding vector of an
orthonormal basis; `returns="Q"` returns all of them, `returns="E"` the added ones, or raises `ValueError`
when there is nothing to add. -/
theorem C107_extend_basis {n : ℕ} (hn0 : n ≠ 0) (heps : 0 < eps) (hn : n * eps ^ 2 < 1) (hτ : 0 < τ) :
    ∃ Δ > 0, ∀ δ, 0 ≤ δ → δ ≤ Δ → ∀ A : List (Vec n), (∀ a ∈ A, ‖a‖ ≤ 1) →
      ∀ ret Q res, ExtendRun δ eps A ret Q res →
      ∃ E U : List (Vec n), OrthonormalList U ∧ U.length = n ∧ lspan U = ⊤ ∧
        List.Forall₂ (fun q u => ‖q - u‖ ≤ τ) (Q ++ E) U ∧ (Q ++ E).length = n ∧
        (ret = .Q → res = .ok (Q ++ E)) ∧
        (ret = .E → (Q.length < n → res = .ok E) ∧ (Q.length = n → res = .error .valueError)) := by
  -- a tolerance for the square
  have hs : 0 < (1 - Real.sqrt n * eps) / Real.sqrt n := by
    have hp : 0 < Real.sqrt n := Real.sqrt_pos.2 (by exact_mod_cast Nat.pos_of_ne_zero hn0)
    refine div_pos ?_ hp
    have h1 : (Real.sqrt n * eps) ^ 2 < 1 := by
      rw [mul_pow, Real.sq_sqrt (Nat.cast_nonneg n)]; exact hn
    have := (sq_lt_one_iff₀ (mul_nonneg hp.le heps.le)).1 h1
    linarith
  obtain ⟨Δ₂, k0, k⟩ := Rounding.exists_delta_gs n heps
    (τ := min τ ((1 - Real.sqrt n * eps) / Real.sqrt n / 2)) (lt_min hτ (by linarith))
  refine ⟨Δ₂, k0, fun δ h1 h2 A hA ret Q res hrun => ?_⟩
  obtain ⟨g1, g2, g3, g4⟩ := k δ h1 h2
  obtain ⟨hg, Q', hl, hres⟩ := hrun
  have hp : 0 < Real.sqrt n := Real.sqrt_pos.2 (by exact_mod_cast Nat.pos_of_ne_zero hn0)
  have hsig : δ + Rounding.sig (4 * δ + 4 * δ / 1) δ (fun _ => eps) n <
      (1 - Real.sqrt n * eps) / Real.sqrt n := by
    have := g3.trans (min_le_right _ _)
    linarith
  have hnn : 0 ≤ δ + Rounding.sig (4 * δ + 4 * δ / 1) δ (fun _ => eps) n := by
    have : 0 ≤ Rounding.sig (4 * δ + 4 * δ / 1) δ (fun _ => eps) n := by
      unfold Rounding.sig
      have := Rounding.err_nonneg (δ₀ := 4 * δ + 4 * δ / 1) (δ := δ) (ρ := fun _ => eps) n
      positivity
    linarith
  have hsq : (n : ℝ) * (eps + δ + Rounding.sig (4 * δ + 4 * δ / 1) δ (fun _ => eps) n) ^ 2 < 1 := by
    set x := eps + δ + Rounding.sig (4 * δ + 4 * δ / 1) δ (fun _ => eps) n with hx
    have hx1 : Real.sqrt n * x < 1 := by
      rw [lt_div_iff₀ hp] at hsig
      have : Real.sqrt n * x = Real.sqrt n * eps + (δ + Rounding.sig (4 * δ + 4 * δ / 1) δ (fun _ => eps) n) *
          Real.sqrt n := by rw [hx]; ring
      linarith
    have hx0 : 0 ≤ Real.sqrt n * x := by
      apply mul_nonneg hp.le
      linarith
    have : (n : ℝ) * x ^ 2 = (Real.sqrt n * x) ^ 2 := by rw [mul_pow, Real.sq_sqrt (Nat.cast_nonneg n)]
    rw [this]
    nlinarith
  obtain ⟨U, u1, u2, u3, u4⟩ := Rounding.extendRun_close h1 heps g1 g2 hsq hA hg hl
  obtain ⟨E, rfl⟩ := Rounding.loopRun_append hl
  have hlen : (Q ++ E).length = n := by rw [u4.length_eq, u3]
  refine ⟨E, U, u1.orthonormal, u3, u2, u4.imp fun q u hq => hq.trans (g4.trans (min_le_left _ _)), hlen, ?_, ?_⟩
  · rintro rfl
    have hne : Q ++ E ≠ [] := by
      intro h
      rw [h] at hlen
      exact hn0 hlen.symm
    simpa [hne] using hres
  · rintro rfl
    rw [List.length_append] at hlen
    simp only [List.drop_left] at hres
    constructor
    · intro hlt
      have hne : E ≠ [] := by rintro rfl; simp at hlen; omega
      simpa [hne] using hres
    · intro heq
      have : E = [] := List.eq_nil_of_length_eq_zero (by omega)
      simpa [this] using hres

/-! ## The hypotheses can be met -/

/-- One row of norm one; the tolerance of the code. -/
example : (∀ a ∈ [(EuclideanSpace.single 0 1 : Vec 2)], ‖a‖ ≤ 1) ∧
    (2 : ℝ) * (1 / 10 ^ 4) ^ 2 < 1 ∧
    ExtendRun 0 (1 / 10 ^ 4) [(EuclideanSpace.single 0 1 : Vec 2)] .Q
      (gramSchmidt (1 / 10 ^ 4) [(EuclideanSpace.single 0 1 : Vec 2)])
      (extendBasis (1 / 10 ^ 4) [(EuclideanSpace.single 0 1 : Vec 2)] .Q) := by
  refine ⟨?_, by norm_num, Rounding.extendRun_zero.2 ⟨rfl, rfl⟩⟩
  intro a ha
  simp only [List.mem_singleton] at ha
  subst ha
  simp

/-- A margin: one row of norm one is at distance one from the span of nothing. -/
example : ∀ P a S, [(EuclideanSpace.single 0 1 : Vec 2)] = P ++ a :: S →
    (1 / 2 : ℝ) ≤ |Metric.infDist a (lspan (gramSchmidt (1 / 10 ^ 4) P) : Set (Vec 2)) - 1 / 10 ^ 4| := by
  intro P a S h
  have hl := congrArg List.length h
  simp only [List.length_append, List.length_cons, List.length_nil] at hl
  obtain rfl : P = [] := List.eq_nil_of_length_eq_zero (by omega)
  simp only [List.nil_append, List.cons.injEq] at h
  obtain ⟨rfl, -⟩ := h
  have := Rounding.norm_gsReduce_eq (Q := gramSchmidt (1 / 10 ^ 4) ([] : List (Vec 2)))
    ⟨by simp [gramSchmidt, gsLoop], by simp [gramSchmidt, gsLoop]⟩ (EuclideanSpace.single 0 1)
  rw [← this]
  simp only [gramSchmidt, gsLoop, gsReduce, List.foldl_nil]
  rw [show ‖(EuclideanSpace.single 0 1 : Vec 2)‖ = 1 by simp]
  norm_num [abs_of_pos]

end LieNN.Props
