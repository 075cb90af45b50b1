import Verif.Model.RoundingSeq
import Verif.Proofs.SeqNull
import Verif.Proofs.RoundingCG
/-!
# `sequential_nullspace` with rounding errors
-/
namespace LieNN.Rounding

open Matrix Spec

variable {m n k : ℕ} {δ δ' eps γ B η τ : ℝ}

/-! ### Larger error bounds allow more runs -/

theorem reduceRun_mono {E : Type*} [NormedAddCommGroup E] [InnerProductSpace ℂ E] (h : δ ≤ δ') :
    ∀ {Q : List E} {v v' : E}, ReduceRun δ Q v v' → ReduceRun δ' Q v v'
  | [], _, _, hr => hr
  | _ :: _, _, _, ⟨v₁, h1, h2⟩ => ⟨v₁, h1.trans h, reduceRun_mono h h2⟩

theorem loopRun_mono {E : Type*} [NormedAddCommGroup E] [InnerProductSpace ℂ E] (h : δ ≤ δ') :
    ∀ {A Q R : List E}, LoopRun δ eps A Q R → LoopRun δ' eps A Q R
  | [], _, _, hr => hr
  | _ :: _, _, _, ⟨v, h1, ν, h2, h3⟩ => ⟨v, reduceRun_mono h h1, ν, h2.trans h, by
      rcases h3 with ⟨h4, q, h5, h6⟩ | ⟨h4, h6⟩
      · exact Or.inl ⟨h4, q, h5.trans h, loopRun_mono h h6⟩
      · exact Or.inr ⟨h4, loopRun_mono h h6⟩⟩

/-- A bound for a matrix is a bound for its adjoint. -/
theorem adjoint_bound {M : Matrix (Fin m) (Fin k) ℂ} {c : ℝ} (hc : 0 ≤ c)
    (h : ∀ x : Vec k, ‖(WithLp.toLp 2 (M *ᵥ x.ofLp) : Vec m)‖ ≤ c * ‖x‖) (y : Vec m) :
    ‖(WithLp.toLp 2 (Mᴴ *ᵥ y.ofLp) : Vec k)‖ ≤ c * ‖y‖ := by
  set z : Vec k := WithLp.toLp 2 (Mᴴ *ᵥ y.ofLp) with hz
  have e : inner ℂ z z = inner ℂ (WithLp.toLp 2 (M *ᵥ z.ofLp) : Vec m) y := by
    rw [EuclideanSpace.inner_eq_star_dotProduct, EuclideanSpace.inner_eq_star_dotProduct]
    have e1 : y.ofLp ⬝ᵥ star (M *ᵥ z.ofLp) = star z.ofLp ⬝ᵥ (Mᴴ *ᵥ y.ofLp) := by
      rw [star_mulVec, dotProduct_comm, ← dotProduct_mulVec]
    exact (dotProduct_comm _ _).trans e1.symm
  have h1 : ‖z‖ ^ 2 ≤ c * ‖z‖ * ‖y‖ := by
    have h2 : ‖z‖ ^ 2 = ‖inner ℂ z z‖ := by
      rw [inner_self_eq_norm_sq_to_K]; simp
    rw [h2, e]
    exact (norm_inner_le_norm _ _).trans (mul_le_mul_of_nonneg_right (h z) (norm_nonneg _))
  rcases eq_or_lt_of_le (norm_nonneg z) with h0 | h0
  · rw [← h0]; positivity
  · refine le_of_mul_le_mul_right ?_ h0
    nlinarith

/-- A run on a matrix is a run, with a larger error, on every matrix close to it. -/
theorem nullRun_shift {M M₀ : Matrix (Fin m) (Fin k) ℂ} (hη : 0 ≤ η) (hB : 0 ≤ B)
    (h : ∀ x : Vec k, ‖(WithLp.toLp 2 (M *ᵥ x.ofLp) : Vec m) - WithLp.toLp 2 (M₀ *ᵥ x.ofLp)‖ ≤ η * ‖x‖)
    (h₀ : ∀ x : Vec k, ‖(WithLp.toLp 2 (M₀ *ᵥ x.ofLp) : Vec m)‖ ≤ B * ‖x‖) {R : List (Vec k)}
    (hR : NullRun δ eps M R) : NullRun (δ + η * (2 * B + η)) eps M₀ R := by
  have hle : δ ≤ δ + η * (2 * B + η) := le_add_of_nonneg_right (by positivity)
  obtain ⟨val, vec, ⟨U, h1, h2⟩, rows, h3, h4⟩ := hR
  refine ⟨val, vec, ⟨U, fun x => ?_, fun c => (h2 c).trans (by gcongr)⟩, rows,
    fun i => (h3 i).trans hle, loopRun_mono hle h4⟩
  have hM : ∀ x : Vec k, ‖(WithLp.toLp 2 (M *ᵥ x.ofLp) : Vec m)‖ ≤ (B + η) * ‖x‖ := by
    intro x
    have := norm_add_le ((WithLp.toLp 2 (M *ᵥ x.ofLp) : Vec m) - WithLp.toLp 2 (M₀ *ᵥ x.ofLp))
      (WithLp.toLp 2 (M₀ *ᵥ x.ofLp))
    rw [sub_add_cancel] at this
    linarith [h x, h₀ x]
  have hE : ∀ x : Vec k, ‖(WithLp.toLp 2 ((M - M₀) *ᵥ x.ofLp) : Vec m)‖ ≤ η * ‖x‖ := by
    intro x
    rw [sub_mulVec, WithLp.toLp_sub]
    exact h x
  have e : (WithLp.toLp 2 ((M₀ᴴ * M₀) *ᵥ x.ofLp) : Vec k) =
      WithLp.toLp 2 ((Mᴴ * M) *ᵥ x.ofLp) -
        (WithLp.toLp 2 (Mᴴ *ᵥ ((M - M₀) *ᵥ x.ofLp)) + WithLp.toLp 2 ((M - M₀)ᴴ *ᵥ (M₀ *ᵥ x.ofLp))) := by
    rw [← WithLp.toLp_add, ← WithLp.toLp_sub, mulVec_mulVec, mulVec_mulVec, ← add_mulVec, ← sub_mulVec]
    congr 2
    rw [conjTranspose_sub, Matrix.mul_sub, Matrix.sub_mul]
    abel
  have a1 := adjoint_bound (by positivity) hM (WithLp.toLp 2 ((M - M₀) *ᵥ x.ofLp))
  have a2 := adjoint_bound hη hE (WithLp.toLp 2 (M₀ *ᵥ x.ofLp))
  simp only at a1 a2
  have b1 : (B + η) * ‖(WithLp.toLp 2 ((M - M₀) *ᵥ x.ofLp) : Vec m)‖ ≤ (B + η) * (η * ‖x‖) :=
    mul_le_mul_of_nonneg_left (hE x) (by positivity)
  have b2 : η * ‖(WithLp.toLp 2 (M₀ *ᵥ x.ofLp) : Vec m)‖ ≤ η * (B * ‖x‖) :=
    mul_le_mul_of_nonneg_left (h₀ x) hη
  have hx := h1 x
  rw [e, sub_right_comm]
  refine (norm_sub_le _ _).trans ?_
  have := norm_add_le (WithLp.toLp 2 (Mᴴ *ᵥ ((M - M₀) *ᵥ x.ofLp)) : Vec k)
    (WithLp.toLp 2 ((M - M₀)ᴴ *ᵥ (M₀ *ᵥ x.ofLp)))
  nlinarith

/-! ### One matrix -/

/-- The error bound of `C87_nullspace`, for all sizes up to `n`. -/
theorem exists_delta_le (n : ℕ) (heps : 0 < eps) (hγ : eps < γ) (hn : n * eps ^ 2 < 1) (hτ : 0 < τ) :
    ∃ Δ > 0, ∀ δ, 0 ≤ δ → δ ≤ Δ → ∀ k ≤ n, ∀ (m : ℕ) (A : Matrix (Fin m) (Fin k) ℂ), Gap γ A →
      ∀ R, NullRun δ eps A R →
        ∃ U, OList U ∧ lspan U = kernel A ∧ List.Forall₂ (fun q u => ‖q - u‖ ≤ τ) R U := by
  have key : ∀ N, N ≤ n → ∃ Δ > 0, ∀ δ, 0 ≤ δ → δ ≤ Δ → ∀ k ≤ N, ∀ (m : ℕ)
      (A : Matrix (Fin m) (Fin k) ℂ), Gap γ A → ∀ R, NullRun δ eps A R →
        ∃ U, OList U ∧ lspan U = kernel A ∧ List.Forall₂ (fun q u => ‖q - u‖ ≤ τ) R U := by
    have one : ∀ k ≤ n, ∃ Δ > 0, ∀ δ, 0 ≤ δ → δ ≤ Δ → ∀ (m : ℕ)
        (A : Matrix (Fin m) (Fin k) ℂ), Gap γ A → ∀ R, NullRun δ eps A R →
          ∃ U, OList U ∧ lspan U = kernel A ∧ List.Forall₂ (fun q u => ‖q - u‖ ≤ τ) R U := by
      intro k hk
      have hk' : (k : ℝ) * eps ^ 2 < 1 := by
        have : (k : ℝ) ≤ n := by exact_mod_cast hk
        nlinarith [sq_nonneg eps]
      obtain ⟨Δ, h0, h⟩ := exists_delta heps hγ hk' hτ
      refine ⟨Δ, h0, fun δ h1 h2 m A hgap R hR => ?_⟩
      obtain ⟨g1, g2, g3, g4, g5, g6, g7⟩ := h δ h1 h2
      obtain ⟨U, u1, u2, u3, u4⟩ := null_close_const (heps.trans hγ) hgap h1 g1 g2 g3 g4 g5 g6
        (Or.inl ⟨finrank_kernel_le A, le_rfl⟩) hR
      refine ⟨U, u1, u2, u4.imp fun q u hqu => ?_⟩
      refine hqu.trans (le_trans (err_mono ?_) g7)
      rw [u3]
      exact finrank_kernel_le A
    intro N
    induction N with
    | zero =>
      intro _
      obtain ⟨Δ, h0, h⟩ := one 0 (Nat.zero_le _)
      refine ⟨Δ, h0, fun δ h1 h2 k hk => ?_⟩
      obtain rfl : k = 0 := by omega
      exact h δ h1 h2
    | succ N ih =>
      intro hN
      obtain ⟨Δ₁, h1, hh1⟩ := ih (by omega)
      obtain ⟨Δ₂, h2, hh2⟩ := one (N + 1) hN
      refine ⟨min Δ₁ Δ₂, lt_min h1 h2, fun δ h3 h4 k hk => ?_⟩
      rcases Nat.lt_or_ge k (N + 1) with h | h
      · exact hh1 δ h3 (h4.trans (min_le_left _ _)) k (by omega)
      · obtain rfl : k = N + 1 := by omega
        exact hh2 δ h3 (h4.trans (min_le_right _ _))
  exact key n le_rfl

theorem norm_comb_le (c : Vec k) (s : Fin k → Vec n) (h : ∀ i, ‖s i‖ ≤ η) :
    ‖∑ i, c i • s i‖ ≤ k * η * ‖c‖ := by
  refine (norm_sum_le _ _).trans ?_
  have : ∀ i ∈ Finset.univ, ‖c i • s i‖ ≤ ‖c‖ * η := fun i _ => by
    rw [norm_smul]
    exact mul_le_mul (PiLp.norm_apply_le c i) (h i) (norm_nonneg _) (norm_nonneg _)
  refine (Finset.sum_le_card_nsmul _ _ _ this).trans (le_of_eq ?_)
  simp only [Finset.card_univ, Fintype.card_fin, nsmul_eq_mul]
  ring

theorem forall₂_map_left {α β ι : Type*} {r : α → β → Prop} {P : α → ι → Prop} {Q : ι → β → Prop}
    (h : ∀ a c b, P a c → Q c b → r a b) : ∀ {A : List α} {C : List ι} {D : List β},
    List.Forall₂ P A C → List.Forall₂ Q C D → List.Forall₂ r A D
  | [], _, _, .nil, .nil => .nil
  | _ :: _, _, _, .cons h1 h2, .cons h3 h4 => .cons (h _ _ _ h1 h3) (forall₂_map_left h h2 h4)

/-- One update, from a family close to an orthonormal one. -/
theorem step_core {ρ Δ : ℝ} {A : Matrix (Fin m) (Fin n) ℂ} (hB : 0 ≤ B)
    (hA : ∀ x : Vec n, ‖(WithLp.toLp 2 (A *ᵥ x.ofLp) : Vec m)‖ ≤ B * ‖x‖) {U : List (Vec n)} (hU : OList U)
    (hgap : GapOn γ (lspan U) A) (hk : U.length = k) (hδ : 0 ≤ δ) (hη : 0 ≤ η)
    (hnull : ∀ δ, 0 ≤ δ → δ ≤ Δ → ∀ k ≤ n, ∀ (m : ℕ) (A : Matrix (Fin m) (Fin k) ℂ), Gap γ A →
      ∀ R, NullRun δ eps A R →
        ∃ U, OList U ∧ lspan U = kernel A ∧ List.Forall₂ (fun q u => ‖q - u‖ ≤ ρ) R U)
    (hΔ : δ + (δ + B * (n * η)) * (2 * B + (δ + B * (n * η))) ≤ Δ)
    (hρ : δ + n * η * (1 + ρ) + ρ ≤ τ)
    (s : Fin k → Vec n) (hs : ∀ i, ‖s i - U.get (Fin.cast hk.symm i)‖ ≤ η)
    {M : Matrix (Fin m) (Fin k) ℂ}
    (hM : ∀ x : Vec k, ‖(WithLp.toLp 2 (M *ᵥ x.ofLp) : Vec m) -
      WithLp.toLp 2 (A *ᵥ (∑ i, x i • s i : Vec n).ofLp)‖ ≤ δ * ‖x‖)
    {N : List (Vec k)} (hN : NullRun δ eps M N) {R : List (Vec n)}
    (hR : List.Forall₂ (fun r c => ‖r - ∑ i, c i • s i‖ ≤ δ) R N) :
    ∃ V, OList V ∧ lspan V = lspan U ⊓ kernel A ∧ List.Forall₂ (fun q u => ‖q - u‖ ≤ τ) R V := by
  subst hk
  have hlen : U.length ≤ n := by
    rw [oList_length hU]
    exact (Submodule.finrank_le _).trans (by simp)
  have hlenR : (U.length : ℝ) ≤ n := by exact_mod_cast hlen
  have hsub : ∀ c : Vec U.length, ‖(∑ i, c i • s i) - combRow U c‖ ≤ n * η * ‖c‖ := by
    intro c
    have e : (∑ i, c i • s i) - combRow U c = ∑ i, c i • (s i - U.get i) := by
      simp only [combRow, smul_sub, Finset.sum_sub_distrib]
    rw [e]
    refine (norm_comb_le c _ fun i => hs i).trans ?_
    gcongr
  have h0 : ∀ x : Vec U.length, ‖(WithLp.toLp 2 (mulRows A U *ᵥ x.ofLp) : Vec m)‖ ≤ B * ‖x‖ := by
    intro x
    rw [mulRows_mulVec]
    refine (hA _).trans (le_of_eq ?_)
    rw [combRow_norm hU]
  have h1 : ∀ x : Vec U.length, ‖(WithLp.toLp 2 (M *ᵥ x.ofLp) : Vec m) -
      WithLp.toLp 2 (mulRows A U *ᵥ x.ofLp)‖ ≤ (δ + B * (n * η)) * ‖x‖ := by
    intro x
    rw [mulRows_mulVec]
    have e : (WithLp.toLp 2 (A *ᵥ (∑ i, x i • s i : Vec n).ofLp) : Vec m) -
        WithLp.toLp 2 (A *ᵥ (combRow U x).ofLp) =
        WithLp.toLp 2 (A *ᵥ ((∑ i, x i • s i : Vec n) - combRow U x).ofLp) := by
      rw [← WithLp.toLp_sub, ← mulVec_sub, WithLp.ofLp_sub]
    have h2 := hA ((∑ i, x i • s i : Vec n) - combRow U x)
    rw [← e] at h2
    have h3 : B * ‖(∑ i, x i • s i : Vec n) - combRow U x‖ ≤ B * (n * η * ‖x‖) :=
      mul_le_mul_of_nonneg_left (hsub x) hB
    have h4 := norm_sub_le_norm_sub_add_norm_sub (WithLp.toLp 2 (M *ᵥ x.ofLp) : Vec m)
      (WithLp.toLp 2 (A *ᵥ (∑ i, x i • s i : Vec n).ofLp)) (WithLp.toLp 2 (A *ᵥ (combRow U x).ofLp))
    linarith [hM x]
  have hrun := nullRun_shift (by positivity) hB h1 h0 hN
  obtain ⟨W, w1, w2, w3⟩ := hnull _ (by positivity) hΔ U.length hlen m (mulRows A U)
    (gap_mulRows hU A hgap) N hrun
  refine ⟨W.map (combRow U), oList_map_comb hU w1, ?_, ?_⟩
  · rw [lspan_map_comb, w2]
    ext x
    rw [Submodule.mem_map, Submodule.mem_inf, lsp_comb]
    constructor
    · rintro ⟨c, hc, rfl⟩
      refine ⟨⟨c, rfl⟩, ?_⟩
      have : mulRows A U *ᵥ c.ofLp = 0 := hc
      rw [mulRows_mulVec] at this
      exact this
    · rintro ⟨⟨c, rfl⟩, hx⟩
      refine ⟨c, ?_, rfl⟩
      show mulRows A U *ᵥ c.ofLp = 0
      rw [mulRows_mulVec]
      exact hx
  · rw [List.forall₂_map_right_iff]
    have w4 : List.Forall₂ (fun q u => ‖q - u‖ ≤ ρ ∧ ‖u‖ = 1) N W :=
      List.forall₂_iff_get.2 ⟨w3.length_eq, fun i h₁ h₂ =>
        ⟨w3.get h₁ h₂, w1.norm _ (List.get_mem _ _)⟩⟩
    refine forall₂_map_left (fun r c u hr hc => ?_) hR w4
    obtain ⟨hc1, hc2⟩ := hc
    have hcn : ‖c‖ ≤ 1 + ρ := by
      have := norm_add_le (c - u) u
      rw [sub_add_cancel] at this
      linarith
    have e : combRow U c - combRow U u = combRow U (c - u) := by
      have := (combLin U).map_sub c u
      exact this.symm
    have h5 : ‖combRow U c - combRow U u‖ ≤ ρ := by rw [e, combRow_norm hU]; exact hc1
    have h6 := hsub c
    have h7 : (n : ℝ) * η * ‖c‖ ≤ n * η * (1 + ρ) := mul_le_mul_of_nonneg_left hcn (by positivity)
    have h8 := norm_sub_le_norm_sub_add_norm_sub r (∑ i, c i • s i) (combRow U u)
    have h9 := norm_sub_le_norm_sub_add_norm_sub (∑ i, c i • s i) (combRow U c) (combRow U u)
    linarith

/-- Invariant of the loop with errors: `S` is `None` and nothing was consumed, or `S` is within `η` of an
orthonormal basis of the common kernel of the matrices consumed so far. -/
def SeqClose (η : ℝ) (P : List (Constraint n)) : Option (List (Vec n)) → Prop
  | none => P = []
  | some S => ∃ U, OList U ∧ lspan U = commonKernel P ∧ List.Forall₂ (fun q u => ‖q - u‖ ≤ η) S U

/-- One update keeps the invariant, for small enough errors. -/
theorem step_close_seq (n : ℕ) (heps : 0 < eps) (hγ : eps < γ) (hn : n * eps ^ 2 < 1) (hB : 0 ≤ B)
    (hτ : 0 < τ) : ∃ Δ > 0, ∀ δ, 0 ≤ δ → δ ≤ Δ → ∀ (P : List (Constraint n)) (A : Constraint n),
      GapOn γ (commonKernel P) A.2 →
      (∀ x : Vec n, ‖(WithLp.toLp 2 (A.2 *ᵥ x.ofLp) : Vec A.1)‖ ≤ B * ‖x‖) →
      ∀ S, SeqClose Δ P S → ∀ S', SeqStepRun δ eps A S S' → SeqClose τ (P ++ [A]) (some S') := by
  set ρ : ℝ := min 1 (τ / 2) with hρd
  have hρ0 : 0 < ρ := lt_min one_pos (by positivity)
  obtain ⟨Δ₀, h0, hnull⟩ := exists_delta_le n heps hγ hn hρ0
  have c1 : Continuous fun t : ℝ => t + (t + B * (n * t)) * (2 * B + (t + B * (n * t))) := by fun_prop
  have c2 : Continuous fun t : ℝ => t + n * t * (1 + ρ) + ρ := by fun_prop
  have e1 : ∀ᶠ t : ℝ in nhds 0, t + (t + B * (n * t)) * (2 * B + (t + B * (n * t))) < Δ₀ :=
    c1.tendsto 0 |>.eventually_lt_const (by simpa using h0)
  have e2 : ∀ᶠ t : ℝ in nhds 0, t + n * t * (1 + ρ) + ρ < τ :=
    c2.tendsto 0 |>.eventually_lt_const (by
      have : ρ ≤ τ / 2 := min_le_right _ _
      simp only [mul_zero, zero_mul, zero_add]
      linarith)
  obtain ⟨Δ, hΔ, h⟩ := Metric.eventually_nhds_iff.1 (e1.and e2)
  set η := min (Δ / 2) Δ₀ with hηd
  have hη0 : 0 < η := lt_min (by positivity) h0
  obtain ⟨g1, g2⟩ := h (y := η) (by
    rw [Real.dist_eq, sub_zero, abs_of_pos hη0]
    exact (min_le_left _ _).trans_lt (by linarith))
  refine ⟨η, hη0, fun δ hδ hδη P A hgap hA S hS S' hrun => ?_⟩
  cases S with
  | none =>
    have hP : P = [] := hS
    subst hP
    have hck : commonKernel ([] : List (Constraint n)) = ⊤ := by
      ext x; simp [commonKernel]
    have hgap' : Gap γ A.2 := by
      intro μ x hx hev hμ
      refine hgap μ (WithLp.toLp 2 x) (by rw [hck]; trivial) ?_ ?_ hμ
      · intro h; exact hx (congrArg WithLp.ofLp h)
      · intro y _
        simp only
        rw [star_mulVec, ← dotProduct_mulVec, mulVec_mulVec, hev, dotProduct_smul, smul_eq_mul]
    obtain ⟨U, u1, u2, u3⟩ := hnull δ hδ (hδη.trans (min_le_right _ _)) n le_rfl A.1 A.2 hgap' S' hrun
    refine ⟨U, u1, ?_, u3.imp fun q u hqu => hqu.trans ?_⟩
    · rw [commonKernel_append, hck, top_inf_eq, u2]
    · have : ρ ≤ τ / 2 := min_le_right _ _
      linarith
  | some S =>
    obtain ⟨U, u1, u2, u3⟩ := hS
    obtain ⟨M, h1, N, h2, h3⟩ := hrun
    have hk : U.length = S.length := u3.length_eq.symm
    obtain ⟨V, v1, v2, v3⟩ := step_core (τ := τ) hB hA u1 (by rw [u2]; exact hgap) hk hδ hη0.le hnull
      (le_trans (by gcongr) g1.le) (le_trans (by gcongr) g2.le) (fun i => S.get i)
      (fun i => by
        have := u3.get (i := i.1) i.2 (by rw [hk]; exact i.2)
        simpa using this)
      (M := M) (fun x => by
        have := h1 x
        rw [mulRows_mulVec] at this
        exact this) h2 h3
    refine ⟨V, v1, ?_, v3⟩
    rw [commonKernel_append, ← u2, v2]

/-! ### The loop -/

/-- What every run of the loop does, for small enough errors. -/
theorem seqLoop_close (n : ℕ) (heps : 0 < eps) (hγ : eps < γ) (hn : n * eps ^ 2 < 1) (hB : 0 ≤ B)
    (hτ : 0 < τ) (L : ℕ) : ∃ Δ > 0, ∀ δ, 0 ≤ δ → δ ≤ Δ → ∀ (dim : ℕ) (gen P : List (Constraint n)),
      gen.length ≤ L →
      (∀ k (hk : k < gen.length), GapOn γ (commonKernel (P ++ gen.take k)) gen[k].2) →
      (∀ A ∈ gen, ∀ x : Vec n, ‖(WithLp.toLp 2 (A.2 *ᵥ x.ofLp) : Vec A.1)‖ ≤ B * ‖x‖) →
      ∀ S, SeqClose Δ P S → ∀ res, SeqLoopRun δ eps dim gen S res →
      (∃ k, k < gen.length ∧ ∃ S', res = .ok S' ∧ S'.length ≤ dim ∧
        SeqClose τ (P ++ gen.take (k + 1)) (some S') ∧
        ∀ j < k, dim < Module.finrank ℂ (commonKernel (P ++ gen.take (j + 1)))) ∨
      (res = .error .valueError ∧
        ∀ j < gen.length, dim < Module.finrank ℂ (commonKernel (P ++ gen.take (j + 1)))) := by
  induction L with
  | zero =>
    refine ⟨1, one_pos, fun δ _ _ dim gen P hL _ _ S _ res hres => ?_⟩
    obtain rfl : gen = [] := List.length_eq_zero_iff.1 (by omega)
    exact Or.inr ⟨hres, by simp⟩
  | succ L ih =>
    obtain ⟨Δ₁, h1, hh1⟩ := ih
    have hmin : 0 < min Δ₁ τ := lt_min h1 hτ
    obtain ⟨Δ₂, h2, hh2⟩ := step_close_seq n heps hγ hn hB hmin
    refine ⟨min Δ₁ Δ₂, lt_min h1 h2, fun δ hδ hδΔ dim gen P hL hgap hA S hS res hres => ?_⟩
    cases gen with
    | nil => exact Or.inr ⟨hres, by simp⟩
    | cons A gen =>
      obtain ⟨S', hs1, hs2⟩ := hres
      have hS' : SeqClose Δ₂ P S := by
        cases S with
        | none => exact hS
        | some S =>
          obtain ⟨U, u1, u2, u3⟩ := hS
          exact ⟨U, u1, u2, u3.imp fun _ _ h => h.trans (min_le_right _ _)⟩
      have hstep := hh2 δ hδ (hδΔ.trans (min_le_right _ _)) P A (by
        have h0 := hgap 0 (by simp)
        rw [List.take_zero, List.append_nil] at h0
        exact h0) (hA A (by simp)) S hS' S' hs1
      obtain ⟨U, u1, u2, u3⟩ := hstep
      have hfr : Module.finrank ℂ (commonKernel (P ++ [A])) = S'.length := by
        rw [← u2, ← oList_length u1, u3.length_eq]
      rcases hs2 with ⟨hd, rfl⟩ | ⟨hd, hrun⟩
      · refine Or.inl ⟨0, by simp, S', rfl, hd, ⟨U, u1, ?_, u3.imp fun _ _ h => h.trans (min_le_right _ _)⟩,
          by simp⟩
        rw [u2]; simp
      · have hih := hh1 δ hδ (hδΔ.trans (min_le_left _ _)) dim gen (P ++ [A]) (by simpa using hL) (by
          intro k hk
          have := hgap (k + 1) (by simpa using hk)
          simpa using this) (fun B hB => hA B (by simp [hB])) (some S')
          ⟨U, u1, u2, u3.imp fun _ _ h => h.trans (min_le_left _ _)⟩ res hrun
        rcases hih with ⟨k, hk, S'', r1, r2, r3, r4⟩ | ⟨r1, r2⟩
        · refine Or.inl ⟨k + 1, by simpa using hk, S'', r1, r2, by simpa using r3, fun j hj => ?_⟩
          cases j with
          | zero =>
            have : Module.finrank ℂ (commonKernel (P ++ (A :: gen).take (0 + 1))) = S'.length := hfr
            omega
          | succ j =>
            have := r4 j (by omega)
            rwa [List.append_assoc] at this
        · refine Or.inr ⟨r1, fun j hj => ?_⟩
          cases j with
          | zero =>
            have : Module.finrank ℂ (commonKernel (P ++ (A :: gen).take (0 + 1))) = S'.length := hfr
            omega
          | succ j =>
            have := r2 j (by simpa using hj)
            rwa [List.append_assoc] at this

/-! ### No errors -/

theorem seqStepRun_zero (A : Constraint n) (S : Option (List (Vec n))) (R : List (Vec n)) :
    SeqStepRun 0 eps A S R ↔ ∃ eigh : EighFn, EighSpec eigh ∧ R = seqStep eigh eps A S := by
  cases S with
  | none => exact nullRun_zero_iff A.2 R
  | some S =>
    constructor
    · rintro ⟨M, h1, N, h2, h3⟩
      have hM : M = mulRows A.2 S := by
        ext i j
        have := h1 (EuclideanSpace.single j 1)
        rw [zero_mul, norm_le_zero_iff, sub_eq_zero] at this
        have := congrArg (fun v : Vec A.1 => v i) this
        simpa using this
      subst hM
      obtain ⟨eigh, he, rfl⟩ := (nullRun_zero_iff _ _).1 h2
      refine ⟨eigh, he, ?_⟩
      show R = List.map _ _
      rw [← List.forall₂_eq_eq_eq, List.forall₂_map_right_iff]
      exact h3.imp fun r c h => by rwa [norm_le_zero_iff, sub_eq_zero] at h
    · rintro ⟨eigh, he, rfl⟩
      refine ⟨mulRows A.2 S, fun x => by simp, _, (nullRun_zero_iff _ _).2 ⟨eigh, he, rfl⟩, ?_⟩
      show List.Forall₂ _ (List.map _ _) _
      rw [List.forall₂_map_left_iff]
      exact List.forall₂_same.2 fun c _ => by simp

theorem seqStepRun_exact {eigh : EighFn} (he : EighSpec eigh) (hδ : 0 ≤ δ) (A : Constraint n)
    (S : Option (List (Vec n))) : SeqStepRun δ eps A S (seqStep eigh eps A S) := by
  cases S with
  | none => exact nullRun_exact hδ he A.2
  | some S =>
    refine ⟨mulRows A.2 S, fun x => by simpa using by positivity, _, nullRun_exact hδ he _, ?_⟩
    show List.Forall₂ _ (List.map _ _) _
    rw [List.forall₂_map_left_iff]
    exact List.forall₂_same.2 fun c _ => by simpa using hδ

theorem seqLoopRun_exact {eigh : EighFn} (he : EighSpec eigh) (hδ : 0 ≤ δ) (dim : ℕ) :
    ∀ (gen : List (Constraint n)) (S : Option (List (Vec n))),
      SeqLoopRun δ eps dim gen S (seqNullLoop eigh eps dim gen S)
  | [], _ => rfl
  | A :: gen, S => by
    refine ⟨seqStep eigh eps A S, seqStepRun_exact he hδ A S, ?_⟩
    by_cases h : (seqStep eigh eps A S).length ≤ dim
    · exact Or.inl ⟨h, by simp [seqNullLoop, h]⟩
    · refine Or.inr ⟨h, ?_⟩
      have e : seqNullLoop eigh eps dim (A :: gen) S = seqNullLoop eigh eps dim gen (some (seqStep eigh eps A S)) := by
        simp [seqNullLoop, h]
      rw [e]
      exact seqLoopRun_exact he hδ dim gen _

end LieNN.Rounding
