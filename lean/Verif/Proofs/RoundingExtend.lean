import Verif.Model.RoundingExtend
import Verif.Proofs.RoundingChange
/-!
# `gram_schmidt` and `extend_basis` with rounding errors
-/
namespace LieNN

open Matrix Spec

namespace Rounding

variable {n : ℕ} {δ eps : ℝ}

theorem forall₂_zero {α : Type*} [NormedAddCommGroup α] {A B : List α}
    (h : List.Forall₂ (fun a b => ‖a - b‖ ≤ 0) A B) : A = B := by
  induction h with
  | nil => rfl
  | cons h _ ih => rw [ih, sub_eq_zero.1 (norm_le_zero_iff.1 h)]

theorem forall₂_self {α : Type*} [NormedAddCommGroup α] (hδ : 0 ≤ δ) (A : List α) :
    List.Forall₂ (fun a b => ‖a - b‖ ≤ δ) A A := by
  induction A with
  | nil => exact .nil
  | cons a A ih => exact .cons (by simpa using hδ) ih

theorem loopRun_append {E : Type*} [NormedAddCommGroup E] [InnerProductSpace ℂ E] :
    ∀ {A Q R : List E}, LoopRun δ eps A Q R → ∃ L, R = Q ++ L
  | [], Q, R, h => ⟨[], by rw [h]; simp⟩
  | a :: A, Q, R, ⟨v, _, ν, _, h⟩ => by
    rcases h with ⟨_, q, _, h⟩ | ⟨_, h⟩
    · obtain ⟨L, rfl⟩ := loopRun_append h
      exact ⟨q :: L, by simp⟩
    · exact loopRun_append h

theorem gramRun_zero {A R : List (Vec n)} : GramRun 0 eps A R ↔ R = gramSchmidt eps A := by
  constructor
  · rintro ⟨A', h1, h2⟩
    rw [forall₂_zero h1] at h2
    exact loopRun_zero h2
  · rintro rfl
    exact ⟨A, forall₂_self le_rfl A, loopRun_exact le_rfl A []⟩

theorem extendRun_zero {A Q : List (Vec n)} {ret : Returns} {res : Py (List (Vec n))} :
    ExtendRun 0 eps A ret Q res ↔ Q = gramSchmidt eps A ∧ res = extendBasis eps A ret := by
  have key : ∀ Q : List (Vec n), (gsLoop eps (eyeRows n) Q).drop Q.length = gsAdded eps (eyeRows n) Q := by
    intro Q
    rw [gsLoop_eq_append]; simp
  constructor
  · rintro ⟨h1, Q', h2, rfl⟩
    obtain rfl := gramRun_zero.1 h1
    obtain rfl := loopRun_zero h2
    refine ⟨rfl, ?_⟩
    cases ret
    · rfl
    · simp only [key]; rfl
  · rintro ⟨rfl, rfl⟩
    refine ⟨gramRun_zero.2 rfl, _, loopRun_exact le_rfl _ _, ?_⟩
    cases ret
    · rfl
    · simp only [key]; rfl

/-- An error bound for a size, a tolerance and a wanted accuracy. -/
theorem exists_delta_gs (n : ℕ) {τ : ℝ} (heps : 0 < eps) (hτ : 0 < τ) : ∃ Δ > 0, ∀ δ, 0 ≤ δ → δ ≤ Δ →
      sig (4 * δ + 4 * δ / 1) δ (fun _ => eps) n + δ ≤ eps ∧
      sig (4 * δ + 4 * δ / 1) δ (fun _ => eps) n ≤ 1 ∧
      δ + sig (4 * δ + 4 * δ / 1) δ (fun _ => eps) n ≤ τ ∧
      err (4 * δ + 4 * δ / 1) δ (fun _ => eps) n ≤ τ := by
  have cs := sig_continuous 1 eps n
  have ce := err_continuous 1 eps n
  have z1 : err (4 * 0 + 4 * 0 / 1) 0 (fun _ => eps) n = 0 := by
    simp only [mul_zero, zero_div, add_zero]; exact err_zero _ _
  have z2 : sig (4 * 0 + 4 * 0 / 1) 0 (fun _ => eps) n = 0 := by
    unfold sig; rw [z1]; simp
  have e4 : ∀ᶠ δ : ℝ in nhds 0, sig (4 * δ + 4 * δ / 1) δ (fun _ => eps) n + δ < eps :=
    (cs.add continuous_id).tendsto 0 |>.eventually_lt_const (by
      show sig (4 * 0 + 4 * 0 / 1) 0 (fun _ => eps) n + 0 < eps
      rw [z2, add_zero]; exact heps)
  have e5 : ∀ᶠ δ : ℝ in nhds 0, sig (4 * δ + 4 * δ / 1) δ (fun _ => eps) n < 1 :=
    cs.tendsto 0 |>.eventually_lt_const (by rw [z2]; exact one_pos)
  have e6 : ∀ᶠ δ : ℝ in nhds 0, δ + sig (4 * δ + 4 * δ / 1) δ (fun _ => eps) n < τ :=
    (continuous_id.add cs).tendsto 0 |>.eventually_lt_const (by
      show 0 + sig (4 * 0 + 4 * 0 / 1) 0 (fun _ => eps) n < τ
      rw [z2, add_zero]; exact hτ)
  have e7 : ∀ᶠ δ : ℝ in nhds 0, err (4 * δ + 4 * δ / 1) δ (fun _ => eps) n < τ :=
    ce.tendsto 0 |>.eventually_lt_const (by rw [z1]; exact hτ)
  obtain ⟨Δ, h0, h⟩ := Metric.eventually_nhds_iff.1 (e4.and <| e5.and <| e6.and e7)
  refine ⟨Δ / 2, by positivity, fun δ h1 h2 => ?_⟩
  obtain ⟨g4, g5, g6, g7⟩ := h (y := δ) (by
    rw [Real.dist_eq, sub_zero, abs_of_nonneg h1]; linarith)
  exact ⟨g4.le, g5.le, g6.le, g7.le⟩

theorem finrank_sub_le (W : Submodule ℂ (Vec n)) : Module.finrank ℂ W ≤ n := by
  simpa using Submodule.finrank_le W

section follow

variable {E : Type*} [NormedAddCommGroup E] [InnerProductSpace ℂ E] {δ₀ : ℝ} {ρ : ℕ → ℝ}

/-- Normalisation of a vector that is close to the exact one. -/
theorem normalise_close {v w q : E} {ν s r : ℝ} (hr : 0 < r) (hν : r ≤ ν) (hw0 : 0 < ‖w‖) (hclose : ‖v - w‖ ≤ s)
    (hνw : |ν - ‖w‖| ≤ δ + s) (hq : ‖q - ((ν⁻¹ : ℝ) : ℂ) • v‖ ≤ δ) :
    ‖q - ((‖w‖⁻¹ : ℝ) : ℂ) • w‖ ≤ (2 * s + δ) / r + δ := by
  have hν0 : 0 < ν := hr.trans_le hν
  have e : q - ((‖w‖⁻¹ : ℝ) : ℂ) • w = (q - ((ν⁻¹ : ℝ) : ℂ) • v) +
      (((ν⁻¹ : ℝ) : ℂ) • (v - w) + (((ν⁻¹ : ℝ) : ℂ) - ((‖w‖⁻¹ : ℝ) : ℂ)) • w) := by
    rw [smul_sub, sub_smul]; abel
  have h1 : ‖((ν⁻¹ : ℝ) : ℂ) • (v - w)‖ ≤ s / ν := by
    rw [norm_smul, Complex.norm_real, Real.norm_of_nonneg (inv_nonneg.2 hν0.le), mul_comm,
      div_eq_mul_inv]
    gcongr
  have h2 : ‖(((ν⁻¹ : ℝ) : ℂ) - ((‖w‖⁻¹ : ℝ) : ℂ)) • w‖ ≤ (δ + s) / ν := by
    rw [norm_smul, ← Complex.ofReal_sub, Complex.norm_real, Real.norm_eq_abs]
    have : |ν⁻¹ - ‖w‖⁻¹| * ‖w‖ = |‖w‖ - ν| / ν := by
      rw [show ν⁻¹ - ‖w‖⁻¹ = (‖w‖ - ν) / (ν * ‖w‖) by field_simp, abs_div,
        abs_of_pos (mul_pos hν0 hw0)]
      field_simp
    rw [this, abs_sub_comm]
    gcongr
  have hnn : 0 ≤ s := (norm_nonneg _).trans hclose
  have hδs : 0 ≤ δ := (norm_nonneg _).trans hq
  have h3 : s / ν + (δ + s) / ν + δ ≤ (2 * s + δ) / r + δ := by
    rw [← add_div, show s + (δ + s) = 2 * s + δ by ring]
    gcongr
  rw [e]
  refine (norm_add_le _ _).trans ?_
  have h5 := norm_add_le (((ν⁻¹ : ℝ) : ℂ) • (v - w)) ((((ν⁻¹ : ℝ) : ℂ) - ((‖w‖⁻¹ : ℝ) : ℂ)) • w)
  linarith

open Classical in
/-- The exact loop stays away from the tolerance by `κ`. -/
def Margin (κ eps : ℝ) : List E → List E → Prop
  | [], _ => True
  | a :: A, Q => κ ≤ |‖gsReduce Q a‖ - eps| ∧
    Margin κ eps A (if eps < ‖gsReduce Q a‖ then Q ++ [((‖gsReduce Q a‖⁻¹ : ℝ) : ℂ) • gsReduce Q a] else Q)

/-- A run takes the decisions of the exact loop when these have a margin. -/
theorem loop_follow [FiniteDimensional ℂ E] {κ : ℝ} (heps : 0 < eps) (hδ₀ : 0 ≤ δ₀) (hδ : 0 ≤ δ) {M : ℕ}
    (hM : Module.finrank ℂ E ≤ M)
    (hle : sig δ₀ δ (fun _ => eps) M ≤ 1) (hκ : δ + sig δ₀ δ (fun _ => eps) M < κ) :
    ∀ {A B Q U R : List E}, List.Forall₂ (fun a b => ‖a - b‖ ≤ δ₀) A B → (∀ b ∈ B, ‖b‖ ≤ 1) → OList U →
    List.Forall₂ (fun q u => ‖q - u‖ ≤ err δ₀ δ (fun _ => eps) U.length) Q U → Margin κ eps B U →
    LoopRun δ eps A Q R →
    List.Forall₂ (fun q u => ‖q - u‖ ≤ err δ₀ δ (fun _ => eps) M) R (gsLoop eps B U) := by
  intro A
  have dim : ∀ V : List E, OList V → V.length ≤ M := fun V hV => by
    rw [oList_length hV]
    exact (Submodule.finrank_le _).trans hM
  induction A with
  | nil =>
    intro B Q U R hAB _ hU hQU _ hrun
    cases hAB
    rw [show R = Q from hrun]
    exact hQU.imp fun _ _ h => h.trans (err_mono (dim U hU))
  | cons a A ih =>
    intro B Q U R hAB hB hU hQU hmar hrun
    cases hAB with
    | @cons _ b _ B hab hAB =>
    obtain ⟨v, hv, ν, hν, hrun⟩ := hrun
    obtain ⟨hm1, hm2⟩ := hmar
    have hsigM : sig δ₀ δ (fun _ => eps) U.length ≤ sig δ₀ δ (fun _ => eps) M := sig_mono hδ (dim U hU)
    have hclose : ‖v - gsReduce U b‖ ≤ sig δ₀ δ (fun _ => eps) U.length :=
      reduce_close hδ (err_nonneg _) (err_le_one hδ₀ hδ (hsigM.trans hle)) hQU hU.norm (hB b (by simp)) hab
        (hsigM.trans hle) hv
    have hνw : |ν - ‖gsReduce U b‖| ≤ δ + sig δ₀ δ (fun _ => eps) U.length := by
      have h1 := abs_norm_sub_norm_le v (gsReduce U b)
      have h2 := abs_sub_le ν ‖v‖ ‖gsReduce U b‖
      linarith
    have hdec : eps < ν ↔ eps < ‖gsReduce U b‖ := by
      have h1 := abs_le.1 (hνw.trans (add_le_add_right hsigM δ))
      rcases le_abs.1 hm1 with h2 | h2
      · exact ⟨fun _ => by linarith, fun _ => by linarith [h1.1]⟩
      · exact ⟨fun _ => by linarith [h1.2], fun _ => by linarith⟩
    rw [gsLoop]
    rcases hrun with ⟨hacc, q, hq, hrun⟩ | ⟨hrej, hrun⟩
    · have hacc' := hdec.1 hacc
      rw [if_pos hacc'] at hm2
      simp only [if_pos hacc']
      have hw0 : 0 < ‖gsReduce U b‖ := heps.trans hacc'
      have hU' := oList_append hU le_rfl hw0
      refine ih hAB (fun b hb => hB b (by simp [hb])) hU' ?_ hm2 hrun
      have hlen : (U ++ [((‖gsReduce U b‖⁻¹ : ℝ) : ℂ) • gsReduce U b]).length = U.length + 1 := by simp
      rw [hlen]
      refine forall₂_append_singleton (hQU.imp fun _ _ h => h.trans (err_mono (Nat.le_succ _))) ?_
      refine (normalise_close heps hacc.le hw0 hclose hνw hq).trans ?_
      exact le_max_right _ _
    · have hrej' : ¬ eps < ‖gsReduce U b‖ := fun h => hrej (hdec.2 h)
      rw [if_neg hrej'] at hm2
      simp only [if_neg hrej']
      exact ih hAB (fun b hb => hB b (by simp [hb])) hU hQU hm2 hrun

theorem norm_gsReduce_eq {Q : List E} (hQ : OList Q) (a : E) :
    ‖gsReduce Q a‖ = Metric.infDist a (lspan Q : Set E) := by
  have hmem : a - gsReduce Q a ∈ lspan Q := gsReduce_sub_mem Q a
  have horth : ∀ z ∈ lspan Q, inner ℂ z (gsReduce Q a) = 0 := by
    intro z hz
    induction hz using Submodule.span_induction with
    | mem x hx => exact gsReduce_orth hQ a x hx
    | zero => simp
    | add x y _ _ hx hy => rw [inner_add_left, hx, hy, add_zero]
    | smul c x _ hx => rw [inner_smul_left, hx, mul_zero]
  apply le_antisymm
  · refine (Metric.le_infDist ⟨0, (lspan Q).zero_mem⟩).2 fun z hz => ?_
    have h1 : a - z = gsReduce Q a + ((a - gsReduce Q a) - z) := by abel
    have h2 : inner ℂ (gsReduce Q a) ((a - gsReduce Q a) - z) = 0 :=
      inner_eq_zero_symm.1 (horth _ ((lspan Q).sub_mem hmem hz))
    have h3 := norm_add_sq_eq_norm_sq_add_norm_sq_of_inner_eq_zero (𝕜 := ℂ) _ _ h2
    rw [← h1] at h3
    rw [dist_eq_norm]
    nlinarith [norm_nonneg (gsReduce Q a), norm_nonneg (a - z),
      mul_self_nonneg ‖(a - gsReduce Q a) - z‖]
  · have := Metric.infDist_le_dist_of_mem (x := a) (s := (lspan Q : Set E)) hmem
    rwa [dist_eq_norm, sub_sub_cancel] at this

theorem gsLoop_append (eps : ℝ) (A B Q : List E) : gsLoop eps (A ++ B) Q = gsLoop eps B (gsLoop eps A Q) := by
  induction A generalizing Q with
  | nil => rfl
  | cons a A ih =>
    rw [List.cons_append, gsLoop, gsLoop]
    split_ifs <;> exact ih _

theorem margin_of {κ : ℝ} (heps : 0 ≤ eps) : ∀ {A P : List E} {U : List E}, OList U → U = gramSchmidt eps P →
    (∀ P' a S, A = P' ++ a :: S → κ ≤ |Metric.infDist a (lspan (gramSchmidt eps (P ++ P')) : Set E) - eps|) →
    Margin κ eps A U := by
  intro A
  induction A with
  | nil => intro _ _ _ _ _; trivial
  | cons a A ih =>
    intro P U hU hP h
    have h1 := h [] a A rfl
    rw [List.append_nil, ← hP, ← norm_gsReduce_eq hU] at h1
    refine ⟨h1, ?_⟩
    have e : gramSchmidt eps (P ++ [a]) = (if eps < ‖gsReduce U a‖ then
        U ++ [((‖gsReduce U a‖⁻¹ : ℝ) : ℂ) • gsReduce U a] else U) := by
      rw [gramSchmidt, gsLoop_append, ← gramSchmidt, ← hP]
      simp only [gsLoop]
    refine ih (P := P ++ [a]) ?_ e.symm ?_
    · split_ifs with hc
      · exact oList_append hU heps hc
      · exact hU
    · intro P' b S hS
      have := h (a :: P') b S (by rw [hS]; rfl)
      simpa using this

end follow

/-- `gram_schmidt` as a start for `loop_close`. -/
theorem gramRun_close (hδ : 0 ≤ δ) (heps : 0 < eps)
    (hacc : sig (4 * δ + 4 * δ / 1) δ (fun _ => eps) n + δ ≤ eps)
    (hle : sig (4 * δ + 4 * δ / 1) δ (fun _ => eps) n ≤ 1) {A R : List (Vec n)} (hA : ∀ a ∈ A, ‖a‖ ≤ 1)
    (h : GramRun δ eps A R) :
    ∃ U, OList U ∧ (∀ u ∈ U, u ∈ lspan A) ∧ U.length ≤ n ∧
      List.Forall₂ (fun q u => ‖q - u‖ ≤ err (4 * δ + 4 * δ / 1) δ (fun _ => eps) U.length) R U ∧
      ∀ a ∈ A, ∃ z ∈ lspan U, ‖a - z‖ ≤ eps + δ + sig (4 * δ + 4 * δ / 1) δ (fun _ => eps) n := by
  obtain ⟨A', h1, h2⟩ := h
  obtain ⟨U, g1, g2, -, g4, g5, g6⟩ := loop_close (W := lspan A) (δ₀ := 4 * δ + 4 * δ / 1) (by linarith) hδ hacc hle
    (fun _ => heps) (Or.inl ⟨finrank_sub_le _, le_rfl⟩) (fun b _ V _ _ _ ν hν _ => hν.le)
    (h1.imp fun _ _ h => h.trans (by linarith)) (fun b hb => ⟨mem_lspan hb, hA b hb⟩)
    ⟨by simp, List.Pairwise.nil⟩ (by simp) .nil h2
  exact ⟨U, g1, g2, g4, g5, g6⟩

theorem forall₂_length_append {α β : Type*} {r : α → β → Prop} {Q L : List α} {U : List β}
    (h : List.Forall₂ r (Q ++ L) U) : ∃ U₁ U₂, U = U₁ ++ U₂ ∧ List.Forall₂ r Q U₁ ∧ List.Forall₂ r L U₂ := by
  refine ⟨U.take Q.length, U.drop Q.length, (List.take_append_drop _ _).symm, ?_, ?_⟩
  · have := List.forall₂_take Q.length h
    simpa using this
  · have := List.forall₂_drop Q.length h
    simpa using this

/-- All runs of `extend_basis`. -/
theorem extendRun_close (hδ : 0 ≤ δ) (heps : 0 < eps)
    (hacc : sig (4 * δ + 4 * δ / 1) δ (fun _ => eps) n + δ ≤ eps)
    (hle : sig (4 * δ + 4 * δ / 1) δ (fun _ => eps) n ≤ 1)
    (hn : n * (eps + δ + sig (4 * δ + 4 * δ / 1) δ (fun _ => eps) n) ^ 2 < 1)
    {A Q Q' : List (Vec n)} (hA : ∀ a ∈ A, ‖a‖ ≤ 1) (h : GramRun δ eps A Q)
    (h' : LoopRun δ eps (eyeRows n) Q Q') :
    ∃ U, OList U ∧ lspan U = ⊤ ∧ U.length = n ∧
      List.Forall₂ (fun q u => ‖q - u‖ ≤ err (4 * δ + 4 * δ / 1) δ (fun _ => eps) n) Q' U := by
  obtain ⟨U, g1, g2, g3, g4, g5⟩ := gramRun_close hδ heps hacc hle hA h
  obtain ⟨U', k1, -, -, k4, k5, k6⟩ := loop_close (W := (⊤ : Submodule ℂ (Vec n))) (δ₀ := 4 * δ + 4 * δ / 1)
    (by linarith) hδ hacc hle (fun _ => heps) (Or.inl ⟨finrank_sub_le _, le_rfl⟩)
    (fun b _ V _ _ _ ν hν _ => hν.le) (forall₂_self (by linarith) (eyeRows n))
    (fun b hb => ⟨trivial, by
      obtain ⟨i, -, rfl⟩ := List.mem_map.1 hb
      simp⟩) g1 (fun _ _ => trivial) g4 h'
  have hfull : lspan U' = ⊤ := full_of_close hn (fun i => EuclideanSpace.single i (1 : ℂ))
    (fun i => EuclideanSpace.single i (1 : ℂ)) pars_single (fun _ _ _ => rfl) le_top
    fun i => k6 _ (List.mem_map.2 ⟨i, List.mem_finRange i, rfl⟩)
  refine ⟨U', k1, hfull, ?_, k5.imp fun q u hq => hq.trans (err_mono k4)⟩
  rw [oList_length k1, hfull]
  simp

end Rounding

end LieNN
