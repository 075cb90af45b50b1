import Verif.Model.Rounding
import Verif.Proofs.GramSchmidt
/-!
# Gram-Schmidt with rounding errors
-/
namespace LieNN

open Matrix Spec

namespace Rounding

variable {E : Type*} [NormedAddCommGroup E] [InnerProductSpace ℂ E]

/-- Error of the vectors of the family after `t` vectors were accepted: `δ₀` is the error of the rows,
`ρ t` a lower bound of the norm of the accepted vector number `t`. -/
noncomputable def err (δ₀ δ : ℝ) (ρ : ℕ → ℝ) : ℕ → ℝ
  | 0 => 0
  | t + 1 => max (err δ₀ δ ρ t) ((2 * (δ₀ + t * (6 * err δ₀ δ ρ t + δ)) + δ) / ρ t + δ)

/-- Error of the reduced vector when the family has `t` vectors. -/
noncomputable def sig (δ₀ δ : ℝ) (ρ : ℕ → ℝ) (t : ℕ) : ℝ := δ₀ + t * (6 * err δ₀ δ ρ t + δ)

variable {δ₀ δ : ℝ} {ρ : ℕ → ℝ}

theorem err_mono : Monotone (err δ₀ δ ρ) :=
  monotone_nat_of_le_succ fun _ => le_max_left _ _

theorem err_nonneg (t : ℕ) : 0 ≤ err δ₀ δ ρ t := by
  have := err_mono (δ₀ := δ₀) (δ := δ) (ρ := ρ) (Nat.zero_le t)
  exact this

theorem sig_mono (hδ : 0 ≤ δ) : Monotone (sig δ₀ δ ρ) := by
  intro s t h
  unfold sig
  have h1 : err δ₀ δ ρ s ≤ err δ₀ δ ρ t := err_mono h
  have h2 := err_nonneg (δ₀ := δ₀) (δ := δ) (ρ := ρ) s
  have h3 : (s : ℝ) ≤ t := by exact_mod_cast h
  have h4 : (s : ℝ) * (6 * err δ₀ δ ρ s + δ) ≤ t * (6 * err δ₀ δ ρ t + δ) := by
    apply mul_le_mul h3 (by linarith) (by linarith) (by positivity)
  linarith

theorem err_le_one (hδ₀ : 0 ≤ δ₀) (hδ : 0 ≤ δ) {t : ℕ} (h : sig δ₀ δ ρ t ≤ 1) : err δ₀ δ ρ t ≤ 1 := by
  rcases t with _ | t
  · simp [err]
  · unfold sig at h
    have h2 := err_nonneg (δ₀ := δ₀) (δ := δ) (ρ := ρ) (t + 1)
    have h3 : (1 : ℝ) ≤ ((t + 1 : ℕ) : ℝ) := by push_cast; linarith [Nat.cast_nonneg (α := ℝ) t]
    nlinarith

theorem norm_step_le {u v : E} (hu : ‖u‖ = 1) : ‖v - inner ℂ u v • u‖ ≤ ‖v‖ := by
  have h0 : inner ℂ u (v - inner ℂ u v • u) = 0 := by
    rw [inner_sub_right, inner_smul_right, inner_self_eq_norm_sq_to_K, hu]; simp
  have h : ‖v‖ ^ 2 = ‖v - inner ℂ u v • u‖ ^ 2 + ‖inner ℂ u v • u‖ ^ 2 := by
    have h1 : inner ℂ (v - inner ℂ u v • u) (inner ℂ u v • u) = 0 := by
      rw [inner_smul_right, inner_eq_zero_symm.1 h0, mul_zero]
    have h2 := norm_add_sq_eq_norm_sq_add_norm_sq_of_inner_eq_zero (𝕜 := ℂ) _ _ h1
    rw [sub_add_cancel] at h2
    nlinarith
  have := sq_nonneg ‖inner ℂ u v • u‖
  exact (sq_le_sq₀ (norm_nonneg _) (norm_nonneg _)).1 (by linarith)

theorem norm_gsReduce_le {U : List E} (hU : ∀ u ∈ U, ‖u‖ = 1) (v : E) : ‖gsReduce U v‖ ≤ ‖v‖ := by
  induction U generalizing v with
  | nil => exact le_rfl
  | cons u U ih =>
    rw [gsReduce_cons]
    exact (ih (fun u hu => hU u (by simp [hu])) _).trans (norm_step_le (hU u (by simp)))

theorem step_close {q u v w v₁ : E} {η s : ℝ} (hu : ‖u‖ = 1) (hq : ‖q - u‖ ≤ η) (hη : η ≤ 1)
    (hv : ‖v‖ ≤ 2) (hs : ‖v - w‖ ≤ s) (h₁ : ‖v₁ - (v - inner ℂ q v • q)‖ ≤ δ) :
    ‖v₁ - (w - inner ℂ u w • u)‖ ≤ s + (6 * η + δ) := by
  have hη0 : 0 ≤ η := (norm_nonneg _).trans hq
  have e : v₁ - (w - inner ℂ u w • u) = (v₁ - (v - inner ℂ q v • q)) +
      ((v - w) - inner ℂ u (v - w) • u) + (inner ℂ u v • (u - q) + inner ℂ (u - q) v • q) := by
    simp only [inner_sub_right, inner_sub_left, sub_smul, smul_sub]
    abel
  have hqn : ‖q‖ ≤ 2 := by
    have : q = u + (q - u) := by abel
    rw [this]; exact (norm_add_le _ _).trans (by linarith)
  have hqu : ‖u - q‖ ≤ η := by rwa [norm_sub_rev]
  have h2 : ‖inner ℂ u v • (u - q)‖ ≤ 2 * η := by
    rw [norm_smul]
    have := norm_inner_le_norm (𝕜 := ℂ) u v
    rw [hu, one_mul] at this
    exact mul_le_mul (this.trans hv) hqu (norm_nonneg _) (by norm_num)
  have h3 : ‖inner ℂ (u - q) v • q‖ ≤ 4 * η := by
    rw [norm_smul]
    have := norm_inner_le_norm (𝕜 := ℂ) (u - q) v
    have h4 : ‖u - q‖ * ‖v‖ ≤ η * 2 := mul_le_mul hqu hv (norm_nonneg _) hη0
    have h5 : ‖inner ℂ (u - q) v‖ * ‖q‖ ≤ (η * 2) * 2 :=
      mul_le_mul (this.trans h4) hqn (norm_nonneg _) (by positivity)
    linarith
  have h6 := (norm_step_le (v := v - w) hu).trans hs
  rw [e]
  refine (norm_add_le _ _).trans ?_
  have h7 := norm_add_le (v₁ - (v - inner ℂ q v • q)) ((v - w) - inner ℂ u (v - w) • u)
  have h8 := norm_add_le (inner ℂ u v • (u - q)) (inner ℂ (u - q) v • q)
  linarith

/-- The reduced vector of a run is close to the exact reduction by the exact family. -/
theorem reduce_close {η : ℝ} (hδ : 0 ≤ δ) (hη0 : 0 ≤ η) (hη : η ≤ 1) {Q U : List E}
    (hQU : List.Forall₂ (fun q u => ‖q - u‖ ≤ η) Q U) (hU : ∀ u ∈ U, ‖u‖ = 1) :
    ∀ {v w v' : E} {s : ℝ}, ‖w‖ ≤ 1 → ‖v - w‖ ≤ s → s + U.length * (6 * η + δ) ≤ 1 →
      ReduceRun δ Q v v' → ‖v' - gsReduce U w‖ ≤ s + U.length * (6 * η + δ) := by
  induction hQU with
  | nil =>
    intro v w v' s _ hs _ hrun
    rw [hrun]; simpa [gsReduce] using hs
  | @cons q u Q U hqu _ ih =>
    intro v w v' s hw hs hle hrun
    obtain ⟨v₁, h₁, hrun⟩ := hrun
    have hu := hU u (by simp)
    rw [List.length_cons] at hle ⊢
    have e : s + ((U.length + 1 : ℕ) : ℝ) * (6 * η + δ) =
        (s + (6 * η + δ)) + U.length * (6 * η + δ) := by push_cast; ring
    rw [e] at hle ⊢
    have hnn : 0 ≤ (U.length : ℝ) * (6 * η + δ) := by positivity
    have hv : ‖v‖ ≤ 2 := by
      have : v = w + (v - w) := by abel
      rw [this]; exact (norm_add_le _ _).trans (by linarith)
    rw [gsReduce_cons]
    exact ih (fun u hu => hU u (by simp [hu])) ((norm_step_le hu).trans hw)
      (step_close hu hqu hη hv hs h₁) hle hrun

theorem forall₂_append_singleton {α β : Type*} {r : α → β → Prop} {l : List α} {m : List β} {a : α}
    {b : β} (h : List.Forall₂ r l m) (hab : r a b) : List.Forall₂ r (l ++ [a]) (m ++ [b]) :=
  List.rel_append h (.cons hab .nil)

theorem loopRun_length {eps : ℝ} : ∀ {A Q R : List E}, LoopRun δ eps A Q R → Q.length ≤ R.length
  | [], Q, R, h => by rw [h]
  | a :: A, Q, R, ⟨v, _, ν, _, h⟩ => by
    rcases h with ⟨_, q, _, h⟩ | ⟨_, h⟩
    · have := loopRun_length h
      simp at this; omega
    · exact loopRun_length h

/-- **All runs of the loop.**  `B` are the exact rows, elements of `W`.  The family of the run is close to
an exact orthonormal family of `W`, and every exact row is close to the span of that family. -/
theorem loop_close [FiniteDimensional ℂ E] {W : Submodule ℂ E} {eps : ℝ} (hδ₀ : 0 ≤ δ₀) (hδ : 0 ≤ δ)
    {m M : ℕ} (hacc : sig δ₀ δ ρ m + δ ≤ eps) (hle : sig δ₀ δ ρ M ≤ 1) (hρ0 : ∀ t, 0 < ρ t)
    {R : List E}
    (hm : (Module.finrank ℂ W ≤ m ∧ m ≤ M) ∨ (R.length ≤ m + 1 ∧ m + 1 ≤ M)) :
    ∀ {A B Q U : List E},
    (∀ b ∈ B, ∀ V : List E, OList V → (∀ u ∈ V, u ∈ W) → V.length ≤ m → ∀ ν : ℝ, eps < ν →
      |ν - ‖gsReduce V b‖| ≤ δ + sig δ₀ δ ρ m → ρ V.length ≤ ν) →
    List.Forall₂ (fun a b => ‖a - b‖ ≤ δ₀) A B → (∀ b ∈ B, b ∈ W ∧ ‖b‖ ≤ 1) → OList U →
    (∀ u ∈ U, u ∈ W) → List.Forall₂ (fun q u => ‖q - u‖ ≤ err δ₀ δ ρ U.length) Q U →
    LoopRun δ eps A Q R →
    ∃ U', OList U' ∧ (∀ u ∈ U', u ∈ W) ∧ (∀ u ∈ U, u ∈ U') ∧ U'.length ≤ M ∧
      List.Forall₂ (fun q u => ‖q - u‖ ≤ err δ₀ δ ρ U'.length) R U' ∧
      ∀ b ∈ B, ∃ z ∈ lspan U', ‖b - z‖ ≤ eps + δ + sig δ₀ δ ρ M := by
  have dim : ∀ V : List E, OList V → (∀ u ∈ V, u ∈ W) → V.length ≤ Module.finrank ℂ W := by
    intro V hV hVW
    rw [oList_length hV]
    exact Submodule.finrank_mono (lspan_le.2 hVW)
  have hmM : m ≤ M := by omega
  have bound : ∀ {A Q U : List E}, OList U → (∀ u ∈ U, u ∈ W) →
      List.Forall₂ (fun q u => ‖q - u‖ ≤ err δ₀ δ ρ U.length) Q U → LoopRun δ eps A Q R →
      U.length ≤ M := by
    intro A Q U hU hUW hQU hrun
    have h1 := dim U hU hUW
    have h2 := loopRun_length hrun
    have h3 := hQU.length_eq
    omega
  intro A
  induction A with
  | nil =>
    intro B Q U _ hAB hBW hU hUW hQU hrun
    cases hAB
    have hb := bound hU hUW hQU hrun
    rw [hrun]
    exact ⟨U, hU, hUW, fun u hu => hu, hb, hQU, by simp⟩
  | cons a A ih =>
    intro B Q U hρ hAB hBW hU hUW hQU hrun
    cases hAB with
    | @cons _ b _ B hab hAB =>
    have hUM := bound hU hUW hQU hrun
    obtain ⟨v, hv, ν, hν, hrun⟩ := hrun
    obtain ⟨hbW, hb1⟩ := hBW b (by simp)
    have hsigM : sig δ₀ δ ρ U.length ≤ sig δ₀ δ ρ M := sig_mono hδ hUM
    have hclose : ‖v - gsReduce U b‖ ≤ sig δ₀ δ ρ U.length :=
      reduce_close hδ (err_nonneg _) (err_le_one hδ₀ hδ (hsigM.trans hle)) hQU hU.norm hb1 hab
        (hsigM.trans hle) hv
    have hνw : |ν - ‖gsReduce U b‖| ≤ δ + sig δ₀ δ ρ U.length := by
      have h1 := abs_norm_sub_norm_le v (gsReduce U b)
      have h2 := abs_sub_le ν ‖v‖ ‖gsReduce U b‖
      linarith
    rcases hrun with ⟨hacc', q, hq, hrun⟩ | ⟨hrej, hrun⟩
    · -- accepted
      have hUm : U.length ≤ m := by
        rcases hm with ⟨h1, _⟩ | ⟨h1, _⟩
        · exact (dim U hU hUW).trans h1
        · have h2 := loopRun_length hrun
          have h3 := hQU.length_eq
          simp at h2; omega
      have hsigm : sig δ₀ δ ρ U.length ≤ sig δ₀ δ ρ m := sig_mono hδ hUm
      have hw0 : 0 < ‖gsReduce U b‖ := by
        have := (abs_le.1 hνw).2
        linarith
      have hρν : ρ U.length ≤ ν := hρ b (by simp) U hU hUW hUm ν hacc' (hνw.trans (by linarith))
      have hν0 : 0 < ν := (hρ0 _).trans_le hρν
      set w := gsReduce U b with hwdef
      have hU' : OList (U ++ [((‖w‖⁻¹ : ℝ) : ℂ) • w]) := oList_append hU le_rfl hw0
      have hUW' : ∀ u ∈ U ++ [((‖w‖⁻¹ : ℝ) : ℂ) • w], u ∈ W := by
        intro u hu
        rcases List.mem_append.1 hu with hu | hu
        · exact hUW u hu
        · rw [List.mem_singleton] at hu
          subst hu
          exact W.smul_mem _ (gsReduce_mem hUW hbW)
      have hqu : ‖q - ((‖w‖⁻¹ : ℝ) : ℂ) • w‖ ≤ err δ₀ δ ρ (U.length + 1) := by
        have e : q - ((‖w‖⁻¹ : ℝ) : ℂ) • w = (q - ((ν⁻¹ : ℝ) : ℂ) • v) +
            (((ν⁻¹ : ℝ) : ℂ) • (v - w) + (((ν⁻¹ : ℝ) : ℂ) - ((‖w‖⁻¹ : ℝ) : ℂ)) • w) := by
          rw [smul_sub, sub_smul]; abel
        have h1 : ‖((ν⁻¹ : ℝ) : ℂ) • (v - w)‖ ≤ sig δ₀ δ ρ U.length / ν := by
          rw [norm_smul, Complex.norm_real, Real.norm_of_nonneg (inv_nonneg.2 hν0.le), mul_comm,
            div_eq_mul_inv]
          gcongr
        have h2 : ‖(((ν⁻¹ : ℝ) : ℂ) - ((‖w‖⁻¹ : ℝ) : ℂ)) • w‖ ≤
            (δ + sig δ₀ δ ρ U.length) / ν := by
          rw [norm_smul, ← Complex.ofReal_sub, Complex.norm_real, Real.norm_eq_abs]
          have : |ν⁻¹ - ‖w‖⁻¹| * ‖w‖ = |‖w‖ - ν| / ν := by
            rw [show ν⁻¹ - ‖w‖⁻¹ = (‖w‖ - ν) / (ν * ‖w‖) by field_simp, abs_div,
              abs_of_pos (mul_pos hν0 hw0)]
            field_simp
          rw [this, abs_sub_comm]
          gcongr
        have h3 : sig δ₀ δ ρ U.length / ν + (δ + sig δ₀ δ ρ U.length) / ν + δ ≤
            (2 * sig δ₀ δ ρ U.length + δ) / ρ U.length + δ := by
          rw [← add_div, show sig δ₀ δ ρ U.length + (δ + sig δ₀ δ ρ U.length) =
            2 * sig δ₀ δ ρ U.length + δ by ring]
          have hnn : 0 ≤ sig δ₀ δ ρ U.length := (norm_nonneg _).trans hclose
          have : 0 < ρ U.length := hρ0 _
          gcongr
        have h4 : (2 * sig δ₀ δ ρ U.length + δ) / ρ U.length + δ ≤ err δ₀ δ ρ (U.length + 1) :=
          le_max_right _ _
        rw [e]
        refine (norm_add_le _ _).trans ?_
        have h5 := norm_add_le (((ν⁻¹ : ℝ) : ℂ) • (v - w))
          ((((ν⁻¹ : ℝ) : ℂ) - ((‖w‖⁻¹ : ℝ) : ℂ)) • w)
        linarith
      have hlen : (U ++ [((‖w‖⁻¹ : ℝ) : ℂ) • w]).length = U.length + 1 := by simp
      have hQU' : List.Forall₂
          (fun q u => ‖q - u‖ ≤ err δ₀ δ ρ (U ++ [((‖w‖⁻¹ : ℝ) : ℂ) • w]).length)
          (Q ++ [q]) (U ++ [((‖w‖⁻¹ : ℝ) : ℂ) • w]) := by
        rw [hlen]
        exact forall₂_append_singleton
          (hQU.imp fun _ _ h => h.trans (err_mono (Nat.le_succ _))) hqu
      obtain ⟨U', h1, h2, h3, h4, h5, h6⟩ := ih (fun b' hb' => hρ b' (by simp [hb'])) hAB
        (fun b' hb' => hBW b' (by simp [hb'])) hU' hUW' hQU' hrun
      refine ⟨U', h1, h2, fun u hu => h3 u (by simp [hu]), h4, h5, fun b' hb' => ?_⟩
      rcases List.mem_cons.1 hb' with rfl | hb'
      · refine ⟨b', lspan_mono h3 ?_, ?_⟩
        · have g1 : b' - w ∈ lspan (U ++ [((‖w‖⁻¹ : ℝ) : ℂ) • w]) :=
            lspan_mono (fun x hx => by simp [hx]) (gsReduce_sub_mem U b')
          have g2 : w ∈ lspan (U ++ [((‖w‖⁻¹ : ℝ) : ℂ) • w]) := by
            have := Submodule.smul_mem _ ((‖w‖ : ℝ) : ℂ)
              (mem_lspan (Q := U ++ [((‖w‖⁻¹ : ℝ) : ℂ) • w])
              (x := ((‖w‖⁻¹ : ℝ) : ℂ) • w) (by simp))
            rwa [smul_smul, ← Complex.ofReal_mul, mul_inv_cancel₀ hw0.ne', Complex.ofReal_one,
              one_smul] at this
          simpa using Submodule.add_mem _ g1 g2
        · have hnn : 0 ≤ sig δ₀ δ ρ U.length := (norm_nonneg _).trans hclose
          rw [sub_self, norm_zero]
          linarith
      · exact h6 b' hb'
    · -- rejected
      obtain ⟨U', h1, h2, h3, h4, h5, h6⟩ := ih (fun b' hb' => hρ b' (by simp [hb'])) hAB
        (fun b' hb' => hBW b' (by simp [hb'])) hU hUW hQU hrun
      refine ⟨U', h1, h2, h3, h4, h5, fun b' hb' => ?_⟩
      rcases List.mem_cons.1 hb' with rfl | hb'
      · refine ⟨b' - gsReduce U b', lspan_mono h3 (gsReduce_sub_mem U b'), ?_⟩
        rw [sub_sub_cancel]
        have := (abs_le.1 hνw).1
        linarith [not_lt.1 hrej]
      · exact h6 b' hb'

end Rounding

end LieNN
