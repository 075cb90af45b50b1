import Verif.Proofs.RoundTriplet
import Verif.Proofs.SU2Orth
/-!
# The generators and coefficients of `SU2` in the error analysis
-/
namespace LieNN.SU2

open Matrix Spec

variable {j : ℕ}

theorem gens_zero_apply (r c : Fin (j + 1)) : gens j 0 r c =
    if (r : ℕ) = c + 1 then ((-(√(lad j c) / 2) : ℝ) : ℂ) else if (c : ℕ) = r + 1 then ((√(lad j r) / 2 : ℝ) : ℂ) else 0 := by
  rw [gens_zero, Matrix.smul_apply, Matrix.add_apply, raising_apply, lowering_apply, smul_eq_mul]
  split_ifs with h1 h2
  · omega
  · push_cast; ring
  · push_cast; ring
  · simp

theorem gens_two_apply (r c : Fin (j + 1)) : gens j 2 r c =
    if (r : ℕ) = c + 1 then Complex.I * ((√(lad j c) / 2 : ℝ) : ℂ)
    else if (c : ℕ) = r + 1 then Complex.I * ((√(lad j r) / 2 : ℝ) : ℂ) else 0 := by
  rw [gens_two, Matrix.smul_apply, Matrix.sub_apply, raising_apply, lowering_apply, smul_eq_mul]
  split_ifs with h1 h2
  · omega
  · push_cast; ring
  · push_cast; ring
  · simp

theorem gens_one_apply (r c : Fin (j + 1)) : gens j 1 r c = if r = c then Complex.I * ((wt j r : ℝ) : ℂ) else 0 := by
  rw [gens_one, zGen_eq, Matrix.diagonal_apply]

theorem sqrt_lad_le {c : ℕ} (hc : c ≤ j) : √(lad j c) / 2 ≤ (j + 1) / 2 := by
  have h0 := lad_nonneg hc
  have : √(lad j c) ≤ j + 1 := by
    refine Real.sqrt_le_iff.2 ⟨by positivity, ?_⟩
    unfold lad
    have : (c : ℝ) ≤ j := by exact_mod_cast hc
    have := Nat.cast_nonneg (α := ℝ) c
    nlinarith
  linarith

theorem abs_wt_le {c : ℕ} (hc : c ≤ j) : |wt j c| ≤ (j + 1) / 2 := by
  unfold wt
  have h1 : (c : ℝ) ≤ j := by exact_mod_cast hc
  have h2 := Nat.cast_nonneg (α := ℝ) c
  rw [abs_le]
  constructor <;> linarith

theorem norm_gens_le (a : Fin 3) (r c : Fin (j + 1)) : ‖gens j a r c‖ ≤ (j + 1) / 2 := by
  have hp : (0 : ℝ) ≤ (j + 1) / 2 := by positivity
  have hr := sqrt_lad_le (Nat.le_of_lt_succ r.2)
  have hc := sqrt_lad_le (Nat.le_of_lt_succ c.2)
  have nr : (0 : ℝ) ≤ √(lad j r) / 2 := by positivity
  have nc : (0 : ℝ) ≤ √(lad j c) / 2 := by positivity
  fin_cases a
  · change ‖gens j 0 r c‖ ≤ _
    rw [gens_zero_apply]
    split_ifs
    · rw [Complex.norm_real, norm_neg, Real.norm_of_nonneg nc]; exact hc
    · rw [Complex.norm_real, Real.norm_of_nonneg nr]; exact hr
    · rw [norm_zero]; exact hp
  · change ‖gens j 1 r c‖ ≤ _
    rw [gens_one_apply]
    split_ifs
    · rw [norm_mul, Complex.norm_I, one_mul, Complex.norm_real]
      exact abs_wt_le (Nat.le_of_lt_succ r.2)
    · rw [norm_zero]; exact hp
  · change ‖gens j 2 r c‖ ≤ _
    rw [gens_two_apply]
    split_ifs
    · rw [norm_mul, Complex.norm_I, one_mul, Complex.norm_real, Real.norm_of_nonneg nc]; exact hc
    · rw [norm_mul, Complex.norm_I, one_mul, Complex.norm_real, Real.norm_of_nonneg nr]; exact hr
    · rw [norm_zero]; exact hp

theorem gens_eq_zero {a : Fin 3} {r c : Fin (j + 1)} (h : (a = 1 ∧ r ≠ c) ∨ (a ≠ 1 ∧ (r : ℕ) ≠ c + 1 ∧ (c : ℕ) ≠ r + 1)) :
    gens j a r c = 0 := by
  rcases h with ⟨rfl, h⟩ | ⟨ha, h1, h2⟩
  · rw [gens_one_apply, if_neg h]
  · fin_cases a
    · change gens j 0 r c = 0
      rw [gens_zero_apply, if_neg h1, if_neg h2]
    · exact absurd rfl ha
    · change gens j 2 r c = 0
      rw [gens_two_apply, if_neg h1, if_neg h2]

/-- The indices next to `i`. -/
theorem card_next (i : Fin (j + 1)) : (Finset.univ.filter fun k : Fin (j + 1) => (i : ℕ) = k + 1 ∨ (k : ℕ) = i + 1).card ≤ 2 := by
  rw [← Finset.card_map Fin.valEmbedding]
  refine (Finset.card_le_card (t := {(i : ℕ) - 1, (i : ℕ) + 1}) fun x hx => ?_).trans Finset.card_le_two
  obtain ⟨k, hk, rfl⟩ := Finset.mem_map.1 hx
  have := (Finset.mem_filter.1 hk).2
  simp only [Fin.valEmbedding_apply, Finset.mem_insert, Finset.mem_singleton]
  omega

theorem twoPerLine {G : ℝ} (hG : (j + 1) / 2 ≤ G) : TwoPerLine G (gens j) := by
  intro a
  refine ⟨fun i => ?_, fun k => ?_, fun i k => (norm_gens_le a i k).trans hG⟩
  · by_cases ha : a = 1
    · exact ⟨{i}, by simp, fun k hk => gens_eq_zero (Or.inl ⟨ha, fun h => hk (by rw [h]; simp)⟩)⟩
    · refine ⟨_, card_next i, fun k hk => gens_eq_zero (Or.inr ⟨ha, ?_⟩)⟩
      simp only [Finset.mem_filter, Finset.mem_univ, true_and, not_or] at hk
      exact hk
  · by_cases ha : a = 1
    · exact ⟨{k}, by simp, fun i hi => gens_eq_zero (Or.inl ⟨ha, fun h => hi (by rw [h]; simp)⟩)⟩
    · refine ⟨_, card_next k, fun i hi => gens_eq_zero (Or.inr ⟨ha, ?_⟩)⟩
      simp only [Finset.mem_filter, Finset.mem_univ, true_and, not_or] at hi
      exact ⟨hi.2, hi.1⟩

theorem onePerBracket : OnePerBracket algebra := by
  intro i j
  have h : ∀ i j : Fin 3, ∃ k₀ : Fin 3, (∀ k, k ≠ k₀ → algebra i j k = 0) ∧ (algebra i j k₀ = 0 ∨ algebra i j k₀ = 1 ∨ algebra i j k₀ = -1) := by
    intro i j
    fin_cases i <;> fin_cases j
    · exact ⟨0, fun k _ => by fin_cases k <;> rfl, Or.inl rfl⟩
    · exact ⟨2, fun k hk => by fin_cases k <;> first | rfl | exact absurd rfl hk, Or.inr (Or.inl rfl)⟩
    · exact ⟨1, fun k hk => by fin_cases k <;> first | rfl | exact absurd rfl hk, Or.inr (Or.inr rfl)⟩
    · exact ⟨2, fun k hk => by fin_cases k <;> first | rfl | exact absurd rfl hk, Or.inr (Or.inr rfl)⟩
    · exact ⟨0, fun k _ => by fin_cases k <;> rfl, Or.inl rfl⟩
    · exact ⟨0, fun k hk => by fin_cases k <;> first | rfl | exact absurd rfl hk, Or.inr (Or.inl rfl)⟩
    · exact ⟨1, fun k hk => by fin_cases k <;> first | rfl | exact absurd rfl hk, Or.inr (Or.inl rfl)⟩
    · exact ⟨0, fun k hk => by fin_cases k <;> first | rfl | exact absurd rfl hk, Or.inr (Or.inr rfl)⟩
    · exact ⟨0, fun k _ => by fin_cases k <;> rfl, Or.inl rfl⟩
  obtain ⟨k₀, h0, h1⟩ := h i j
  refine ⟨k₀, h0, ?_⟩
  rcases h1 with h1 | h1 | h1 <;> rw [h1] <;> simp

theorem abs_ct_le {j₁ j₂ j₃ : ℕ} (h : j₃ ∈ mulL j₁ j₂) (a : Fin (j₁ + 1)) (b : Fin (j₂ + 1)) (c : Fin (j₃ + 1)) :
    |ct j₁ j₂ j₃ a b c| ≤ 1 := by
  have h1 := ct_orth h h c c
  rw [if_pos ⟨rfl, rfl⟩] at h1
  have h2 : ct j₁ j₂ j₃ a b c * ct j₁ j₂ j₃ a b c ≤ 1 := by
    rw [← h1]
    refine le_trans ?_ (Finset.single_le_sum (f := fun a => ∑ b, ct j₁ j₂ j₃ a b c * ct j₁ j₂ j₃ a b c)
      (fun i _ => Finset.sum_nonneg fun _ _ => mul_self_nonneg _) (Finset.mem_univ a))
    exact Finset.single_le_sum (f := fun b => ct j₁ j₂ j₃ a b c * ct j₁ j₂ j₃ a b c) (fun _ _ => mul_self_nonneg _) (Finset.mem_univ b)
  exact abs_le_one_iff_mul_self_le_one.2 h2

end LieNN.SU2
