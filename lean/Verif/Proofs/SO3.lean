import Verif.Model.SO3
import Verif.Proofs.SU2Table
import Verif.Proofs.CGMat
/-!
# The real basis of `SO3`
-/
namespace LieNN.SO3

open Finset Complex Matrix

variable {l : ℕ}

/-- `1 / sqrt 2`. -/
noncomputable def s2 : ℂ := 1 / ((√2 : ℝ) : ℂ)

theorem s2_sq : s2 * s2 = 1 / 2 := by
  unfold s2
  rw [div_mul_div_comm, one_mul, ← ofReal_mul, Real.mul_self_sqrt (by norm_num)]
  norm_num

theorem s2_conj : star s2 = s2 := by
  unfold s2
  rw [RCLike.star_def, map_div₀, map_one, conj_ofReal]

/-- The diagonal entries. -/
noncomputable def al (l r : ℕ) : ℂ :=
  if r < l then -I * s2 else if r = l then 1 else (-1) ^ (r - l) * s2

/-- The anti-diagonal entries. -/
noncomputable def be (l r : ℕ) : ℂ :=
  if r < l then s2 else if r = l then 0 else I * (-1) ^ (r - l) * s2

theorem changeBasis_apply (r c : Fin (2 * l + 1)) : changeBasis l r c =
    (-I) ^ l * (if c = r then al l r else if c = r.rev then be l r else 0) := by
  have hr := r.2
  have hc := c.2
  have hv := Fin.val_rev r
  unfold changeBasis al be s2
  dsimp only
  congr 1
  by_cases h1 : (r : ℕ) < l
  · have hm : ((r : ℕ) : ℤ) - l < 0 := by omega
    rw [if_pos hm, abs_of_neg hm, if_pos h1, if_pos h1]
    by_cases h2 : c = r
    · subst h2
      rw [if_pos rfl, if_neg (by omega), if_pos (by omega)]; ring
    · have h2' : (c : ℕ) ≠ r := fun h => h2 (Fin.ext h)
      rw [if_neg h2]
      by_cases h3 : c = r.rev
      · have h3' : (c : ℕ) = r.rev := congrArg Fin.val h3
        rw [if_pos h3, if_pos (by omega)]
      · have h3' : (c : ℕ) ≠ r.rev := fun h => h3 (Fin.ext h)
        rw [if_neg h3, if_neg (by omega), if_neg (by omega)]
  · rw [if_neg (by omega), if_neg h1, if_neg h1]
    by_cases h0 : (r : ℕ) = l
    · rw [if_pos (by omega), if_pos h0, if_pos h0]
      by_cases h2 : c = r
      · subst h2
        rw [if_pos rfl, if_pos (by omega)]
      · have h2' : (c : ℕ) ≠ r := fun h => h2 (Fin.ext h)
        rw [if_neg h2, ite_self, if_neg (by omega)]
    · have hm : 0 < ((r : ℕ) : ℤ) - l := by omega
      rw [if_neg (by omega), if_neg h0, if_neg h0, abs_of_pos hm,
        show (((r : ℕ) : ℤ) - l).toNat = r - l by omega]
      by_cases h2 : c = r
      · subst h2
        rw [if_pos rfl, if_pos (by omega)]; ring
      · have h2' : (c : ℕ) ≠ r := fun h => h2 (Fin.ext h)
        rw [if_neg h2, if_neg (by omega)]
        by_cases h3 : c = r.rev
        · have h3' : (c : ℕ) = r.rev := congrArg Fin.val h3
          rw [if_pos h3, if_pos (by omega)]; ring
        · have h3' : (c : ℕ) ≠ r.rev := fun h => h3 (Fin.ext h)
          rw [if_neg h3, if_neg (by omega)]

theorem al_mid : al l l = 1 := by unfold al; simp
theorem be_mid : be l l = 0 := by unfold be; simp

theorem neg_one_sub {r : ℕ} (h : r ≤ l) : (-1 : ℂ) ^ (l - r) = (-1) ^ (r + l) := by
  rw [show r + l = (l - r) + 2 * r by omega, pow_add, pow_mul]; simp

theorem ne_mid {r : Fin (2 * l + 1)} (h : (r : ℕ) ≠ l) :
    (r < l ∧ al l r = -I * s2 ∧ be l r = s2 ∧
      al l r.rev = (-1) ^ ((r : ℕ) + l) * s2 ∧ be l r.rev = I * (-1) ^ ((r : ℕ) + l) * s2) ∨
    (l < r ∧ al l r = (-1) ^ ((r : ℕ) + l) * s2 ∧ be l r = I * (-1) ^ ((r : ℕ) + l) * s2 ∧
      al l r.rev = -I * s2 ∧ be l r.rev = s2) := by
  have hr := r.2
  have hv := Fin.val_rev r
  unfold al be
  rcases lt_or_gt_of_ne h with h1 | h1
  · left
    refine ⟨h1, by rw [if_pos h1], by rw [if_pos h1], ?_, ?_⟩
    · rw [if_neg (by omega), if_neg (by omega), show (r.rev : ℕ) - l = l - r by omega,
        neg_one_sub h1.le]
    · rw [if_neg (by omega), if_neg (by omega), show (r.rev : ℕ) - l = l - r by omega,
        neg_one_sub h1.le]
  · right
    have e : (-1 : ℂ) ^ ((r : ℕ) - l) = (-1) ^ ((r : ℕ) + l) := by
      rw [show (r : ℕ) + l = (r - l) + 2 * l by omega, pow_add, pow_mul]; simp
    refine ⟨h1, ?_, ?_, ?_, ?_⟩
    · rw [if_neg (by omega), if_neg (by omega), e]
    · rw [if_neg (by omega), if_neg (by omega), e]
    · rw [if_pos (by omega)]
    · rw [if_pos (by omega)]

theorem sgn_sq (n : ℕ) : (-1 : ℂ) ^ n * (-1) ^ n = 1 := by
  rw [← pow_add, ← two_mul, pow_mul]; simp

theorem negI_sq (l : ℕ) : (-I) ^ l * (-I) ^ l = (-1) ^ l := by
  rw [← mul_pow]; congr 1; rw [neg_mul_neg, I_mul_I]

theorem star_negI (l : ℕ) : star ((-I) ^ l) = (-1) ^ l * (-I) ^ l := by
  rw [star_pow, ← mul_pow]; congr 1; simp

theorem rev_mid {r : Fin (2 * l + 1)} : r.rev = r ↔ (r : ℕ) = l := by
  have hr := r.2
  have hv := Fin.val_rev r
  constructor
  · intro h
    have := congrArg Fin.val h
    omega
  · intro h; apply Fin.ext; omega

/-- Conjugating a row gives the row of the opposite weight, up to a sign. -/
theorem changeBasis_conj (r c : Fin (2 * l + 1)) :
    star (changeBasis l r c) = (-1) ^ (r : ℕ) * changeBasis l r.rev c := by
  rw [changeBasis_apply, changeBasis_apply, star_mul', star_negI, Fin.rev_rev]
  by_cases h : (r : ℕ) = l
  · rw [rev_mid.2 h, h, al_mid, be_mid]
    by_cases hc : c = r
    · rw [if_pos hc]; simp
    · rw [if_neg hc, if_neg hc]; simp
  · have hne : r.rev ≠ r := fun h' => h (rev_mid.1 h')
    have hs := sgn_sq (r : ℕ)
    have key : star (al l r) = (-1) ^ ((r : ℕ) + l) * be l r.rev ∧
        star (be l r) = (-1) ^ ((r : ℕ) + l) * al l r.rev := by
      have hs := sgn_sq ((r : ℕ) + l)
      rcases ne_mid h with ⟨-, e1, e2, e3, e4⟩ | ⟨-, e1, e2, e3, e4⟩
      · rw [e1, e2, e3, e4, star_mul', s2_conj]
        constructor
        · rw [star_neg, RCLike.star_def, conj_I]
          linear_combination (-(I * s2)) * hs
        · linear_combination (-s2) * hs
      · rw [e1, e2, e3, e4]
        simp only [star_mul', s2_conj, star_pow, star_neg, star_one, RCLike.star_def, conj_I]
        constructor
        · trivial
        · ring
    by_cases h1 : c = r
    · subst h1
      rw [if_pos rfl, if_neg (Ne.symm hne), if_pos rfl, key.1, pow_add]
      linear_combination ((-1) ^ (c : ℕ) * (-I) ^ l * be l c.rev) * sgn_sq l
    · rw [if_neg h1]
      by_cases h2 : c = r.rev
      · rw [if_pos h2, if_pos h2, key.2, pow_add]
        linear_combination ((-1) ^ (r : ℕ) * (-I) ^ l * al l r.rev) * sgn_sq l
      · rw [if_neg h2, if_neg h2, if_neg h1, star_zero, mul_zero, mul_zero, mul_zero]

/-- A row has at most two entries. -/
theorem row_sum (r : Fin (2 * l + 1)) (f : Fin (2 * l + 1) → ℂ) :
    ∑ k, changeBasis l r k * f k = (-I) ^ l * (al l r * f r + be l r * f r.rev) := by
  by_cases h : (r : ℕ) = l
  · rw [Finset.sum_eq_single r]
    · rw [changeBasis_apply, if_pos rfl, h, be_mid]; ring
    · intro k _ hk
      rw [changeBasis_apply, if_neg hk, rev_mid.2 h, if_neg hk]; ring
    · simp
  · have hne : r ≠ r.rev := fun h' => h (rev_mid.1 h'.symm)
    rw [Finset.sum_eq_add r r.rev hne]
    · rw [changeBasis_apply, changeBasis_apply, if_pos rfl, if_neg hne.symm, if_pos rfl]; ring
    · intro k _ hk
      rw [changeBasis_apply, if_neg hk.1, if_neg hk.2]; ring
    · simp
    · simp

theorem changeBasis_mul (l : ℕ) : changeBasis l * (changeBasis l)ᴴ = 1 := by
  ext r c
  rw [Matrix.mul_apply]
  simp only [Matrix.conjTranspose_apply, changeBasis_conj]
  rw [row_sum, changeBasis_apply, changeBasis_apply, Fin.rev_rev]
  have hI := negI_sq l
  have hsl := sgn_sq l
  by_cases hl : (r : ℕ) = l
  · rw [hl, be_mid, al_mid]
    by_cases hrc : r = c
    · subst hrc
      rw [Matrix.one_apply_eq, if_pos (rev_mid.2 hl).symm, rev_mid.2 hl, hl, al_mid]
      linear_combination (-1 : ℂ) ^ l * hI + hsl
    · have h' : r ≠ c.rev := by
        intro h'
        have h2 : r.rev = c := by rw [h', Fin.rev_rev]
        rw [rev_mid.2 hl] at h2
        exact hrc h2
      rw [Matrix.one_apply_ne hrc, if_neg h', if_neg hrc]; ring
  · have hne : r ≠ r.rev := fun h' => hl (rev_mid.1 h'.symm)
    by_cases hrc : r = c
    · subst hrc
      rw [Matrix.one_apply_eq, if_neg hne, if_pos rfl, if_pos rfl]
      have key : al l r * be l r.rev + be l r * al l r.rev = (-1) ^ ((r : ℕ) + l) := by
        have := s2_sq
        rcases ne_mid hl with ⟨-, e1, e2, e3, e4⟩ | ⟨-, e1, e2, e3, e4⟩
        · rw [e1, e2, e3, e4]
          linear_combination (-(I * I) * (-1) ^ ((r : ℕ) + l) + (-1) ^ ((r : ℕ) + l)) * this
            - (-1) ^ ((r : ℕ) + l) / 2 * I_mul_I
        · rw [e1, e2, e3, e4]
          linear_combination (-(I * I) * (-1) ^ ((r : ℕ) + l) + (-1) ^ ((r : ℕ) + l)) * this
            - (-1) ^ ((r : ℕ) + l) / 2 * I_mul_I
      rw [pow_add] at key
      have hsr := sgn_sq (r : ℕ)
      linear_combination ((-1) ^ (r : ℕ) * (-I) ^ l * (-I) ^ l) * key
        + ((-1) ^ (r : ℕ) * (-1) ^ (r : ℕ) * (-1) ^ l) * hI + hsr * ((-1) ^ l * (-1) ^ l) + hsl
    · rw [Matrix.one_apply_ne hrc]
      have hrr : r.rev ≠ c.rev := fun h => hrc (Fin.rev_injective h)
      by_cases h2 : r = c.rev
      · have h2' : r.rev = c := by rw [h2, Fin.rev_rev]
        rw [if_pos h2, if_neg hrr, if_pos h2', ← h2]
        have key : al l r * al l r + be l r * be l r = 0 := by
          rcases ne_mid hl with ⟨-, e1, e2, -, -⟩ | ⟨-, e1, e2, -, -⟩
          · rw [e1, e2]
            linear_combination (s2 * s2) * I_mul_I
          · rw [e1, e2]
            linear_combination ((-1) ^ ((r : ℕ) + l) * (-1) ^ ((r : ℕ) + l) * s2 * s2) * I_mul_I
        linear_combination ((-I) ^ l * (-1) ^ (c : ℕ) * (-I) ^ l) * key
      · have h2' : r.rev ≠ c := by
          intro h; exact h2 (by rw [← h, Fin.rev_rev])
        rw [if_neg h2, if_neg hrc, if_neg hrr, if_neg h2']; ring

theorem changeBasis_mul' (l : ℕ) : (changeBasis l)ᴴ * changeBasis l = 1 :=
  mul_eq_one_comm.1 (changeBasis_mul l)

end LieNN.SO3
