import Verif.Model.SU2
import Verif.Spec.Rep
import Mathlib.Tactic.FinCases
import Mathlib.Tactic.LinearCombination
import Mathlib.Tactic.NoncommRing
import Mathlib.LinearAlgebra.Matrix.Trace
/-!
# Lemmas on the generators of `SU2`
-/
namespace LieNN.SU2

open Matrix Complex

variable {j : ℕ}

/-- Squared ladder coefficient between the positions `c` and `c + 1`. -/
def lad (j c : ℕ) : ℝ := ((j : ℝ) - c) * (c + 1)

theorem lad_nonneg {c : ℕ} (h : c ≤ j) : 0 ≤ lad j c := by
  have : (c : ℝ) ≤ j := by exact_mod_cast h
  unfold lad; nlinarith [Nat.cast_nonneg (α := ℝ) c]

theorem lad_pos {c : ℕ} (h : c < j) : 0 < lad j c := by
  have : (c : ℝ) < j := by exact_mod_cast h
  have := Nat.cast_nonneg (α := ℝ) c
  unfold lad; apply mul_pos <;> linarith

theorem raising_apply (r c : Fin (j + 1)) :
    raising j r c = if (r : ℕ) = c + 1 then ((-√(lad j c) : ℝ) : ℂ) else 0 := by
  unfold raising lad
  split_ifs
  · simp only; ring_nf
  · rfl

theorem lowering_apply (r c : Fin (j + 1)) :
    lowering j r c = if (c : ℕ) = r + 1 then ((√(lad j r) : ℝ) : ℂ) else 0 := by
  unfold lowering lad
  split_ifs
  · simp only; ring_nf
  · rfl

/-- The weight `m` of a position. -/
noncomputable def wt (j c : ℕ) : ℝ := -(j / 2) + c

theorem zGen_eq : zGen j = Matrix.diagonal fun r : Fin (j + 1) => I * ((wt j r : ℝ) : ℂ) := rfl

theorem lowering_eq : lowering j = -(raising j)ᵀ := by
  ext r c
  rw [lowering_apply, Matrix.neg_apply, Matrix.transpose_apply, raising_apply]
  split_ifs <;> simp

/-- `diag(f)` times a raising matrix. -/
theorem z_raising : zGen j * raising j - raising j * zGen j = I • raising j := by
  ext r c
  rw [zGen_eq, Matrix.sub_apply, Matrix.diagonal_mul, Matrix.mul_diagonal, Matrix.smul_apply,
    raising_apply]
  split_ifs with h
  · have : wt j r = wt j c + 1 := by unfold wt; rw [h]; push_cast; ring
    rw [this]; push_cast; simp only [smul_eq_mul]; ring
  · simp

theorem z_lowering : zGen j * lowering j - lowering j * zGen j = -(I • lowering j) := by
  ext r c
  rw [zGen_eq, Matrix.sub_apply, Matrix.diagonal_mul, Matrix.mul_diagonal, Matrix.neg_apply,
    Matrix.smul_apply, lowering_apply]
  split_ifs with h
  · have : wt j c = wt j r + 1 := by unfold wt; rw [h]; push_cast; ring
    rw [this]; push_cast; simp only [smul_eq_mul]; ring
  · simp

theorem sqrt_mul_self_c {x : ℝ} (h : 0 ≤ x) : ((√x : ℝ) : ℂ) * ((√x : ℝ) : ℂ) = (x : ℂ) := by
  rw [← ofReal_mul, Real.mul_self_sqrt h]

theorem raising_lowering (r c : Fin (j + 1)) :
    (raising j * lowering j) r c =
      if r = c then ((-(((j : ℝ) - r + 1) * r) : ℝ) : ℂ) else 0 := by
  rw [Matrix.mul_apply]
  rcases Nat.eq_zero_or_pos (r : ℕ) with h0 | h0
  · rw [Finset.sum_eq_zero]
    · split_ifs
      · simp [h0]
      · rfl
    · intro k _
      rw [raising_apply, if_neg (by omega), zero_mul]
  · let k : Fin (j + 1) := ⟨r - 1, by omega⟩
    have hk : (r : ℕ) = (k : ℕ) + 1 := by simp only [k]; omega
    rw [Finset.sum_eq_single k]
    · rw [raising_apply, if_pos hk, lowering_apply]
      by_cases hc : r = c
      · subst hc
        rw [if_pos hk, if_pos rfl, ofReal_neg, neg_mul, sqrt_mul_self_c (lad_nonneg (by omega))]
        rw [ofReal_neg]
        congr 2
        unfold lad
        have : (r : ℕ) = (k : ℕ) + 1 := hk
        rw [show ((r : ℕ) : ℝ) = (k : ℕ) + 1 by rw [this]; push_cast; ring]
        ring
      · rw [if_neg hc, if_neg (fun h => hc (Fin.ext (by omega))), mul_zero]
    · intro b _ hb
      rw [raising_apply, if_neg (fun h => hb (Fin.ext (by omega))), zero_mul]
    · simp

theorem lowering_raising (r c : Fin (j + 1)) :
    (lowering j * raising j) r c =
      if r = c then ((-(((j : ℝ) - r) * (r + 1)) : ℝ) : ℂ) else 0 := by
  rw [Matrix.mul_apply]
  rcases Nat.lt_or_ge (r : ℕ) j with h0 | h0
  · let k : Fin (j + 1) := ⟨r + 1, by omega⟩
    have hk : (k : ℕ) = (r : ℕ) + 1 := rfl
    rw [Finset.sum_eq_single k]
    · rw [lowering_apply, if_pos hk, raising_apply]
      by_cases hc : r = c
      · subst hc
        rw [if_pos hk, if_pos rfl, ofReal_neg, mul_neg, sqrt_mul_self_c (lad_nonneg (by omega))]
        rw [ofReal_neg]
        rfl
      · rw [if_neg hc, if_neg (fun h => hc (Fin.ext (by omega))), mul_zero]
    · intro b _ hb
      rw [lowering_apply, if_neg (fun h => hb (Fin.ext (by omega))), zero_mul]
    · simp
  · rw [Finset.sum_eq_zero]
    · split_ifs
      · have : (r : ℕ) = j := by omega
        simp [this]
      · rfl
    · intro k _
      rw [lowering_apply, if_neg (by omega), zero_mul]

theorem raising_lowering_comm :
    raising j * lowering j - lowering j * raising j = (2 * I) • zGen j := by
  ext r c
  rw [Matrix.sub_apply, raising_lowering, lowering_raising, Matrix.smul_apply, zGen_eq]
  by_cases h : r = c
  · subst h
    rw [if_pos rfl, if_pos rfl, Matrix.diagonal_apply_eq]
    simp only [smul_eq_mul]
    rw [show 2 * I * (I * ((wt j r : ℝ) : ℂ)) = ((-(2 * wt j r) : ℝ) : ℂ) by
      push_cast; linear_combination (2 * (wt j r : ℂ)) * I_mul_I, ← ofReal_sub]
    congr 1
    unfold wt; ring
  · rw [if_neg h, if_neg h, Matrix.diagonal_apply_ne _ h]; simp

theorem gens_zero : gens j 0 = (0.5 : ℂ) • (raising j + lowering j) := rfl
theorem gens_one : gens j 1 = zGen j := rfl
theorem gens_two : gens j 2 = (-0.5 * I) • (raising j - lowering j) := rfl

theorem comm01 : gens j 0 * gens j 1 - gens j 1 * gens j 0 = gens j 2 := by
  have h1 := z_raising (j := j)
  have h2 := z_lowering (j := j)
  simp only [gens_zero, gens_one, gens_two]
  rw [show (0.5 : ℂ) • (raising j + lowering j) * zGen j - zGen j * (0.5 : ℂ) • (raising j + lowering j)
    = -((0.5 : ℂ) • (zGen j * raising j - raising j * zGen j
        + (zGen j * lowering j - lowering j * zGen j))) by
    simp only [Matrix.smul_mul, Matrix.mul_smul, ← smul_sub, ← smul_neg]
    congr 1; noncomm_ring, h1, h2, ← sub_eq_add_neg, ← smul_sub, smul_smul, ← neg_smul, neg_mul]

theorem comm12 : gens j 1 * gens j 2 - gens j 2 * gens j 1 = gens j 0 := by
  have h1 := z_raising (j := j)
  have h2 := z_lowering (j := j)
  simp only [gens_zero, gens_one, gens_two]
  rw [show zGen j * (-0.5 * I) • (raising j - lowering j) - (-0.5 * I) • (raising j - lowering j) * zGen j
    = (-0.5 * I) • (zGen j * raising j - raising j * zGen j
        - (zGen j * lowering j - lowering j * zGen j)) by
    simp only [Matrix.smul_mul, Matrix.mul_smul, ← smul_sub]
    congr 1; noncomm_ring, h1, h2, sub_neg_eq_add, ← smul_add, smul_smul]
  congr 1
  linear_combination -0.5 * I_mul_I

theorem comm20 : gens j 2 * gens j 0 - gens j 0 * gens j 2 = gens j 1 := by
  have h := raising_lowering_comm (j := j)
  simp only [gens_zero, gens_one, gens_two]
  rw [show (-0.5 * I) • (raising j - lowering j) * (0.5 : ℂ) • (raising j + lowering j)
      - (0.5 : ℂ) • (raising j + lowering j) * (-0.5 * I) • (raising j - lowering j)
    = (-0.5 * I) • (raising j * lowering j - lowering j * raising j) by
    simp only [Matrix.smul_mul, Matrix.mul_smul, smul_smul]
    rw [mul_comm (0.5 : ℂ) (-0.5 * I), ← smul_sub,
      show (raising j - lowering j) * (raising j + lowering j)
        - (raising j + lowering j) * (raising j - lowering j)
        = (2 : ℂ) • (raising j * lowering j - lowering j * raising j) by
      rw [two_smul]; noncomm_ring, smul_smul]
    congr 1; ring, h, smul_smul,
    show -0.5 * I * (2 * I) = 1 by linear_combination (-1 : ℂ) * I_mul_I, one_smul]

theorem sum_three {M : Type*} [AddCommGroup M] [Module ℂ M] (a b c : ℂ) (Y : Fin 3 → M) :
    ∑ k, (![a, b, c] : Fin 3 → ℂ) k • Y k = a • Y 0 + b • Y 1 + c • Y 2 := by
  rw [Fin.sum_univ_three]; rfl

theorem isRep (j : ℕ) : Spec.IsRep (rep j) := by
  have h01 := comm01 (j := j)
  have h12 := comm12 (j := j)
  have h20 := comm20 (j := j)
  have neg : ∀ {P Q R : Matrix (Fin (j+1)) (Fin (j+1)) ℂ}, P * Q - Q * P = R →
      Q * P - P * Q = -R := fun h => by rw [← h]; abel
  intro a b
  change gens j a * gens j b - gens j b * gens j a = ∑ k, algebra a b k • gens j k
  fin_cases a <;> fin_cases b
  all_goals
    simp only [Fin.zero_eta, Fin.mk_one, Fin.reduceFinMk, algebra]
    refine Eq.trans ?_ (sum_three _ _ _ (gens j)).symm
  · simp
  · rw [h01]; simp
  · rw [neg h20]; simp
  · rw [neg h01]; simp
  · simp
  · rw [h12]; simp
  · rw [h20]; simp
  · rw [neg h12]; simp
  · simp

theorem raising_conjTranspose : (raising j)ᴴ = -lowering j := by
  ext r c
  rw [lowering_eq, neg_neg, Matrix.conjTranspose_apply, Matrix.transpose_apply, raising_apply]
  split_ifs
  · rw [RCLike.star_def, conj_ofReal]
  · simp

theorem lowering_conjTranspose : (lowering j)ᴴ = -raising j := by
  have h := congrArg Matrix.conjTranspose (raising_conjTranspose (j := j))
  rw [Matrix.conjTranspose_conjTranspose, Matrix.conjTranspose_neg] at h
  rw [h, neg_neg]

theorem zGen_conjTranspose : (zGen j)ᴴ = -zGen j := by
  rw [zGen_eq, Matrix.diagonal_conjTranspose, Matrix.diagonal_neg]
  congr 1
  ext r
  simp [Pi.star_apply]

theorem skew (a : Fin 3) : (gens j a)ᴴ = -gens j a := by
  fin_cases a
  · change (gens j 0)ᴴ = -gens j 0
    rw [gens_zero, Matrix.conjTranspose_smul, Matrix.conjTranspose_add, raising_conjTranspose,
      lowering_conjTranspose, show star (0.5 : ℂ) = 0.5 by
        rw [RCLike.star_def, Complex.ext_iff]; norm_num, ← smul_neg]
    congr 1; abel
  · exact zGen_conjTranspose
  · change (gens j 2)ᴴ = -gens j 2
    rw [gens_two, Matrix.conjTranspose_smul, Matrix.conjTranspose_sub, raising_conjTranspose,
      lowering_conjTranspose, show star (-0.5 * I : ℂ) = 0.5 * I by
        rw [RCLike.star_def, Complex.ext_iff]; norm_num,
      ← neg_smul, neg_mul, neg_neg]
    congr 1; abel

theorem trace_eq_zero (a : Fin 3) : (gens j a).trace = 0 := by
  have key : ∀ P Q : Matrix (Fin (j+1)) (Fin (j+1)) ℂ, (P * Q - Q * P).trace = 0 := fun P Q => by
    rw [Matrix.trace_sub, Matrix.trace_mul_comm, sub_self]
  fin_cases a
  · exact comm12 (j := j) ▸ key _ _
  · exact comm20 (j := j) ▸ key _ _
  · exact comm01 (j := j) ▸ key _ _

theorem casimir : ∑ a, gens j a * gens j a =
    (-((j / 2 : ℂ) * (j / 2 + 1))) • (1 : Matrix (Fin (j + 1)) (Fin (j + 1)) ℂ) := by
  rw [Fin.sum_univ_three]
  have e : gens j 0 * gens j 0 + gens j 2 * gens j 2
      = (0.5 : ℂ) • (raising j * lowering j + lowering j * raising j) := by
    simp only [gens_zero, gens_two, Matrix.smul_mul, Matrix.mul_smul, smul_smul]
    rw [show -0.5 * I * (-0.5 * I) = -(0.5 * 0.5) by linear_combination (0.25 : ℂ) * I_mul_I,
      neg_smul, ← sub_eq_add_neg, ← smul_sub,
      show (raising j + lowering j) * (raising j + lowering j)
        - (raising j - lowering j) * (raising j - lowering j)
        = (2 : ℂ) • (raising j * lowering j + lowering j * raising j) by
      rw [two_smul]; noncomm_ring, smul_smul]
    congr 1; norm_num
  rw [add_right_comm, e, gens_one, zGen_eq, Matrix.diagonal_mul_diagonal]
  ext r c
  rw [Matrix.add_apply, Matrix.smul_apply, Matrix.add_apply, raising_lowering, lowering_raising,
    Matrix.smul_apply]
  by_cases h : r = c
  · subst h
    rw [if_pos rfl, if_pos rfl, Matrix.diagonal_apply_eq, Matrix.one_apply_eq]
    unfold wt
    simp only [smul_eq_mul]
    push_cast
    linear_combination ((-(j / 2 : ℂ) + r) * (-(j / 2) + r)) * I_mul_I
  · rw [if_neg h, if_neg h, Matrix.diagonal_apply_ne _ h, Matrix.one_apply_ne h]; simp

theorem raising_of_gens : raising j = gens j 0 + I • gens j 2 := by
  rw [gens_zero, gens_two, smul_smul, show I * (-0.5 * I) = 0.5 by
    linear_combination (-0.5 : ℂ) * I_mul_I, ← smul_add]
  rw [show raising j + lowering j + (raising j - lowering j) = (2 : ℂ) • raising j by
    rw [two_smul]; abel, smul_smul]
  norm_num

theorem lowering_of_gens : lowering j = gens j 0 - I • gens j 2 := by
  rw [gens_zero, gens_two, smul_smul, show I * (-0.5 * I) = 0.5 by
    linear_combination (-0.5 : ℂ) * I_mul_I, ← smul_sub]
  rw [show raising j + lowering j - (raising j - lowering j) = (2 : ℂ) • lowering j by
    rw [two_smul]; abel, smul_smul]
  norm_num

/-- A matrix commuting with all generators is a multiple of the identity. -/
theorem commutant (M : Matrix (Fin (j + 1)) (Fin (j + 1)) ℂ)
    (h : ∀ a, M * gens j a = gens j a * M) : ∃ c : ℂ, M = c • 1 := by
  have hR : M * raising j = raising j * M := by
    rw [raising_of_gens, Matrix.mul_add, Matrix.add_mul, Matrix.mul_smul, Matrix.smul_mul,
      h 0, h 2]
  have hz := h 1
  rw [gens_one, zGen_eq] at hz
  have offdiag : ∀ r c, r ≠ c → M r c = 0 := by
    intro r c hrc
    have e := congrFun (congrFun hz r) c
    rw [Matrix.mul_diagonal, Matrix.diagonal_mul] at e
    have hne : ((wt j c : ℝ) : ℂ) - wt j r ≠ 0 := by
      rw [sub_ne_zero]
      intro hh
      have := ofReal_injective hh
      unfold wt at this
      have : ((c : ℕ) : ℝ) = (r : ℕ) := by linarith
      exact hrc (Fin.ext (by exact_mod_cast this.symm))
    have : I * (((wt j c : ℝ) : ℂ) - wt j r) * M r c = 0 := by linear_combination e
    rcases mul_eq_zero.1 this with h1 | h1
    · exact absurd h1 (mul_ne_zero I_ne_zero hne)
    · exact h1
  have step : ∀ r c : Fin (j + 1), (r : ℕ) = c + 1 → M r r = M c c := by
    intro r c hrc
    have e := congrFun (congrFun hR r) c
    rw [Matrix.mul_apply, Matrix.mul_apply, Finset.sum_eq_single r, Finset.sum_eq_single c] at e
    · rw [raising_apply, if_pos hrc] at e
      have hne : ((-√(lad j c) : ℝ) : ℂ) ≠ 0 := by
        rw [ofReal_ne_zero, neg_ne_zero]
        exact (Real.sqrt_pos.2 (lad_pos (by omega))).ne'
      rw [mul_comm] at e
      exact mul_left_cancel₀ hne e
    · intro b _ hb; rw [offdiag _ _ hb, mul_zero]
    · simp
    · intro b _ hb; rw [offdiag _ _ hb.symm, zero_mul]
    · simp
  have diag : ∀ (n : ℕ) (hn : n < j + 1), M ⟨n, hn⟩ ⟨n, hn⟩ = M 0 0 := by
    intro n
    induction n with
    | zero => intro _; rfl
    | succ n ih => intro hn; rw [← ih (by omega)]; exact step _ _ rfl
  refine ⟨M 0 0, ?_⟩
  ext r c
  rw [Matrix.smul_apply]
  by_cases hrc : r = c
  · subst hrc; rw [Matrix.one_apply_eq, smul_eq_mul, mul_one]; exact diag r r.2
  · rw [Matrix.one_apply_ne hrc, smul_zero, offdiag _ _ hrc]

end LieNN.SU2
