import Verif.Proofs.SO3
import Verif.Spec.Rep
import Verif.Proofs.IntertwinerRep
/-!
# Reality of the generators and Clebsch-Gordan coefficients of `SO3`
-/
namespace LieNN

open Finset Complex Matrix

namespace SU2

theorem nf_symm {j c : ℕ} (h : c ≤ j) : nf j (j - c) = nf j c := by
  unfold nf; rw [Nat.sub_sub_self h, mul_comm]

theorem U_symm {p q r a b : ℕ} (ha : a ≤ q + r) (hb : b ≤ p + r) :
    U p q r (q + r - a) (p + r - b) = (-1) ^ r * U p q r a b := by
  unfold U
  rw [Nat.sub_sub_self ha, Nat.sub_sub_self hb, W_symm p a, ← mul_assoc, ← mul_assoc]
  congr 1
  have h1 : (-1 : ℝ) ^ (p + r - b) * (-1) ^ b = (-1) ^ (p + r) := by
    rw [← pow_add, Nat.sub_add_cancel hb]
  have h2 : (-1 : ℝ) ^ b * (-1) ^ b = 1 := by rw [← pow_add, ← two_mul, pow_mul]; simp
  have h3 : (-1 : ℝ) ^ p * (-1) ^ p = 1 := by rw [← pow_add, ← two_mul, pow_mul]; simp
  rw [pow_add] at h1
  linear_combination (-(-1 : ℝ) ^ (p + r - b) * (-1) ^ p) * h2 + ((-1) ^ p * (-1) ^ b) * h1
    + ((-1) ^ r * (-1) ^ b) * h3

/-- Symmetry under the reversal of all weights. -/
theorem g_symm {p q r a b c : ℕ} (ha : a ≤ q + r) (hb : b ≤ p + r) (hc : c ≤ p + q) :
    g p q r (q + r - a) (p + r - b) (p + q - c) = (-1) ^ r * g p q r a b c := by
  unfold g
  by_cases h : c + r = a + b
  · rw [if_pos h, if_pos (by omega), nf_symm ha, nf_symm hb, nf_symm hc, U_symm ha hb]; ring
  · rw [if_neg h, if_neg (by omega), mul_zero]

theorem ct_symm {j₁ j₂ j₃ : ℕ} (h : j₃ ∈ mulL j₁ j₂) (a : Fin (dim j₁)) (b : Fin (dim j₂))
    (c : Fin (dim j₃)) : ct j₁ j₂ j₃ a.rev b.rev c.rev =
      (-1) ^ ((j₁ + j₂ - j₃) / 2) * ct j₁ j₂ j₃ a b c := by
  obtain ⟨p, q, r, rfl, rfl, rfl⟩ := mem_mulL.1 h
  have ha := a.2
  have hb := b.2
  have hc := c.2
  unfold ct
  rw [gj_eq, Fin.val_rev, Fin.val_rev, Fin.val_rev,
    show dim (q + r) - (a + 1) = q + r - a by unfold dim; omega,
    show dim (p + r) - (b + 1) = p + r - b by unfold dim; omega,
    show dim (p + q) - (c + 1) = p + q - c by unfold dim; omega,
    g_symm (Nat.le_of_lt_succ ha) (Nat.le_of_lt_succ hb) (Nat.le_of_lt_succ hc), show (q + r + (p + r) - (p + q)) / 2 = r by omega]

theorem ct_ne_zero {j₁ j₂ j₃ : ℕ} (h : j₃ ∈ mulL j₁ j₂) {a : Fin (dim j₁)} {b : Fin (dim j₂)}
    {c : Fin (dim j₃)} (hne : ct j₁ j₂ j₃ a b c ≠ 0) :
    (c : ℕ) + (j₁ + j₂ - j₃) / 2 = a + b := by
  obtain ⟨p, q, r, rfl, rfl, rfl⟩ := mem_mulL.1 h
  unfold ct at hne
  rw [gj_eq] at hne
  rw [show (q + r + (p + r) - (p + q)) / 2 = r by omega]
  by_contra hh
  exact hne (if_neg hh)

/-- With the signs, the coefficients do not change under the reversal of all weights. -/
theorem ct_rev {j₁ j₂ j₃ : ℕ} (h : j₃ ∈ mulL j₁ j₂) (a : Fin (dim j₁)) (b : Fin (dim j₂))
    (c : Fin (dim j₃)) : (-1) ^ ((a : ℕ) + b + c) * ct j₁ j₂ j₃ a.rev b.rev c.rev =
      ct j₁ j₂ j₃ a b c := by
  rw [ct_symm h]
  by_cases h0 : ct j₁ j₂ j₃ a b c = 0
  · rw [h0]; simp
  · have := ct_ne_zero h h0
    rw [← mul_assoc, ← pow_add, ← this]
    rw [show (c : ℕ) + (j₁ + j₂ - j₃) / 2 + c + (j₁ + j₂ - j₃) / 2
      = 2 * (c + (j₁ + j₂ - j₃) / 2) by ring, pow_mul]
    simp

theorem raising_rev {j : ℕ} (r c : Fin (j + 1)) : raising j r.rev c.rev = -lowering j r c := by
  have hr := r.2
  have hc := c.2
  rw [raising_apply, lowering_apply, Fin.val_rev, Fin.val_rev]
  by_cases h : (c : ℕ) = r + 1
  · rw [if_pos (by omega), if_pos h, ← ofReal_neg]
    congr 3
    unfold lad
    rw [show j + 1 - ((c : ℕ) + 1) = j - (r + 1) by omega, Nat.cast_sub (by omega)]
    push_cast; ring
  · rw [if_neg (by omega), if_neg h, neg_zero]

theorem lowering_rev {j : ℕ} (r c : Fin (j + 1)) : lowering j r.rev c.rev = -raising j r c := by
  rw [← neg_eq_iff_eq_neg, ← raising_rev, Fin.rev_rev, Fin.rev_rev]

theorem raising_star {j : ℕ} (r c : Fin (j + 1)) : star (raising j r c) = raising j r c := by
  rw [raising_apply]; split_ifs
  · exact conj_ofReal _
  · exact star_zero _

theorem lowering_star {j : ℕ} (r c : Fin (j + 1)) : star (lowering j r c) = lowering j r c := by
  rw [lowering_apply]; split_ifs
  · exact conj_ofReal _
  · exact star_zero _

theorem raising_sgn {j : ℕ} (r c : Fin (j + 1)) :
    (-1) ^ ((r : ℕ) + c) * raising j r c = -raising j r c := by
  rw [raising_apply]
  split_ifs with h
  · rw [h, show (c : ℕ) + 1 + c = 2 * c + 1 by ring, pow_succ, pow_mul]; simp
  · simp

theorem lowering_sgn {j : ℕ} (r c : Fin (j + 1)) :
    (-1) ^ ((r : ℕ) + c) * lowering j r c = -lowering j r c := by
  rw [lowering_apply]
  split_ifs with h
  · rw [h, show (r : ℕ) + (r + 1) = 2 * r + 1 by ring, pow_succ, pow_mul]; simp
  · simp

/-- The generators do not change under conjugation and the reversal of the weights. -/
theorem gens_rev {j : ℕ} (a : Fin 3) (r c : Fin (j + 1)) :
    (-1) ^ ((r : ℕ) + c) * star (gens j a r.rev c.rev) = gens j a r c := by
  have hR := raising_sgn r c
  have hL := lowering_sgn r c
  have h5 : star (0.5 : ℂ) = 0.5 := by
    rw [show (0.5 : ℂ) = ((0.5 : ℝ) : ℂ) by push_cast; norm_num]
    exact conj_ofReal _
  fin_cases a
  · change _ * star (gens j 0 _ _) = gens j 0 _ _
    rw [gens_zero]
    simp only [Matrix.smul_apply, Matrix.add_apply, smul_eq_mul, star_mul', star_add, raising_star,
      lowering_star, h5]
    rw [raising_rev, lowering_rev]
    linear_combination (-0.5 : ℂ) * hR - 0.5 * hL
  · change _ * star (gens j 1 _ _) = gens j 1 _ _
    have hr := r.2
    rw [gens_one, zGen_eq]
    by_cases h : r = c
    · subst h
      rw [Matrix.diagonal_apply_eq, Matrix.diagonal_apply_eq, ← two_mul, pow_mul, star_mul',
        Fin.val_rev]
      have : wt j (j + 1 - (r + 1)) = - wt j r := by
        unfold wt
        rw [show j + 1 - ((r : ℕ) + 1) = j - r by omega, Nat.cast_sub (by omega)]
        ring
      rw [this]
      simp
    · rw [Matrix.diagonal_apply_ne _ h, Matrix.diagonal_apply_ne _ (fun h' => h (Fin.rev_injective h')),
        star_zero, mul_zero]
  · change _ * star (gens j 2 _ _) = gens j 2 _ _
    rw [gens_two]
    simp only [Matrix.smul_apply, Matrix.sub_apply, smul_eq_mul, star_mul', star_sub, raising_star,
      lowering_star, star_neg, h5]
    rw [raising_rev, lowering_rev, RCLike.star_def, conj_I]
    linear_combination (0.5 * I) * hR - (0.5 * I) * hL

end SU2

namespace SO3

variable {l : ℕ}

theorem gensC_apply (a : Fin 3) (i j : Fin (dim l)) : gensC l a i j =
    ∑ y, ∑ x, star (changeBasis l x i) * SU2.gens (2 * l) a x y * changeBasis l y j := by
  unfold gensC
  rw [Matrix.mul_apply]
  refine Finset.sum_congr rfl fun y _ => ?_
  rw [Matrix.mul_apply, Finset.sum_mul]
  rfl

theorem changeBasis_eq_rev (r c : Fin (2 * l + 1)) :
    changeBasis l r c = (-1) ^ (r : ℕ) * star (changeBasis l r.rev c) := by
  have h := congrArg star (changeBasis_conj r c)
  rw [star_star, star_mul', star_pow, star_neg, star_one] at h
  exact h

theorem sum_rev {n : ℕ} (f : Fin n → ℂ) : ∑ i : Fin n, f i.rev = ∑ i, f i :=
  Equiv.sum_comp Fin.revPerm f

theorem gensC_real (a : Fin 3) (i j : Fin (dim l)) : star (gensC l a i j) = gensC l a i j := by
  rw [gensC_apply, star_sum]
  simp only [star_sum, star_mul', star_star]
  rw [← sum_rev]
  refine Finset.sum_congr rfl fun y _ => ?_
  rw [← sum_rev]
  refine Finset.sum_congr rfl fun x _ => ?_
  have hg := SU2.gens_rev a x y
  have hx := changeBasis_conj x i
  have hy := changeBasis_eq_rev y j
  rw [hx, hy, ← hg, pow_add]
  linear_combination -(star (SU2.gens (2 * l) a x.rev y.rev) * changeBasis l x.rev i *
    star (changeBasis l y.rev j)) * ((-1) ^ (y : ℕ) * (-1) ^ (y : ℕ) * sgn_sq x + sgn_sq y)

theorem im_eq_zero {z : ℂ} (h : star z = z) : z.im = 0 := conj_eq_iff_im.1 h

theorem re_of {z : ℂ} (h : star z = z) : ((z.re : ℝ) : ℂ) = z := conj_eq_iff_re.1 h

theorem gens_eq (l : ℕ) : gens l = .ok fun a => (gensC l a).map Complex.re := by
  unfold gens
  rw [pyAssert_of]
  · rfl
  · intro a i j
    rw [im_eq_zero (gensC_real a i j)]; norm_num

theorem rep_X (l : ℕ) (a : Fin 3) : (rep l).X a = (changeBasis l)ᴴ * SU2.gens (2 * l) a * changeBasis l := by
  have : (rep l).X = fun a => ((gensC l a).map Complex.re).map Complex.ofReal := by
    unfold rep
    simp only [gens_eq]
  rw [this]
  ext i j
  exact re_of (gensC_real a i j)

theorem skew (l : ℕ) (a : Fin 3) : ((rep l).X a)ᴴ = -(rep l).X a := by
  rw [rep_X, Matrix.conjTranspose_mul, Matrix.conjTranspose_mul, Matrix.conjTranspose_conjTranspose,
    SU2.skew, ← Matrix.mul_assoc]
  simp

theorem isRep (l : ℕ) : Spec.IsRep (rep l) := by
  intro i j
  have h := SU2.isRep (2 * l) i j
  have e : ∀ a b, (rep l).X a * (rep l).X b =
      (changeBasis l)ᴴ * (SU2.gens (2 * l) a * SU2.gens (2 * l) b) * changeBasis l := by
    intro a b
    rw [rep_X, rep_X]
    calc _ = (changeBasis l)ᴴ * SU2.gens (2 * l) a * (changeBasis l * (changeBasis l)ᴴ) *
          SU2.gens (2 * l) b * changeBasis l := by simp only [Matrix.mul_assoc]
      _ = _ := by rw [changeBasis_mul, Matrix.mul_one]; simp only [Matrix.mul_assoc]
  rw [e, e, ← Matrix.sub_mul, ← Matrix.mul_sub]
  change SU2.gens _ _ * SU2.gens _ _ - SU2.gens _ _ * SU2.gens _ _ = _ at h
  rw [h, Matrix.mul_sum, Matrix.sum_mul]
  refine Finset.sum_congr rfl fun k _ => ?_
  rw [rep_X, Matrix.mul_smul, Matrix.smul_mul]
  rfl

theorem einsumCG_eq (l₁ l₂ l₃ : ℕ) (C : Fin (dim l₁) → Fin (dim l₂) → Fin (dim l₃) → ℝ) :
    einsumCG l₁ l₂ l₃ C = cgChange (changeBasis l₁) (changeBasis l₂) (changeBasis l₃)ᴴ
      (fun a b c => ((C a b c : ℝ) : ℂ)) := by
  funext i j k
  rw [cgChange_apply]
  rfl

theorem einsumCG_real {l₁ l₂ l₃ : ℕ} (h : 2 * l₃ ∈ SU2.mulL (2 * l₁) (2 * l₂))
    (i : Fin (dim l₁)) (j : Fin (dim l₂)) (k : Fin (dim l₃)) :
    star (einsumCG l₁ l₂ l₃ (SU2.ct (2 * l₁) (2 * l₂) (2 * l₃)) i j k) =
      einsumCG l₁ l₂ l₃ (SU2.ct (2 * l₁) (2 * l₂) (2 * l₃)) i j k := by
  unfold einsumCG
  simp only [star_sum, star_mul', Matrix.conjTranspose_apply, star_star]
  rw [← sum_rev]
  refine Finset.sum_congr rfl fun x _ => ?_
  rw [← sum_rev]
  refine Finset.sum_congr rfl fun y _ => ?_
  rw [← sum_rev]
  refine Finset.sum_congr rfl fun z _ => ?_
  have hc := congrArg (fun t : ℝ => (t : ℂ)) (SU2.ct_rev h x y z)
  push_cast at hc
  have hx := changeBasis_eq_rev x i
  have hy := changeBasis_eq_rev y j
  have hz := changeBasis_conj z k
  rw [hx, hy, hz, ← hc, pow_add, pow_add, show ∀ t : ℝ, star (t : ℂ) = t from conj_ofReal]
  generalize ((SU2.ct (2 * l₁) (2 * l₂) (2 * l₃) x.rev y.rev z.rev : ℝ) : ℂ) = t
  linear_combination -(star (changeBasis l₁ x.rev i) * star (changeBasis l₂ y.rev j) *
    changeBasis l₃ z.rev k * t) * ((-1) ^ (y : ℕ) * (-1) ^ (y : ℕ) * ((-1) ^ (z : ℕ) * (-1) ^ (z : ℕ)) *
      sgn_sq x + (-1) ^ (z : ℕ) * (-1) ^ (z : ℕ) * sgn_sq y + sgn_sq z)

/-- The coefficients in the real basis. -/
noncomputable def ctR (l₁ l₂ l₃ : ℕ) : Fin (dim l₁) → Fin (dim l₂) → Fin (dim l₃) → ℝ :=
  fun i j k => (einsumCG l₁ l₂ l₃ (SU2.ct (2 * l₁) (2 * l₂) (2 * l₃)) i j k).re

theorem ctR_eq {l₁ l₂ l₃ : ℕ} (h : 2 * l₃ ∈ SU2.mulL (2 * l₁) (2 * l₂)) :
    (fun i j k => ((ctR l₁ l₂ l₃ i j k : ℝ) : ℂ)) =
      cgChange (changeBasis l₁) (changeBasis l₂) (changeBasis l₃)ᴴ
        (fun a b c => ((SU2.ct (2 * l₁) (2 * l₂) (2 * l₃) a b c : ℝ) : ℂ)) := by
  rw [← einsumCG_eq]
  funext i j k
  exact re_of (einsumCG_real h i j k)

theorem cg_eq {l₁ l₂ l₃ : ℕ} (h : 2 * l₃ ∈ SU2.mulL (2 * l₁) (2 * l₂)) :
    cg l₁ l₂ l₃ = .ok [ctR l₁ l₂ l₃] := by
  unfold cg
  rw [SU2.cg_eq_ct h, SU2.ok_bind']
  dsimp only
  rw [pyAssert_of]
  · rfl
  · intro C hC i j k
    rw [List.mem_singleton.1 hC, im_eq_zero (einsumCG_real h i j k)]; norm_num

theorem cg_eq_nil {l₁ l₂ l₃ : ℕ} (h : 2 * l₃ ∉ SU2.mulL (2 * l₁) (2 * l₂)) :
    cg l₁ l₂ l₃ = .ok [] := by
  unfold cg
  rw [SU2.cg_eq_nil h, SU2.ok_bind']
  dsimp only
  rw [pyAssert_of]
  · rfl
  · intro C hC; simp at hC

theorem isCG {l₁ l₂ l₃ : ℕ} (h : 2 * l₃ ∈ SU2.mulL (2 * l₁) (2 * l₂)) :
    Spec.IsCG (rep l₁) (rep l₂) (rep l₃) (fun i j k => ((ctR l₁ l₂ l₃ i j k : ℝ) : ℂ)) := by
  rw [ctR_eq h]
  exact isCG_change (changeBasis_mul' l₁) (changeBasis_mul' l₂) (changeBasis_mul' l₃)
    (r₁ := SU2.rep (2 * l₁)) (r₂ := SU2.rep (2 * l₂)) (r₃ := SU2.rep (2 * l₃))
    (rep_X l₁) (rep_X l₂) (rep_X l₃) (fun a => a.elim0) (fun a => a.elim0) (fun a => a.elim0)
    (SU2.isCG_ct h)

end SO3
end LieNN
