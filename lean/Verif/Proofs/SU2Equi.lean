import Verif.Proofs.SU2
import Verif.Proofs.SU2Mat
import Verif.Spec.CG
/-!
# Equivariance of the Clebsch-Gordan coefficients of `SU2`
-/
namespace LieNN.SU2

open Finset Complex

variable {p q r a b c : ℕ}

/-- `sqrt(c! (j - c)!)` -/
noncomputable def nf (j c : ℕ) : ℝ := √((c.factorial : ℝ) * (j - c).factorial)

theorem nf_pos (j c : ℕ) : 0 < nf j c := by
  unfold nf
  have := Nat.factorial_pos c
  have := Nat.factorial_pos (j - c)
  positivity

/-- `sqrt((j - c)(c + 1)) N(c) = (j - c) N(c + 1)` -/
theorem lad_nf {j c : ℕ} (h : c < j) : √(lad j c) * nf j c = ((j : ℝ) - c) * nf j (c + 1) := by
  have hc : (0 : ℝ) ≤ (j : ℝ) - c := by
    have : (c : ℝ) < j := by exact_mod_cast h
    linarith
  unfold nf
  rw [← Real.sqrt_mul (lad_nonneg h.le)]
  conv_rhs => rw [← Real.sqrt_sq hc, ← Real.sqrt_mul (sq_nonneg _)]
  congr 1
  rw [show j - c = (j - (c + 1)) + 1 by omega, Nat.factorial_succ, Nat.factorial_succ]
  have : ((j - (c + 1) : ℕ) : ℝ) = j - c - 1 := by rw [Nat.cast_sub (by omega)]; push_cast; ring
  push_cast
  rw [this]
  unfold lad
  ring

/-- `sqrt((j - c)(c + 1)) N(c + 1) = (c + 1) N(c)` -/
theorem lad_nf' {j c : ℕ} (h : c < j) : √(lad j c) * nf j (c + 1) = ((c : ℝ) + 1) * nf j c := by
  have hc : (0 : ℝ) ≤ (c : ℝ) + 1 := by positivity
  unfold nf
  rw [← Real.sqrt_mul (lad_nonneg h.le)]
  conv_rhs => rw [← Real.sqrt_sq hc, ← Real.sqrt_mul (sq_nonneg _)]
  congr 1
  rw [show j - c = (j - (c + 1)) + 1 by omega, Nat.factorial_succ, Nat.factorial_succ]
  have : ((j - (c + 1) : ℕ) : ℝ) = j - c - 1 := by rw [Nat.cast_sub (by omega)]; push_cast; ring
  push_cast
  rw [this]
  unfold lad
  ring

/-- `sqrt((j - c)(c + 1)) / N(c + 1) = (j - c) / N(c)` -/
theorem lad_div {j c : ℕ} (h : c ≤ j) : √(lad j c) / nf j (c + 1) = ((j : ℝ) - c) / nf j c := by
  rcases h.lt_or_eq with h | h
  · rw [div_eq_div_iff (nf_pos _ _).ne' (nf_pos _ _).ne', lad_nf h]
  · subst h; simp [lad]

/-- `sqrt((j - c)(c + 1)) / N(c) = (c + 1) / N(c + 1)` -/
theorem lad_div' {j c : ℕ} (h : c < j) : √(lad j c) / nf j c = ((c : ℝ) + 1) / nf j (c + 1) := by
  rw [div_eq_div_iff (nf_pos _ _).ne' (nf_pos _ _).ne', lad_nf' h]

/-- The signed sum. -/
def U (p q r a b : ℕ) : ℝ := (-1) ^ b * W p (q + r - a) a b (p + r - b)

theorem U_raise (ha : a ≤ q + r) (hb : b ≤ p + r) :
    ((q : ℝ) + r - a) * U p q r (a + 1) b + ((p : ℝ) + r - b) * U p q r a (b + 1) =
      ((p : ℝ) + q + r - a - b) * U p q r a b := by
  have h := W_raise p (q + r - a) a b (p + r - b)
  unfold U
  rw [show q + r - (a + 1) = q + r - a - 1 by omega, show p + r - (b + 1) = p + r - b - 1 by omega]
  rw [Nat.cast_sub ha, Nat.cast_sub hb] at h
  push_cast at h
  rw [pow_succ]
  linear_combination (-1) ^ b * h

theorem U_lower (ha : a ≤ q + r) (hb : b ≤ p + r) :
    (a : ℝ) * U p q r (a - 1) b + (b : ℝ) * U p q r a (b - 1) =
      ((a : ℝ) + b - r) * U p q r a b := by
  have h := W_lower p (q + r - a) a b (p + r - b)
  have e1 : (a : ℝ) * U p q r (a - 1) b =
      (-1) ^ b * ((a : ℝ) * W p (q + r - a + 1) (a - 1) b (p + r - b)) := by
    rcases Nat.eq_zero_or_pos a with h0 | h0
    · simp [h0]
    · unfold U; rw [show q + r - (a - 1) = q + r - a + 1 by omega]; ring
  have e2 : (b : ℝ) * U p q r a (b - 1) =
      -((-1) ^ b * ((b : ℝ) * W p (q + r - a) a (b - 1) (p + r - b + 1))) := by
    rcases Nat.eq_zero_or_pos b with h0 | h0
    · simp [h0]
    · unfold U
      rw [show p + r - (b - 1) = p + r - b + 1 by omega]
      obtain ⟨b', rfl⟩ : ∃ b', b = b' + 1 := ⟨b - 1, by omega⟩
      rw [Nat.add_sub_cancel, pow_succ]; ring
  rw [e1, e2]
  rw [Nat.cast_sub hb] at h
  push_cast at h
  unfold U
  linear_combination (-1) ^ b * h

theorem U_low (h : a + b < r) : U p q r a b = 0 := by
  unfold U; rw [W_eq_zero_of_low (by omega), mul_zero]

theorem U_high (h : p + q + r < a + b) (ha : a ≤ q + r) : U p q r a b = 0 := by
  unfold U; rw [W_eq_zero_of_high (by omega), mul_zero]

/-- The constant in front. -/
noncomputable def kf (p q r : ℕ) : ℝ :=
  √(((p : ℝ) + q + 1) * ((q.factorial : ℝ) * p.factorial * r.factorial) /
    (p + q + r + 1).factorial) / p.factorial

/-- The coefficient, as a function of natural numbers. -/
noncomputable def g (p q r a b c : ℕ) : ℝ :=
  if c + r = a + b then kf p q r * nf (p + q) c * (1 / nf (q + r) a) * (1 / nf (p + r) b) * U p q r a b
  else 0

theorem sqrt_normVal : √(normVal p q r a b c : ℝ) =
    kf p q r * p.factorial * nf (p + q) c * (1 / nf (q + r) a) * (1 / nf (p + r) b) := by
  have hp : (p.factorial : ℝ) ≠ 0 := by exact_mod_cast p.factorial_ne_zero
  have e : (normVal p q r a b c : ℝ) =
      ((p : ℝ) + q + 1) * ((q.factorial : ℝ) * p.factorial * r.factorial) / (p + q + r + 1).factorial
        * ((c.factorial : ℝ) * (p + q - c).factorial)
        / ((a.factorial : ℝ) * (q + r - a).factorial)
        / ((b.factorial : ℝ) * (p + r - b).factorial) := by
    unfold normVal
    have : ∀ n : ℕ, (n.factorial : ℝ) ≠ 0 := fun n => by exact_mod_cast n.factorial_ne_zero
    have h1 := this (p + q + r + 1)
    have h2 := this (q + r - a)
    have h3 := this a
    have h4 := this (p + r - b)
    have h5 := this b
    push_cast
    field_simp
  unfold kf nf
  rw [e, Real.sqrt_div' _ (by positivity), Real.sqrt_div' _ (by positivity),
    Real.sqrt_mul (by positivity)]
  field_simp

theorem cgT_eq (x : Fin (q + r + 1)) (y : Fin (p + r + 1)) (z : Fin (p + q + 1)) :
    cgT p q r x y z = g p q r x y z := by
  unfold cgT g
  split_ifs
  · unfold cgVal U
    rw [sqrt_normVal]
    have hp : (p.factorial : ℝ) ≠ 0 := by exact_mod_cast p.factorial_ne_zero
    field_simp
  · rfl

theorem g_raise (ha : a ≤ q + r) (hb : b ≤ p + r) (hc : c ≤ p + q) :
    (if c = 0 then 0 else √(lad (p + q) (c - 1)) * g p q r a b (c - 1)) =
      √(lad (q + r) a) * g p q r (a + 1) b c + √(lad (p + r) b) * g p q r a (b + 1) c := by
  by_cases h : c + r = a + b + 1
  · have hu := U_raise ha hb
    have l1 := lad_div ha
    have l2 := lad_div hb
    have e1 : √(lad (q + r) a) * g p q r (a + 1) b c =
        kf p q r * nf (p + q) c * (1 / nf (q + r) a) * (1 / nf (p + r) b) *
          (((q : ℝ) + r - a) * U p q r (a + 1) b) := by
      unfold g
      rw [if_pos (by omega)]
      push_cast at l1
      linear_combination (kf p q r * nf (p + q) c * (1 / nf (p + r) b) * U p q r (a + 1) b) * l1
    have e2 : √(lad (p + r) b) * g p q r a (b + 1) c =
        kf p q r * nf (p + q) c * (1 / nf (q + r) a) * (1 / nf (p + r) b) *
          (((p : ℝ) + r - b) * U p q r a (b + 1)) := by
      unfold g
      rw [if_pos (by omega)]
      push_cast at l2
      linear_combination (kf p q r * nf (p + q) c * (1 / nf (q + r) a) * U p q r a (b + 1)) * l2
    rw [e1, e2, ← mul_add, hu]
    split_ifs with h0
    · rw [U_low (by omega)]; ring
    · obtain ⟨c', rfl⟩ : ∃ c', c = c' + 1 := ⟨c - 1, by omega⟩
      have l3 := lad_nf (show c' < p + q by omega)
      rw [Nat.add_sub_cancel]
      unfold g
      rw [if_pos (by omega)]
      have hcr : (c' : ℝ) + r = a + b := by
        have : c' + r = a + b := by omega
        exact_mod_cast this
      have : (p : ℝ) + q + r - a - b = ((p + q : ℕ) : ℝ) - c' := by push_cast; linarith
      rw [this]
      linear_combination (kf p q r * (1 / nf (q + r) a) * (1 / nf (p + r) b) * U p q r a b) * l3
  · have e1 : g p q r (a + 1) b c = 0 := if_neg (by omega)
    have e2 : g p q r a (b + 1) c = 0 := if_neg (by omega)
    rw [e1, e2]
    split_ifs with h0
    · ring
    · have e3 : g p q r a b (c - 1) = 0 := if_neg (by omega)
      rw [e3]; ring

theorem g_lower (ha : a ≤ q + r) (hb : b ≤ p + r) (hc : c ≤ p + q) :
    √(lad (p + q) c) * g p q r a b (c + 1) =
      (if a = 0 then 0 else √(lad (q + r) (a - 1)) * g p q r (a - 1) b c) +
      (if b = 0 then 0 else √(lad (p + r) (b - 1)) * g p q r a (b - 1) c) := by
  by_cases h : c + 1 + r = a + b
  · have hu := U_lower ha hb
    have e1 : (if a = 0 then 0 else √(lad (q + r) (a - 1)) * g p q r (a - 1) b c) =
        kf p q r * nf (p + q) c * (1 / nf (q + r) a) * (1 / nf (p + r) b) *
          ((a : ℝ) * U p q r (a - 1) b) := by
      split_ifs with h0
      · simp [h0]
      · obtain ⟨a', rfl⟩ : ∃ a', a = a' + 1 := ⟨a - 1, by omega⟩
        have l1 := lad_div' (show a' < q + r by omega)
        unfold g
        rw [Nat.add_sub_cancel, if_pos (by omega)]
        push_cast
        linear_combination (kf p q r * nf (p + q) c * (1 / nf (p + r) b) * U p q r a' b) * l1
    have e2 : (if b = 0 then 0 else √(lad (p + r) (b - 1)) * g p q r a (b - 1) c) =
        kf p q r * nf (p + q) c * (1 / nf (q + r) a) * (1 / nf (p + r) b) *
          ((b : ℝ) * U p q r a (b - 1)) := by
      split_ifs with h0
      · simp [h0]
      · obtain ⟨b', rfl⟩ : ∃ b', b = b' + 1 := ⟨b - 1, by omega⟩
        have l1 := lad_div' (show b' < p + r by omega)
        unfold g
        rw [Nat.add_sub_cancel, if_pos (by omega)]
        push_cast
        linear_combination (kf p q r * nf (p + q) c * (1 / nf (q + r) a) * U p q r a b') * l1
    rw [e1, e2, ← mul_add, hu]
    have hcr : (c : ℝ) + 1 + r = a + b := by exact_mod_cast h
    rw [show (a : ℝ) + b - r = c + 1 by linarith]
    rcases hc.lt_or_eq with hc | hc
    · have l3 := lad_nf' hc
      unfold g
      rw [if_pos (by omega)]
      linear_combination (kf p q r * (1 / nf (q + r) a) * (1 / nf (p + r) b) * U p q r a b) * l3
    · rw [U_high (by omega) ha]
      subst hc
      simp [lad]
  · have e1 : g p q r a b (c + 1) = 0 := if_neg (by omega)
    rw [e1]
    split_ifs with h1 h2 h2
    · ring
    · have e2 : g p q r a (b - 1) c = 0 := if_neg (by omega)
      rw [e2]; ring
    · have e2 : g p q r (a - 1) b c = 0 := if_neg (by omega)
      rw [e2]; ring
    · have e2 : g p q r a (b - 1) c = 0 := if_neg (by omega)
      have e3 : g p q r (a - 1) b c = 0 := if_neg (by omega)
      rw [e2, e3]; ring

/-! ### Rows and columns of the ladder matrices -/

variable {j : ℕ}

theorem raising_row (f : ℕ → ℂ) (l : Fin (j + 1)) :
    ∑ k : Fin (j + 1), f k * raising j l k =
      if (l : ℕ) = 0 then 0 else -(((√(lad j (l - 1)) : ℝ) : ℂ) * f ((l : ℕ) - 1)) := by
  split_ifs with h0
  · refine Finset.sum_eq_zero fun k _ => ?_
    rw [raising_apply, if_neg (by omega), mul_zero]
  · let k : Fin (j + 1) := ⟨l - 1, by omega⟩
    have hk : (l : ℕ) = (k : ℕ) + 1 := by simp only [k]; omega
    rw [Finset.sum_eq_single k]
    · rw [raising_apply, if_pos hk, ofReal_neg, mul_neg, mul_comm]
    · intro b _ hb
      rw [raising_apply, if_neg (fun h => hb (Fin.ext (by omega))), mul_zero]
    · simp

theorem raising_col (f : ℕ → ℂ) (i : Fin (j + 1)) :
    ∑ k : Fin (j + 1), raising j k i * f k = -(((√(lad j i) : ℝ) : ℂ) * f ((i : ℕ) + 1)) := by
  rcases Nat.lt_or_ge (i : ℕ) j with h0 | h0
  · let k : Fin (j + 1) := ⟨i + 1, by omega⟩
    have hk : (k : ℕ) = (i : ℕ) + 1 := rfl
    rw [Finset.sum_eq_single k]
    · rw [raising_apply, if_pos hk, ofReal_neg, neg_mul]
    · intro b _ hb
      rw [raising_apply, if_neg (fun h => hb (Fin.ext (by omega))), zero_mul]
    · simp
  · rw [Finset.sum_eq_zero, show (i : ℕ) = j by omega]
    · simp [lad]
    · intro k _
      rw [raising_apply, if_neg (by omega), zero_mul]

theorem lowering_row (f : ℕ → ℂ) (l : Fin (j + 1)) :
    ∑ k : Fin (j + 1), f k * lowering j l k = ((√(lad j l) : ℝ) : ℂ) * f ((l : ℕ) + 1) := by
  have h := raising_col f l
  rw [lowering_eq]
  simp only [Matrix.neg_apply, Matrix.transpose_apply, mul_neg, Finset.sum_neg_distrib]
  rw [← neg_eq_iff_eq_neg] at h
  rw [← h]
  congr 1
  exact Finset.sum_congr rfl fun k _ => mul_comm _ _

theorem lowering_col (f : ℕ → ℂ) (i : Fin (j + 1)) :
    ∑ k : Fin (j + 1), lowering j k i * f k =
      if (i : ℕ) = 0 then 0 else (((√(lad j (i - 1)) : ℝ) : ℂ) * f ((i : ℕ) - 1)) := by
  have h := raising_row f i
  rw [lowering_eq]
  simp only [Matrix.neg_apply, Matrix.transpose_apply, neg_mul, Finset.sum_neg_distrib]
  have h2 : ∑ k : Fin (j + 1), raising j i k * f k = ∑ k : Fin (j + 1), f k * raising j i k :=
    Finset.sum_congr rfl fun k _ => mul_comm _ _
  rw [h2, h]
  split_ifs <;> simp

/-- One generator `Y` of the three representations is respected by the coefficients. -/
def Resp (p q r : ℕ) (Y : (j : ℕ) → Matrix (Fin (j + 1)) (Fin (j + 1)) ℂ) : Prop :=
  ∀ (i : Fin (q + r + 1)) (k : Fin (p + r + 1)) (l : Fin (p + q + 1)),
    ∑ m : Fin (p + q + 1), ((g p q r i k m : ℝ) : ℂ) * Y (p + q) l m =
      ∑ i' : Fin (q + r + 1), Y (q + r) i' i * ((g p q r i' k l : ℝ) : ℂ) +
      ∑ k' : Fin (p + r + 1), Y (p + r) k' k * ((g p q r i k' l : ℝ) : ℂ)

theorem resp_raising : Resp p q r raising := by
  intro i k l
  have h := g_raise (p := p) (q := q) (r := r) (a := i) (b := k) (c := l) (by omega) (by omega)
    (by omega)
  rw [raising_row (fun m => ((g p q r i k m : ℝ) : ℂ)),
    raising_col (fun m => ((g p q r m k l : ℝ) : ℂ)),
    raising_col (fun m => ((g p q r i m l : ℝ) : ℂ)), ← neg_add]
  have h' := congrArg (fun x : ℝ => (x : ℂ)) h
  simp only [ofReal_add, ofReal_mul] at h'
  rw [← h']
  split_ifs <;> simp

theorem resp_lowering : Resp p q r lowering := by
  intro i k l
  have h := g_lower (p := p) (q := q) (r := r) (a := i) (b := k) (c := l) (by omega) (by omega)
    (by omega)
  rw [lowering_row (fun m => ((g p q r i k m : ℝ) : ℂ)),
    lowering_col (fun m => ((g p q r m k l : ℝ) : ℂ)),
    lowering_col (fun m => ((g p q r i m l : ℝ) : ℂ))]
  have h' := congrArg (fun x : ℝ => (x : ℂ)) h
  simp only [ofReal_add, ofReal_mul] at h'
  rw [h']
  split_ifs <;> simp

theorem resp_zGen : Resp p q r zGen := by
  intro i k l
  simp only [zGen_eq, Matrix.diagonal_apply]
  rw [Finset.sum_eq_single l, Finset.sum_eq_single i, Finset.sum_eq_single k]
  · simp only [if_true]
    by_cases h : (l : ℕ) + r = i + k
    · have : wt (p + q) l = wt (q + r) i + wt (p + r) k := by
        have : ((l : ℕ) : ℝ) + r = (i : ℕ) + (k : ℕ) := by exact_mod_cast h
        unfold wt; push_cast; linarith
      rw [this]; push_cast; ring
    · have : g p q r i k l = 0 := if_neg h
      rw [this]; simp
  · intro b _ hb; rw [if_neg hb, zero_mul]
  · simp
  · intro b _ hb; rw [if_neg hb, zero_mul]
  · simp
  · intro b _ hb; rw [if_neg hb.symm, mul_zero]
  · simp

theorem Resp.comb {Y Z : (j : ℕ) → Matrix (Fin (j + 1)) (Fin (j + 1)) ℂ} (hY : Resp p q r Y)
    (hZ : Resp p q r Z) (s t : ℂ) : Resp p q r fun j => s • Y j + t • Z j := by
  intro i k l
  have h1 := hY i k l
  have h2 := hZ i k l
  simp only [Matrix.add_apply, Matrix.smul_apply, smul_eq_mul, mul_add, add_mul,
    Finset.sum_add_distrib]
  simp only [mul_left_comm _ s, mul_left_comm _ t, mul_assoc, ← Finset.mul_sum]
  linear_combination s * h1 + t * h2

theorem resp_gens (x : Fin 3) : Resp p q r fun j => gens j x := by
  fin_cases x
  · have := (resp_raising (p := p) (q := q) (r := r)).comb resp_lowering 0.5 0.5
    simp only [← smul_add] at this
    exact this
  · exact resp_zGen
  · have := (resp_raising (p := p) (q := q) (r := r)).comb resp_lowering (-0.5 * I) (-(-0.5 * I))
    simp only [neg_smul (-0.5 * I), ← sub_eq_add_neg, ← smul_sub] at this
    exact this

/-- The coefficients are equivariant. -/
theorem isCG (p q r : ℕ) : Spec.IsCG (rep (q + r)) (rep (p + r)) (rep (p + q))
    (fun x y z => ((cgT p q r x y z : ℝ) : ℂ)) := by
  refine ⟨fun x i k l => ?_, fun x => x.elim0⟩
  simp only [cgT_eq]
  exact resp_gens x i k l

end LieNN.SU2
