import Verif.Model.SU2
import Verif.Proofs.SU2Sum
import Mathlib.Tactic.FieldSimp
import Mathlib.Tactic.Linarith
/-!
# The coefficients computed by `clebsch_gordanSU2coeffs`

A triple of spins that passes the selection rule is `j1 = (q + r) / 2`, `j2 = (p + r) / 2`,
`j3 = (p + q) / 2`; the positions are `a = j1 + m1`, `b = j2 + m2`, `c = j3 + m3`.
-/
namespace LieNN.SU2

open Finset

theorem fact_of {x : ℚ} (n : ℕ) (h : x = n) : fact x = .ok n.factorial := by
  subst h; simp [fact]

theorem negOnePow_of {x : ℚ} (n : ℕ) (h : x = n) : negOnePow x = .ok ((-1) ^ n) := by
  subst h; simp [negOnePow]

theorem frac_of {m n : ℕ} (h : n ≠ 0) : frac m n = .ok ((m : ℚ) / n) := by simp [frac, h]

theorem trunc_of {x : ℚ} (z : ℤ) (h : x = z) : trunc x = z := by
  subst h; unfold trunc; split_ifs <;> simp

theorem ok_bind' {α β : Type} (x : α) (f : α → Py β) :
    ((Except.ok x : Py α) >>= f) = f x := rfl

/-- The term of the sum. -/
def termVal (p q r a b c v : ℕ) : ℚ :=
  (-1) ^ (v + b) * (((p + a - v).factorial * (q + r - a + v).factorial : ℕ) /
    ((v.factorial * (p - v).factorial * (c - v).factorial * (v + q - c).factorial : ℕ) : ℚ))

/-- The factor under the square root. -/
def normVal (p q r a b c : ℕ) : ℚ :=
  ((p : ℚ) + q + 1) *
    ((q.factorial * p.factorial * r.factorial * c.factorial * (p + q - c).factorial : ℕ) /
    (((p + q + r + 1).factorial * (q + r - a).factorial * a.factorial * (p + r - b).factorial *
      b.factorial : ℕ) : ℚ))

/-- Hypotheses on the positions. -/
structure Pos (p q r a b c : ℕ) : Prop where
  ha : a ≤ q + r
  hb : b ≤ p + r
  hc : c + r = a + b
  hc' : c ≤ p + q

variable {p q r a b c : ℕ}

theorem Pos.hcq (h : Pos p q r a b c) : (c : ℚ) + r = a + b := by exact_mod_cast h.hc

theorem cgTerm_eq (h : Pos p q r a b c) {v : ℕ} (h1 : c - q ≤ v) (h2 : v ≤ min p c) :
    cgTerm ((q + r : ℚ) / 2) (a - (q + r : ℚ) / 2) ((p + r : ℚ) / 2) (b - (p + r : ℚ) / 2)
      ((p + q : ℚ) / 2) (c - (p + q : ℚ) / 2) ((v : ℕ) : ℤ) = .ok (termVal p q r a b c v) := by
  have hvp : v ≤ p := by omega
  have hvc : v ≤ c := by omega
  have hq := h.hcq
  have := h.ha
  unfold cgTerm
  rw [negOnePow_of (v + b) (by push_cast; ring),
    fact_of (p + a - v) (by rw [Nat.cast_sub (by omega)]; push_cast; ring),
    fact_of (q + r - a + v) (by push_cast [Nat.cast_sub h.ha]; ring),
    fact_of v (by push_cast; ring),
    fact_of (p - v) (by push_cast [Nat.cast_sub hvp]; ring),
    fact_of (c - v) (by push_cast [Nat.cast_sub hvc]; ring),
    fact_of (v + q - c) (by rw [Nat.cast_sub (by omega)]; push_cast; linarith)]
  simp only [ok_bind']
  rw [frac_of (by
    have := v.factorial_ne_zero
    have := (p - v).factorial_ne_zero
    have := (c - v).factorial_ne_zero
    have := (v + q - c).factorial_ne_zero
    simp_all [Nat.factorial_ne_zero])]
  rfl

theorem cgC_eq (h : Pos p q r a b c) :
    cgC ((q + r : ℚ) / 2) (a - (q + r : ℚ) / 2) ((p + r : ℚ) / 2) (b - (p + r : ℚ) / 2)
      ((p + q : ℚ) / 2) (c - (p + q : ℚ) / 2) = .ok (normVal p q r a b c) := by
  have hq := h.hcq
  unfold cgC
  rw [fact_of q (by ring), fact_of p (by ring), fact_of r (by ring), fact_of c (by ring),
    fact_of (p + q - c) (by push_cast [Nat.cast_sub h.hc']; ring),
    fact_of (p + q + r + 1) (by push_cast; ring),
    fact_of (q + r - a) (by push_cast [Nat.cast_sub h.ha]; ring),
    fact_of a (by ring),
    fact_of (p + r - b) (by push_cast [Nat.cast_sub h.hb]; ring),
    fact_of b (by ring)]
  simp only [ok_bind']
  rw [frac_of (by simp [Nat.factorial_ne_zero])]
  simp only [ok_bind', normVal]
  congr 1
  ring

theorem foldlM_ok {α : Type} (f : α → Py ℚ) (g : α → ℚ) (l : List α) (s : ℚ)
    (h : ∀ v ∈ l, f v = .ok (g v)) :
    l.foldlM (fun S v => do let t ← f v; pure (S + t)) s = (.ok (s + (l.map g).sum) : Py ℚ) := by
  induction l generalizing s with
  | nil => simp; rfl
  | cons x l ih =>
    rw [List.foldlM_cons, h x List.mem_cons_self, ok_bind']
    change l.foldlM _ (s + g x) = _
    rw [ih _ fun v hv => h v (List.mem_cons_of_mem _ hv)]
    simp [add_assoc]

theorem pyRange_one (lo hi : ℕ) :
    pyRange (lo : ℤ) ((hi : ℤ) + 1) 1 =
      (List.range (hi + 1 - lo)).map fun t => ((lo + t : ℕ) : ℤ) := by
  unfold pyRange
  rw [show ((hi : ℤ) + 1 - lo).toNat = hi + 1 - lo by omega]
  rw [Nat.div_one, Nat.mod_one, if_pos rfl, add_zero]
  refine List.map_congr_left fun t _ => ?_
  push_cast; ring

theorem sum_range_shift (lo n : ℕ) (g : ℕ → ℚ) :
    (((List.range n).map fun t => ((lo + t : ℕ) : ℤ)).map fun v : ℤ => g v.toNat).sum =
      ∑ v ∈ Ico lo (lo + n), g v := by
  rw [Finset.sum_Ico_eq_sum_range, Nat.add_sub_cancel_left, List.map_map]
  induction n with
  | zero => simp
  | succ n ih => rw [List.sum_range_succ, Finset.sum_range_succ, ih]; rfl

/-- `S` as computed. -/
theorem cgS_eq (h : Pos p q r a b c) :
    cgS ((q + r : ℚ) / 2) (a - (q + r : ℚ) / 2) ((p + r : ℚ) / 2) (b - (p + r : ℚ) / 2)
      ((p + q : ℚ) / 2) (c - (p + q : ℚ) / 2) =
      .ok (∑ v ∈ Ico (c - q) (min p c + 1), termVal p q r a b c v) := by
  have haq : (a : ℚ) ≤ q + r := by exact_mod_cast h.ha
  have ha0 : (0 : ℚ) ≤ a := Nat.cast_nonneg _
  have hmin : trunc (max (max (-((q + r : ℚ) / 2) + (p + r : ℚ) / 2 + (c - (p + q : ℚ) / 2))
      (-((q + r : ℚ) / 2) + (a - (q + r : ℚ) / 2))) 0) = ((c - q : ℕ) : ℤ) := by
    apply trunc_of
    rw [show -((q + r : ℚ) / 2) + (p + r : ℚ) / 2 + (c - (p + q : ℚ) / 2) = c - q by ring,
      show -((q + r : ℚ) / 2) + (a - (q + r : ℚ) / 2) = a - (q + r) by ring, max_assoc,
      max_eq_right (a := (a : ℚ) - (q + r)) (by linarith)]
    rcases le_total c q with hh | hh
    · have : (c : ℚ) ≤ q := by exact_mod_cast hh
      rw [max_eq_right (by linarith), Nat.sub_eq_zero_of_le hh]; simp
    · have : (q : ℚ) ≤ c := by exact_mod_cast hh
      rw [max_eq_left (by linarith)]; push_cast [Nat.cast_sub hh]; ring
  have hmax : trunc (min (min ((p + r : ℚ) / 2 + (p + q : ℚ) / 2 + (a - (q + r : ℚ) / 2))
      ((p + q : ℚ) / 2 - (q + r : ℚ) / 2 + (p + r : ℚ) / 2))
      ((p + q : ℚ) / 2 + (c - (p + q : ℚ) / 2))) = ((min p c : ℕ) : ℤ) := by
    apply trunc_of
    rw [show (p + r : ℚ) / 2 + (p + q : ℚ) / 2 + (a - (q + r : ℚ) / 2) = p + a by ring,
      show (p + q : ℚ) / 2 - (q + r : ℚ) / 2 + (p + r : ℚ) / 2 = p by ring,
      show (p + q : ℚ) / 2 + (c - (p + q : ℚ) / 2) = c by ring,
      min_eq_right (a := (p : ℚ) + a) (by linarith)]
    push_cast; rfl
  unfold cgS
  rw [hmin, hmax]
  simp only [pyRange_one]
  rw [foldlM_ok _ (fun v : ℤ => termVal p q r a b c v.toNat), zero_add, sum_range_shift]
  · have h1 := h.hc'
    rw [show c - q + (min p c + 1 - (c - q)) = min p c + 1 by omega]
  · intro v hv
    obtain ⟨t, ht, rfl⟩ := List.mem_map.1 hv
    have ht := List.mem_range.1 ht
    rw [Int.toNat_natCast]
    exact cgTerm_eq h (by omega) (by omega)

theorem dF_eq {n k : ℕ} (h : k ≤ n) : dF n k = (n.factorial : ℝ) / ((n - k).factorial : ℝ) := by
  unfold dF
  have := Nat.factorial_mul_descFactorial h
  rw [eq_div_iff (by exact_mod_cast (n - k).factorial_ne_zero), ← this]; push_cast; ring

/-- The sum is `(-1)^b W / p!`. -/
theorem cgS_W (h : Pos p q r a b c) :
    ((∑ v ∈ Ico (c - q) (min p c + 1), termVal p q r a b c v : ℚ) : ℝ) =
      (-1) ^ b * W p (q + r - a) a b (p + r - b) / p.factorial := by
  have ha := h.ha
  have hb := h.hb
  have hc := h.hc
  have hc' := h.hc'
  have e : ∀ v ∈ Ico (c - q) (min p c + 1), ((termVal p q r a b c v : ℚ) : ℝ) =
      (-1) ^ b * (sgnC p v * (dF (q + r - a + v) b * dF (p + a - v) (p + r - b)))
        / p.factorial := by
    intro v hv
    have hv := Finset.mem_Ico.1 hv
    unfold termVal sgnC
    rw [dF_eq (by omega), dF_eq (by omega), Nat.cast_choose ℝ (show v ≤ p by omega),
      show q + r - a + v - b = v + q - c by omega, show p + a - v - (p + r - b) = c - v by omega,
      pow_add]
    have h1 : (p.factorial : ℝ) ≠ 0 := by exact_mod_cast p.factorial_ne_zero
    have h2 : (v.factorial : ℝ) ≠ 0 := by exact_mod_cast v.factorial_ne_zero
    have h3 : ((p - v).factorial : ℝ) ≠ 0 := by exact_mod_cast (p - v).factorial_ne_zero
    have h4 : ((c - v).factorial : ℝ) ≠ 0 := by exact_mod_cast (c - v).factorial_ne_zero
    have h5 : ((v + q - c).factorial : ℝ) ≠ 0 := by exact_mod_cast (v + q - c).factorial_ne_zero
    push_cast
    field_simp
  push_cast
  rw [Finset.sum_congr rfl e, W, Finset.mul_sum, Finset.sum_div]
  apply Finset.sum_subset
  · intro v hv
    have := Finset.mem_Ico.1 hv
    exact Finset.mem_range.2 (by omega)
  · intro v hv hv'
    have h1 := Finset.mem_range.1 hv
    have h2 : v < c - q ∨ min p c + 1 ≤ v := by
      by_contra hh; push Not at hh; exact hv' (Finset.mem_Ico.2 hh)
    rcases h2 with h2 | h2
    · have : dF (q + r - a + v) b = 0 := by
        unfold dF; rw [Nat.descFactorial_eq_zero_iff_lt.2 (by omega)]; simp
      rw [this]; ring
    · have : dF (p + a - v) (p + r - b) = 0 := by
        unfold dF; rw [Nat.descFactorial_eq_zero_iff_lt.2 (by omega)]; simp
      rw [this]; ring

/-- The value of the coefficient. -/
noncomputable def cgVal (p q r a b c : ℕ) : ℝ :=
  √(normVal p q r a b c : ℝ) * ((-1) ^ b * W p (q + r - a) a b (p + r - b) / p.factorial)

theorem normVal_pos : 0 < normVal p q r a b c := by
  unfold normVal
  have : ∀ n : ℕ, 0 < n.factorial := Nat.factorial_pos
  positivity

theorem signed_sqrt {C S : ℚ} (hC : 0 ≤ C) :
    (if 0 < S then (pure √((C * S ^ 2 : ℚ) : ℝ) : Py ℝ) else pure (-√((C * S ^ 2 : ℚ) : ℝ))) =
      .ok (√(C : ℝ) * S) := by
  have hC' : (0 : ℝ) ≤ C := by exact_mod_cast hC
  have e : √((C * S ^ 2 : ℚ) : ℝ) = √(C : ℝ) * |(S : ℝ)| := by
    push_cast
    rw [Real.sqrt_mul hC', Real.sqrt_sq_eq_abs]
  split_ifs with h
  · have : (0 : ℝ) < S := by exact_mod_cast h
    rw [e, abs_of_pos this]; rfl
  · have : (S : ℝ) ≤ 0 := by exact_mod_cast not_lt.1 h
    rw [e, abs_of_nonpos this, mul_neg, neg_neg]; rfl

/-- `clebsch_gordanSU2coeffs` does not fail and returns `cgVal`. -/
theorem cgCoeff_eq (h : Pos p q r a b c) :
    cgCoeff ((q + r : ℚ) / 2) (a - (q + r : ℚ) / 2) ((p + r : ℚ) / 2) (b - (p + r : ℚ) / 2)
      ((p + q : ℚ) / 2) (c - (p + q : ℚ) / 2) = .ok (cgVal p q r a b c) := by
  have hq := h.hcq
  unfold cgCoeff
  rw [if_neg (by push Not; linarith), cgC_eq h, cgS_eq h]
  simp only [ok_bind']
  rw [signed_sqrt normVal_pos.le, cgS_W h, cgVal]

end LieNN.SU2
