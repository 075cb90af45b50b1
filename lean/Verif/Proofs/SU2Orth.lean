import Verif.Proofs.SU2Equi
import Verif.Spec.Reduced
import Mathlib.LinearAlgebra.Matrix.NonsingularInverse
import Mathlib.LinearAlgebra.Matrix.Kronecker
/-!
# Orthonormality and completeness of the Clebsch-Gordan coefficients of `SU2`
-/
namespace LieNN.SU2

open Finset Complex Matrix

/-- The coefficient array of a triple of spins, on natural indices. -/
noncomputable def gj (j₁ j₂ j₃ : ℕ) : ℕ → ℕ → ℕ → ℝ :=
  g ((j₂ + j₃ - j₁) / 2) ((j₁ + j₃ - j₂) / 2) ((j₁ + j₂ - j₃) / 2)

theorem gj_eq (p q r : ℕ) : gj (q + r) (p + r) (p + q) = g p q r := by
  unfold gj
  rw [show (p + r + (p + q) - (q + r)) / 2 = p by omega,
    show (q + r + (p + q) - (p + r)) / 2 = q by omega,
    show (q + r + (p + r) - (p + q)) / 2 = r by omega]

/-- The coefficient array with indices of the right size. -/
noncomputable def ct (j₁ j₂ j₃ : ℕ) (a : Fin (dim j₁)) (b : Fin (dim j₂)) (c : Fin (dim j₃)) : ℝ :=
  gj j₁ j₂ j₃ a b c

theorem cg_eq_ct {j₁ j₂ j₃ : ℕ} (h : j₃ ∈ mulL j₁ j₂) : cg j₁ j₂ j₃ = .ok [ct j₁ j₂ j₃] := by
  obtain ⟨p, q, r, rfl, rfl, rfl⟩ := mem_mulL.1 h
  rw [cg_eq]
  congr 2
  funext a b c
  rw [cgT_eq, ct, gj_eq]

/-- The coefficients as a matrix from the tensor product to `SU2(j3)`. -/
noncomputable def cm (j₁ j₂ j₃ : ℕ) :
    Matrix (Fin (j₃ + 1)) (Fin (j₁ + 1) × Fin (j₂ + 1)) ℂ :=
  Matrix.of fun c ab => ((gj j₁ j₂ j₃ ab.1 ab.2 c : ℝ) : ℂ)

theorem isCG_ct {j₁ j₂ j₃ : ℕ} (h : j₃ ∈ mulL j₁ j₂) :
    Spec.IsCG (rep j₁) (rep j₂) (rep j₃) (fun a b c => ((ct j₁ j₂ j₃ a b c : ℝ) : ℂ)) := by
  obtain ⟨p, q, r, rfl, rfl, rfl⟩ := mem_mulL.1 h
  have := isCG p q r
  have e : ct (q + r) (p + r) (p + q) = cgT p q r := by
    funext a b c; rw [cgT_eq, ct, gj_eq]
  rw [e]; exact this

/-- Action on the tensor product. -/
noncomputable def tg (j₁ j₂ : ℕ) (x : Fin 3) :
    Matrix (Fin (j₁ + 1) × Fin (j₂ + 1)) (Fin (j₁ + 1) × Fin (j₂ + 1)) ℂ :=
  kroneckerMap (· * ·) (gens j₁ x) 1 + kroneckerMap (· * ·) 1 (gens j₂ x)

theorem tg_skew (j₁ j₂ : ℕ) (x : Fin 3) : (tg j₁ j₂ x)ᴴ = -tg j₁ j₂ x := by
  have h1 := skew (j := j₁) x
  have h2 := skew (j := j₂) x
  unfold tg
  rw [Matrix.conjTranspose_add]
  have e1 : (kroneckerMap (· * ·) (gens j₁ x) (1 : Matrix (Fin (j₂ + 1)) (Fin (j₂ + 1)) ℂ))ᴴ
      = kroneckerMap (· * ·) (gens j₁ x)ᴴ 1 := by
    have := Matrix.conjTranspose_kronecker (gens j₁ x) (1 : Matrix (Fin (j₂ + 1)) (Fin (j₂ + 1)) ℂ)
    rw [Matrix.conjTranspose_one] at this
    exact this
  have e2 : (kroneckerMap (· * ·) (1 : Matrix (Fin (j₁ + 1)) (Fin (j₁ + 1)) ℂ) (gens j₂ x))ᴴ
      = kroneckerMap (· * ·) 1 (gens j₂ x)ᴴ := by
    have := Matrix.conjTranspose_kronecker (1 : Matrix (Fin (j₁ + 1)) (Fin (j₁ + 1)) ℂ) (gens j₂ x)
    rw [Matrix.conjTranspose_one] at this
    exact this
  rw [e1, e2, h1, h2]
  ext i k
  simp only [Matrix.add_apply, Matrix.neg_apply, kroneckerMap_apply]
  ring

theorem cm_tg {j₁ j₂ j₃ : ℕ} (h : j₃ ∈ mulL j₁ j₂) (x : Fin 3) :
    gens j₃ x * cm j₁ j₂ j₃ = cm j₁ j₂ j₃ * tg j₁ j₂ x := by
  have hcg := (isCG_ct h).1 x
  ext l ⟨i, k⟩
  have e := hcg i k l
  rw [Matrix.mul_apply, Matrix.mul_apply]
  refine ((Finset.sum_congr rfl fun m _ => mul_comm _ _).trans e).trans ?_
  unfold tg
  simp only [Matrix.add_apply, mul_add, Finset.sum_add_distrib]
  congr 1
  · rw [Fintype.sum_prod_type]
    refine Finset.sum_congr rfl fun i' _ => ?_
    rw [Finset.sum_eq_single k]
    · rw [kroneckerMap_apply, Matrix.one_apply_eq, mul_one, mul_comm]; rfl
    · intro b _ hb
      rw [kroneckerMap_apply, Matrix.one_apply_ne hb]; simp
    · simp
  · rw [Fintype.sum_prod_type, Finset.sum_eq_single i]
    · refine Finset.sum_congr rfl fun k' _ => ?_
      rw [kroneckerMap_apply, Matrix.one_apply_eq, one_mul, mul_comm]; rfl
    · intro b _ hb
      refine Finset.sum_eq_zero fun k' _ => ?_
      rw [kroneckerMap_apply, Matrix.one_apply_ne hb]; simp
    · simp

theorem gram_intertwines {j₁ j₂ j₃ j₄ : ℕ} (h3 : j₃ ∈ mulL j₁ j₂) (h4 : j₄ ∈ mulL j₁ j₂)
    (x : Fin 3) : gens j₃ x * (cm j₁ j₂ j₃ * (cm j₁ j₂ j₄)ᴴ) =
      (cm j₁ j₂ j₃ * (cm j₁ j₂ j₄)ᴴ) * gens j₄ x := by
  have e := congrArg Matrix.conjTranspose (cm_tg h4 x)
  rw [Matrix.conjTranspose_mul, Matrix.conjTranspose_mul, skew, tg_skew, Matrix.mul_neg,
    Matrix.neg_mul, neg_inj] at e
  rw [← Matrix.mul_assoc, cm_tg h3, Matrix.mul_assoc, ← e, Matrix.mul_assoc]

theorem gram_off {j₁ j₂ j₃ j₄ : ℕ} (h3 : j₃ ∈ mulL j₁ j₂) (h4 : j₄ ∈ mulL j₁ j₂) (hne : j₃ ≠ j₄) :
    cm j₁ j₂ j₃ * (cm j₁ j₂ j₄)ᴴ = 0 := by
  set M := cm j₁ j₂ j₃ * (cm j₁ j₂ j₄)ᴴ with hM
  have hx : ∀ x, gens j₃ x * gens j₃ x * M = M * (gens j₄ x * gens j₄ x) := by
    intro x
    have := gram_intertwines h3 h4 x
    rw [← hM] at this
    rw [Matrix.mul_assoc, this, ← Matrix.mul_assoc, this, Matrix.mul_assoc]
  have hs : (∑ x, gens j₃ x * gens j₃ x) * M = M * ∑ x, gens j₄ x * gens j₄ x := by
    rw [Matrix.sum_mul, Matrix.mul_sum]
    exact Finset.sum_congr rfl fun x _ => hx x
  rw [casimir, casimir, Matrix.smul_mul, Matrix.mul_smul, Matrix.one_mul, Matrix.mul_one,
    ← sub_eq_zero, ← sub_smul, smul_eq_zero] at hs
  rcases hs with hs | hs
  · exfalso
    have : ((j₃ : ℂ) - j₄) * (j₃ + j₄ + 2) = 0 := by linear_combination (-4 : ℂ) * hs
    rcases mul_eq_zero.1 this with h | h
    · exact hne (by exact_mod_cast sub_eq_zero.1 h)
    · have : ((j₃ + j₄ + 2 : ℕ) : ℂ) = 0 := by push_cast; exact h
      have := Nat.cast_eq_zero.1 this
      omega
  · exact hs

/-- The squared norm of the row of highest weight is `1`. -/
theorem top_norm (p q r : ℕ) :
    ∑ a ∈ range (q + r + 1), ∑ b ∈ range (p + r + 1), g p q r a b (p + q) * g p q r a b (p + q)
      = 1 := by
  have h1 : ∀ a ∈ range (q + r + 1),
      ∑ b ∈ range (p + r + 1), g p q r a b (p + q) * g p q r a b (p + q)
        = if q ≤ a then g p q r a (p + q + r - a) (p + q) * g p q r a (p + q + r - a) (p + q)
          else 0 := by
    intro a ha
    have ha := Finset.mem_range.1 ha
    split_ifs with h
    · rw [Finset.sum_eq_single (p + q + r - a)]
      · intro b _ hb
        have : g p q r a b (p + q) = 0 := if_neg (by omega)
        rw [this, mul_zero]
      · intro h'; exact absurd (Finset.mem_range.2 (by omega)) h'
    · refine Finset.sum_eq_zero fun b hb => ?_
      have hb := Finset.mem_range.1 hb
      have : g p q r a b (p + q) = 0 := if_neg (by omega)
      rw [this, mul_zero]
  rw [Finset.sum_congr rfl h1, ← Finset.sum_range_reflect]
  have h2 : ∑ x ∈ range (q + r + 1), (if q ≤ q + r + 1 - 1 - x then
      g p q r (q + r + 1 - 1 - x) (p + q + r - (q + r + 1 - 1 - x)) (p + q) *
      g p q r (q + r + 1 - 1 - x) (p + q + r - (q + r + 1 - 1 - x)) (p + q) else 0)
      = ∑ x ∈ range (r + 1), g p q r (q + r - x) (p + x) (p + q) *
          g p q r (q + r - x) (p + x) (p + q) := by
    symm
    rw [← Finset.sum_subset (s₁ := range (r + 1)) (s₂ := range (q + r + 1))]
    · refine Finset.sum_congr rfl fun x hx => ?_
      have hx := Finset.mem_range.1 hx
      rw [if_pos (by omega), show q + r + 1 - 1 - x = q + r - x by omega,
        show p + q + r - (q + r - x) = p + x by omega]
    · intro x hx
      have hx := Finset.mem_range.1 hx
      exact Finset.mem_range.2 (by omega)
    · intro x hx hx'
      have hx := Finset.mem_range.1 hx
      have hx' : r + 1 ≤ x := by by_contra h; exact hx' (Finset.mem_range.2 (by omega))
      rw [if_neg (by omega)]
  rw [h2]
  have hf : ∀ n : ℕ, (n.factorial : ℝ) ≠ 0 := fun n => by exact_mod_cast n.factorial_ne_zero
  have h3 : ∀ x ∈ range (r + 1), g p q r (q + r - x) (p + x) (p + q) *
      g p q r (q + r - x) (p + x) (p + q) =
      ((p : ℝ) + q + 1) * (p + q).factorial * r.factorial / (p + q + r + 1).factorial *
        (((p + x).choose p * (q + (r - x)).choose q : ℕ) : ℝ) := by
    intro x hx
    have hx := Finset.mem_range.1 hx
    unfold g
    rw [if_pos (by omega)]
    unfold U
    rw [show q + r - (q + r - x) = x by omega, show p + r - (p + x) = r - x by omega, add_comm p x,
      W_top, dF_eq (by omega), show q + r - x - (r - x) = q by omega]
    have n1 : nf (p + q) (p + q) * nf (p + q) (p + q) = (p + q).factorial := by
      unfold nf; rw [Real.mul_self_sqrt (by positivity)]; simp
    have n2 : nf (q + r) (q + r - x) * nf (q + r) (q + r - x)
        = (q + r - x).factorial * x.factorial := by
      unfold nf; rw [Real.mul_self_sqrt (by positivity), show q + r - (q + r - x) = x by omega]
    have n3 : nf (p + r) (x + p) * nf (p + r) (x + p) = (x + p).factorial * (r - x).factorial := by
      unfold nf
      rw [Real.mul_self_sqrt (by positivity), show p + r - (x + p) = r - x by omega]
    have k1 : kf p q r * kf p q r = ((p : ℝ) + q + 1) * ((q.factorial : ℝ) * p.factorial *
        r.factorial) / (p + q + r + 1).factorial / p.factorial / p.factorial := by
      unfold kf
      rw [div_mul_div_comm, Real.mul_self_sqrt (by positivity)]
      field_simp
    have s1 : ((-1 : ℝ) ^ (x + p) * (-1) ^ p) * ((-1 : ℝ) ^ (x + p) * (-1) ^ p) = 1 := by
      rw [← pow_add, ← pow_add, ← two_mul, pow_mul]; simp
    have c1 : (((x + p).choose p : ℕ) : ℝ) = (x + p).factorial / (p.factorial * x.factorial) := by
      rw [Nat.cast_choose ℝ (by omega), Nat.add_sub_cancel]
    have c2 : (((q + (r - x)).choose q : ℕ) : ℝ)
        = (q + r - x).factorial / (q.factorial * (r - x).factorial) := by
      rw [Nat.cast_choose ℝ (by omega), Nat.add_sub_cancel_left,
        show q + (r - x) = q + r - x by omega]
    have hn2 := (nf_pos (q + r) (q + r - x)).ne'
    have hn3 := (nf_pos (p + r) (x + p)).ne'
    calc _ = (kf p q r * kf p q r) * (nf (p + q) (p + q) * nf (p + q) (p + q)) /
          (nf (q + r) (q + r - x) * nf (q + r) (q + r - x)) /
          (nf (p + r) (x + p) * nf (p + r) (x + p)) *
          (((-1 : ℝ) ^ (x + p) * (-1) ^ p) * ((-1 : ℝ) ^ (x + p) * (-1) ^ p)) *
          ((x + p).factorial * ((q + r - x).factorial / q.factorial)) ^ 2 := by
            field_simp
      _ = _ := by
        rw [n1, n2, n3, k1, s1]
        push_cast
        rw [c1, c2]
        have := hf (q + r - x)
        have := hf (x + p)
        have := hf (r - x)
        have := hf x
        have := hf p
        have := hf q
        have := hf (p + q + r + 1)
        field_simp
  rw [Finset.sum_congr rfl h3, ← Finset.mul_sum, ← Nat.cast_sum, sum_choose,
    Nat.cast_choose ℝ (by omega), show p + q + r + 1 - (p + q + 1) = r by omega,
    Nat.factorial_succ (p + q)]
  have := hf (p + q)
  have := hf r
  have := hf (p + q + r + 1)
  have hpos : ((p : ℝ) + q + 1) ≠ 0 := by positivity
  push_cast
  field_simp

theorem gram_diag {j₁ j₂ j₃ : ℕ} (h3 : j₃ ∈ mulL j₁ j₂) :
    cm j₁ j₂ j₃ * (cm j₁ j₂ j₃)ᴴ = 1 := by
  obtain ⟨s, hs⟩ := commutant (cm j₁ j₂ j₃ * (cm j₁ j₂ j₃)ᴴ)
    fun x => (gram_intertwines h3 h3 x).symm
  obtain ⟨p, q, r, rfl, rfl, rfl⟩ := mem_mulL.1 h3
  have e := congrFun (congrFun hs (Fin.last _)) (Fin.last _)
  rw [Matrix.smul_apply, Matrix.one_apply_eq, smul_eq_mul, mul_one, Matrix.mul_apply,
    Fintype.sum_prod_type] at e
  have ht := top_norm p q r
  have hs1 : s = 1 := by
    rw [← e]
    have : ∀ (a : Fin (q + r + 1)) (b : Fin (p + r + 1)),
        cm (q + r) (p + r) (p + q) (Fin.last _) (a, b) *
          (cm (q + r) (p + r) (p + q))ᴴ (a, b) (Fin.last _) =
        ((g p q r a b (p + q) * g p q r a b (p + q) : ℝ) : ℂ) := by
      intro a b
      rw [Matrix.conjTranspose_apply]
      simp only [cm, Matrix.of_apply, gj_eq, Fin.val_last]
      rw [RCLike.star_def, conj_ofReal, ofReal_mul]
    simp only [this]
    simp only [← ofReal_sum]
    rw [Finset.sum_range] at ht
    simp only [Finset.sum_range] at ht
    rw [ht, ofReal_one]
  rw [hs, hs1, one_smul]

/-- Orthonormality, entrywise. -/
theorem ct_orth {j₁ j₂ j₃ j₄ : ℕ} (h3 : j₃ ∈ mulL j₁ j₂) (h4 : j₄ ∈ mulL j₁ j₂)
    (c : Fin (dim j₃)) (d : Fin (dim j₄)) :
    ∑ a, ∑ b, ct j₁ j₂ j₃ a b c * ct j₁ j₂ j₄ a b d =
      if j₃ = j₄ ∧ (c : ℕ) = d then 1 else 0 := by
  have key : ((∑ a, ∑ b, ct j₁ j₂ j₃ a b c * ct j₁ j₂ j₄ a b d : ℝ) : ℂ) =
      (cm j₁ j₂ j₃ * (cm j₁ j₂ j₄)ᴴ) c d := by
    rw [Matrix.mul_apply, Fintype.sum_prod_type, ofReal_sum]
    refine Finset.sum_congr rfl fun a _ => ?_
    rw [ofReal_sum]
    refine Finset.sum_congr rfl fun b _ => ?_
    rw [Matrix.conjTranspose_apply]
    simp only [cm, Matrix.of_apply]
    rw [RCLike.star_def, conj_ofReal, ofReal_mul]; rfl
  apply ofReal_injective
  rw [key]
  by_cases hj : j₃ = j₄
  · subst hj
    rw [gram_diag h3]
    by_cases hcd : c = d
    · subst hcd; rw [Matrix.one_apply_eq, if_pos ⟨rfl, rfl⟩, ofReal_one]
    · rw [Matrix.one_apply_ne hcd, if_neg (fun h => hcd (Fin.ext h.2)), ofReal_zero]
  · rw [gram_off h3 h4 hj, Matrix.zero_apply, if_neg (fun h => hj h.1), ofReal_zero]

end LieNN.SU2
