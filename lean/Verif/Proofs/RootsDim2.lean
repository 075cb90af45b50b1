import Verif.Proofs.RootsDim
import Verif.Spec.Dims
/-! # Dimensions of `SPN` and `SON` labels -/
namespace LieNN.Roots

open LieNN.Spec Matrix Polynomial

variable {m : ℕ}

theorem weights_apply (S : List ℤ) (F : List (Fin m → ℚ)) (k : Fin m) :
    weights S F k = ∑ i ∈ Finset.range S.length, (S.getD i 0 : ℚ) * F.getD i 0 k := by
  rw [weights, vsum_eq, sum_list_apply, List.map_map, ← sum_map_range']
  rfl

theorem sum_ite_lt (f : ℕ → ℚ) (n k : ℕ) : ∑ i ∈ Finset.range n, f i * (if k < i + 1 then 1 else 0) =
    ∑ i ∈ Finset.Ico k n, f i := by
  simp only [mul_ite, mul_one, mul_zero]
  rw [← Finset.sum_filter]
  refine Finset.sum_congr ?_ fun _ _ => rfl
  ext i
  simp only [Finset.mem_filter, Finset.mem_range, Finset.mem_Ico]; omega

theorem weylVector_C (r : ℕ) (k : Fin r) : weylVector ((pairs r (fun i j => e r j + e r i) ++ pairs r (fun i j => e r j - e r i)) ++
      (List.range r).map (fun i => (2 : ℚ) • e r i)) k = r - k := by
  rw [weylVector, vsum_append, vsum_append]
  simp only [Pi.smul_apply, Pi.add_apply, vsum_pairs_add, vsum_pairs_sub, vsum_smul_e, smul_eq_mul]
  ring

theorem weylVector_B (r : ℕ) (k : Fin r) : weylVector ((pairs r (fun i j => e r j + e r i) ++ pairs r (fun i j => e r j - e r i)) ++
      (List.range r).map (fun i => (1 : ℚ) • e r i)) k = r - k - 1 / 2 := by
  rw [weylVector, vsum_append, vsum_append]
  simp only [Pi.smul_apply, Pi.add_apply, vsum_pairs_add, vsum_pairs_sub, vsum_smul_e, smul_eq_mul]
  ring

theorem weylVector_D (r : ℕ) (k : Fin r) : weylVector (pairs r (fun i j => e r i + e r j) ++ pairs r (fun i j => e r j - e r i)) k = r - k - 1 := by
  rw [weylVector, vsum_append]
  simp only [Pi.smul_apply, Pi.add_apply, vsum_pairs_add', vsum_pairs_sub, smul_eq_mul]
  ring

/-! ## Symplectic -/

theorem weylSp_eq (S : List ℤ) : weylSp S = weylBC S.length (spShift S) (fun k => S.length - k) := rfl

theorem dimSP_eq (S : List ℤ) (hr : 2 ≤ S.length) : dimSP S = .ok (SU2.trunc (weylSp S)) := by
  obtain ⟨w, hw, -, hp, hf, -⟩ := rootsC_ok S.length hr
  rw [dimSP, hw]
  simp only [SU2.ok_bind']
  rw [hp, weylDim_BC 2 (by norm_num) _ _ (spShift S) (fun k => S.length - k), weylSp_eq]
  · rfl
  · intro k
    rw [Pi.add_apply, weylVector_C, weights_apply, spShift, hf, ← sum_ite_lt]
    congr 1
    refine Finset.sum_congr rfl fun i hi => ?_
    rw [getD_map_range _ _ _ (Finset.mem_range.1 hi), psum_apply]
  · intro k; exact weylVector_C _ k

theorem getD_nonneg (S : List ℤ) (hS : ∀ s ∈ S, 0 ≤ s) (i : ℕ) : 0 ≤ (S.getD i 0 : ℚ) := by
  rcases Nat.lt_or_ge i S.length with h | h
  · rw [List.getD_eq_getElem _ _ h]
    exact_mod_cast hS _ (List.getElem_mem h)
  · rw [List.getD_eq_default _ _ h]; simp

theorem sum_Ico_le (S : List ℤ) (hS : ∀ s ∈ S, 0 ≤ s) (n i j : ℕ) (h : j ≤ i) :
    ∑ t ∈ Finset.Ico i n, (S.getD t 0 : ℚ) ≤ ∑ t ∈ Finset.Ico j n, (S.getD t 0 : ℚ) :=
  Finset.sum_le_sum_of_subset_of_nonneg (Finset.Ico_subset_Ico_left h) fun t _ _ => getD_nonneg S hS t

theorem int_of_sign (D E : ℤ) (h : E = 1 ∨ E = -1) : ∃ z : ℤ, (D : ℚ) / E = z := by
  rcases h with rfl | rfl
  · exact ⟨D, by rw [Int.cast_one, div_one]⟩
  · exact ⟨-D, by rw [Int.cast_neg, Int.cast_one, div_neg, div_one, ← Int.cast_neg]⟩

theorem weylSp_int (S : List ℤ) : ∃ z : ℤ, weylSp S = z := by
  have h1 : spShift S = fun k => ((∑ i ∈ Finset.Ico k S.length, S.getD i 0 + (S.length - k) : ℤ) : ℚ) := by
    funext k; rw [spShift]; push_cast; rfl
  have h2 : numBC S.length (fun k => (S.length : ℚ) - k) = numBC S.length (fun k => ((((S.length - k : ℕ) : ℤ)) : ℚ)) := by
    have : ∀ i : Fin S.length, (S.length : ℚ) - i = (((S.length - i : ℕ) : ℤ) : ℚ) := by
      intro i
      rw [Int.cast_natCast, Nat.cast_sub i.2.le]
    unfold numBC
    simp only [this]
  have hF : (∏ j : Fin S.length, ((2 * (j : ℕ) + 1).factorial : ℚ)) ≠ 0 :=
    Finset.prod_ne_zero_iff.2 fun j _ => by positivity
  rw [weylSp_eq, weylBC_eq, h1, numBC_int, h2, numBC_int, mul_div_mul_left _ _ hF]
  exact int_of_sign _ _ (detC_rho S.length)

theorem weylSp_pos (S : List ℤ) (hS : ∀ s ∈ S, 0 ≤ s) : 0 < weylSp S := by
  rw [weylSp_eq]
  refine weylBC_pos _ _ _ ?_ ?_ ?_ ?_
  · intro i hi
    have : (i : ℚ) < S.length := by exact_mod_cast hi
    have h2 : 0 ≤ ∑ t ∈ Finset.Ico i S.length, (S.getD t 0 : ℚ) := Finset.sum_nonneg fun t _ => getD_nonneg S hS t
    rw [spShift]; linarith
  · intro i hi
    have : (i : ℚ) < S.length := by exact_mod_cast hi
    linarith
  · intro i hi j hj
    have : (j : ℚ) < i := by exact_mod_cast hj
    have h2 := sum_Ico_le S hS S.length i j hj.le
    rw [spShift, spShift]; linarith
  · intro i hi j hj
    have : (j : ℚ) < i := by exact_mod_cast hj
    linarith

theorem nat_of_int_pos {q : ℚ} (h : ∃ z : ℤ, q = z) (h0 : 0 < q) : ∃ d : ℕ, 1 ≤ d ∧ q = d := by
  obtain ⟨z, rfl⟩ := h
  have hz : 0 < z := by exact_mod_cast h0
  refine ⟨z.toNat, by omega, ?_⟩
  have : ((z.toNat : ℤ) : ℚ) = z := by rw [Int.toNat_of_nonneg hz.le]
  rw [← this, Int.cast_natCast]

/-! ## Odd orthogonal -/

theorem weylSoOdd_eq (S : List ℤ) : weylSoOdd S = weylBC S.length (soOddShift S) (fun k => S.length - k - 1 / 2) := rfl

theorem dimSO_odd (S : List ℤ) (hr : 2 ≤ S.length) (ho : S.length % 2 = 1) : dimSO S = .ok (SU2.trunc (weylSoOdd S)) := by
  obtain ⟨w, hw, -, hp, hf, -⟩ := rootsB_ok S.length hr
  have h1 : (List.range S.length).map (e S.length) = (List.range S.length).map fun i => (1 : ℚ) • e S.length i := by simp
  rw [h1] at hp
  rw [dimSO, rootWeightsSO, if_neg (by omega), hw]
  simp only [SU2.ok_bind']
  rw [hp, weylDim_BC 1 (by norm_num) _ _ (soOddShift S) (fun k => S.length - k - 1 / 2), weylSoOdd_eq]
  · rfl
  · intro k
    rw [Pi.add_apply, weylVector_B, weights_apply, soOddShift, hf]
    congr 1
    have h2 : ∀ i < S.length, (S.getD i 0 : ℚ) * ((List.range S.length).map (fB S.length)).getD i 0 k =
        if i + 1 = S.length then (S.getD i 0 : ℚ) / 2 else (S.getD i 0 : ℚ) * (if k.1 < i + 1 then 1 else 0) := by
      intro i hi
      have := k.2
      rw [getD_map_range _ _ _ hi, fB]
      split_ifs <;> first | omega | simp [psum_apply, *]
      ring
    rw [Finset.sum_congr rfl fun i hi => h2 i (Finset.mem_range.1 hi)]
    obtain ⟨n, hn⟩ : ∃ n, S.length = n + 1 := ⟨S.length - 1, by omega⟩
    generalize (k : ℕ) = κ
    rw [hn, Finset.sum_range_succ, if_pos rfl, Nat.add_sub_cancel, ← sum_ite_lt]
    congr 1
    refine Finset.sum_congr rfl fun i hi => ?_
    rw [if_neg (by rw [Finset.mem_range] at hi; omega)]
  · intro k; exact weylVector_B _ k

theorem weylSoOdd_int (S : List ℤ) : ∃ z : ℤ, weylSoOdd S = z := by
  have hF : (∏ j : Fin S.length, ((2 * (j : ℕ) + 1).factorial : ℚ)) ≠ 0 :=
    Finset.prod_ne_zero_iff.2 fun j _ => by positivity
  have h2r : (2 : ℚ) ^ S.length ≠ 0 := by positivity
  have h2 : numBC S.length (fun k => (S.length : ℚ) - k - 1 / 2) = numBC S.length (fun k => ((((S.length - 1 - k : ℕ) : ℤ)) : ℚ) + 1 / 2) := by
    have : ∀ i : Fin S.length, (S.length : ℚ) - i - 1 / 2 = (((S.length - 1 - i : ℕ) : ℤ) : ℚ) + 1 / 2 := by
      intro i
      have := i.2
      rw [Int.cast_natCast, Nat.cast_sub (by omega), Nat.cast_sub (by omega)]; push_cast; ring
    unfold numBC
    simp only [this]
  have key : ∀ D : ℤ, 2 ^ S.length * numBC S.length (soOddShift S) = (∏ j : Fin S.length, ((2 * (j : ℕ) + 1).factorial : ℚ)) * D →
      ∃ z : ℤ, weylSoOdd S = z := by
    intro D hD
    rw [weylSoOdd_eq, weylBC_eq, ← mul_div_mul_left _ _ h2r, hD, h2, numBC_half, mul_div_mul_left _ _ hF]
    rcases detB_rho S.length with h | h <;> rw [h]
    · exact ⟨D, by rw [Int.cast_one, div_one]⟩
    · exact ⟨-D, by rw [Int.cast_neg, Int.cast_one, div_neg, div_one, ← Int.cast_neg]⟩
  rcases Int.even_or_odd' (S.getD (S.length - 1) 0) with ⟨c, hc | hc⟩
  · have h1 : soOddShift S = fun k => ((∑ i ∈ Finset.Ico k (S.length - 1), S.getD i 0 + c + (S.length - k - 1) : ℤ) : ℚ) + 1 / 2 := by
      funext k; rw [soOddShift, hc]; push_cast; ring
    rw [h1] at key
    exact key _ (numBC_half _ _)
  · have h1 : soOddShift S = fun k => ((∑ i ∈ Finset.Ico k (S.length - 1), S.getD i 0 + c + (S.length - k) : ℤ) : ℚ) := by
      funext k; rw [soOddShift, hc]; push_cast; ring
    rw [h1] at key
    refine key (2 ^ S.length * Matrix.det (Matrix.of fun i j : Fin S.length => Ring.choose
      ((∑ t ∈ Finset.Ico i.1 (S.length - 1), S.getD t 0 + c + (S.length - i.1)) + (j : ℕ)) (2 * (j : ℕ) + 1))) ?_
    rw [numBC_int, Int.cast_mul, Int.cast_pow, mul_left_comm]
    rfl

theorem weylSoOdd_pos (S : List ℤ) (hS : ∀ s ∈ S, 0 ≤ s) : 0 < weylSoOdd S := by
  rw [weylSoOdd_eq]
  have h0 := getD_nonneg S hS (S.length - 1)
  have hc : ∀ i < S.length, (i : ℚ) + 1 ≤ S.length := fun i hi => by exact_mod_cast hi
  refine weylBC_pos _ _ _ ?_ ?_ ?_ ?_
  · intro i hi
    have := hc i hi
    have h2 : 0 ≤ ∑ t ∈ Finset.Ico i (S.length - 1), (S.getD t 0 : ℚ) := Finset.sum_nonneg fun t _ => getD_nonneg S hS t
    rw [soOddShift]; linarith
  · intro i hi
    have := hc i hi
    linarith
  · intro i hi j hj
    have : (j : ℚ) < i := by exact_mod_cast hj
    have h2 := sum_Ico_le S hS (S.length - 1) i j hj.le
    rw [soOddShift, soOddShift]; linarith
  · intro i hi j hj
    have : (j : ℚ) < i := by exact_mod_cast hj
    linarith

/-! ## Even orthogonal -/

/-- The Weyl product of type D. -/
def weylD (r : ℕ) (l ρ : ℕ → ℚ) : ℚ :=
  ∏ i ∈ Finset.range r, ∏ j ∈ Finset.range i, (l j ^ 2 - l i ^ 2) / (ρ j ^ 2 - ρ i ^ 2)

theorem weylDim_D (v w : Fin m → ℚ) (l ρ : ℕ → ℚ) (hl : ∀ k, (v + w) k = l k) (hρ : ∀ k, w k = ρ k) :
    weylDim v (pairs m (fun i j => e m i + e m j) ++ pairs m (fun i j => e m j - e m i)) w = weylD m l ρ := by
  rw [weylDim_append, weylDim_pairs, weylDim_pairs, ← Finset.prod_mul_distrib, weylD]
  refine Finset.prod_congr rfl fun i hi => ?_
  rw [← Finset.prod_mul_distrib]
  refine Finset.prod_congr rfl fun j hj => ?_
  rw [Finset.mem_range] at hi hj
  simp only [dotProduct_sub, dotProduct_add, dot_e _ hi, dot_e _ (hj.trans hi), hl, hρ]
  rw [div_mul_div_comm]
  congr 1 <;> ring

theorem weylD_eq (r : ℕ) (l ρ : ℕ → ℚ) : weylD r l ρ =
    (vandermonde fun i : Fin r => l i ^ 2).det / (vandermonde fun i : Fin r => ρ i ^ 2).det := by
  have h1 : weylD r l ρ =
      ∏ j ∈ Finset.range r, ∏ i ∈ Finset.Ico (j + 1) r, (l i ^ 2 - l j ^ 2) / (ρ i ^ 2 - ρ j ^ 2) := by
    rw [weylD, Finset.prod_comm' (t' := Finset.range r) (s' := fun j => Finset.Ico (j + 1) r)]
    · refine Finset.prod_congr rfl fun i _ => Finset.prod_congr rfl fun j _ => ?_
      rw [← neg_sub (l j ^ 2), ← neg_sub (ρ j ^ 2), neg_div_neg_eq]
    · intro i j
      simp only [Finset.mem_range, Finset.mem_Ico]
      omega
  rw [h1, SUN.prod_pairs_fin r (fun j i => (l i ^ 2 - l j ^ 2) / (ρ i ^ 2 - ρ j ^ 2)), det_vandermonde, det_vandermonde,
    ← Finset.prod_div_distrib]
  refine Finset.prod_congr rfl fun i _ => ?_
  rw [Finset.prod_div_distrib]

theorem vand_det (r : ℕ) (l : ℕ → ℚ) (a : ℕ → ℚ) (f : ℕ → ℚ) (E : Matrix (Fin r) (Fin r) ℤ)
    (h : ∀ i j : Fin r, ∏ t ∈ Finset.range j, (l i ^ 2 - a t) = f j * E i j) :
    (vandermonde fun i : Fin r => l i ^ 2).det = (∏ j : Fin r, f j) * (E.det : ℚ) := by
  have h1 := det_eval_matrixOfPolynomials_eq_det_vandermonde (fun i : Fin r => l i ^ 2) (fun j => qpoly a j)
    (fun j => by simp [qpoly, natDegree_prod_of_monic _ _ (fun t _ => monic_X_sub_C (a t))])
    (fun j => monic_prod_of_monic _ _ fun t _ => monic_X_sub_C (a t))
  have h3 := det_mul_row (fun j : Fin r => f j) (E.map fun z : ℤ => (z : ℚ))
  have h4 : (Matrix.of fun i j : Fin r => (qpoly a j).eval (l i ^ 2)) =
      Matrix.of fun i j : Fin r => f j * (E.map fun z : ℤ => (z : ℚ)) i j := by
    ext i j
    simp only [Matrix.of_apply, qpoly_eval, Matrix.map_apply]
    exact h i j
  have h5 : (E.map fun z : ℤ => (z : ℚ)).det = (E.det : ℚ) := (Int.cast_det E).symm
  rw [h1, ← h5, ← h3, h4]

/-- `2 ∏_{t<j+1} (l² - t²)` as a sum of two binomial coefficients. -/
theorem sq_prod (l : ℤ) (j : ℕ) : 2 * ∏ t ∈ Finset.range (j + 1), (l ^ 2 - (t : ℤ) ^ 2) =
    (2 * (j + 1)).factorial * (Ring.choose (l + (j + 1)) (2 * (j + 1)) + Ring.choose (l + j) (2 * (j + 1))) := by
  have h := odd_prod l j
  rw [← fall_eq] at h
  rw [Finset.prod_range_succ', mul_add, ← fall_eq, ← fall_eq, show 2 * (j + 1) = (2 * j + 1) + 1 by ring,
    ← add_assoc l, fall_shift, Finset.prod_range_succ _ (2 * j + 1), ← h]
  push_cast; ring

/-- Integer matrix of the integral case of type D. -/
noncomputable def matD (r : ℕ) (l : ℕ → ℤ) : Matrix (Fin r) (Fin r) ℤ := Matrix.of fun i j =>
  if j.1 = 0 then 1 else Ring.choose (l i + j.1) (2 * j.1) + Ring.choose (l i + j.1 - 1) (2 * j.1)

theorem vandD_int (r : ℕ) (l : ℕ → ℤ) : (vandermonde fun i : Fin r => (l i : ℚ) ^ 2).det =
    (∏ j : Fin r, (if j.1 = 0 then 1 else ((2 * j.1).factorial : ℚ) / 2)) * ((matD r l).det : ℚ) := by
  refine vand_det r (fun k => (l k : ℚ)) (fun t => (t : ℚ) ^ 2) (fun j => if j = 0 then 1 else ((2 * j).factorial : ℚ) / 2) _ ?_
  intro i j
  rw [matD, Matrix.of_apply]
  rcases hj : j.1 with _ | t
  · simp
  · rw [if_neg (by omega), if_neg (by omega)]
    have h := congrArg (fun z : ℤ => (z : ℚ)) (sq_prod (l i) t)
    push_cast at h
    push_cast
    rw [show l i + ((t : ℤ) + 1) - 1 = l i + t by ring]
    linarith

theorem detD_rho (r : ℕ) : (matD r fun k => ((r - 1 - k : ℕ) : ℤ)).det = 1 ∨ (matD r fun k => ((r - 1 - k : ℕ) : ℤ)).det = -1 := by
  have key : ∀ i : Fin r, (r - 1 - (i.rev : Fin r) : ℕ) = i.1 := by
    intro i
    have := i.2
    rw [Fin.val_rev]; omega
  refine det_rev _ (fun i j h => ?_) fun i => ?_
  · have h' : i.1 < j.1 := h
    rw [matD, Matrix.of_apply, key, if_neg (by omega),
      show ((i.1 : ℕ) : ℤ) + j.1 - 1 = ((i.1 + j.1 - 1 : ℕ) : ℤ) by rw [Nat.cast_sub (by omega)]; push_cast; ring,
      show ((i.1 : ℕ) : ℤ) + (j : ℕ) = ((i.1 + j.1 : ℕ) : ℤ) by push_cast; ring,
      choose_lt (by omega), choose_lt (by omega)]; rfl
  · rw [matD, Matrix.of_apply, key]
    split_ifs with h0
    · rfl
    · rw [show ((i.1 : ℕ) : ℤ) + i.1 - 1 = ((i.1 + i.1 - 1 : ℕ) : ℤ) by rw [Nat.cast_sub (by omega)]; push_cast; ring,
        show ((i.1 : ℕ) : ℤ) + (i : ℕ) = ((2 * i.1 : ℕ) : ℤ) by push_cast; ring,
        choose_self', choose_lt (by omega)]; rfl

theorem vandD_half (r : ℕ) (n : ℕ → ℤ) : (vandermonde fun i : Fin r => ((n i : ℚ) + 1 / 2) ^ 2).det =
    (∏ j : Fin r, ((2 * j.1).factorial : ℚ)) *
      ((Matrix.of fun i j : Fin r => Ring.choose (n i + j.1) (2 * j.1)).det : ℤ) := by
  refine vand_det r (fun k => (n k : ℚ) + 1 / 2) (fun t => ((t : ℚ) + 1 / 2) ^ 2) (fun j => ((2 * j).factorial : ℚ)) _ ?_
  intro i j
  rw [Matrix.of_apply]
  have h := even_prod (n i) j
  rw [fall_eq] at h
  have h := congrArg (fun z : ℤ => (z : ℚ)) h
  push_cast at h
  rw [← h]
  exact Finset.prod_congr rfl fun t _ => by ring

/-- The factors of the two cases differ by a power of 2. -/
theorem factD (r : ℕ) : (∏ j : Fin r, ((2 * j.1).factorial : ℚ)) =
    (2 ^ (r - 1) : ℕ) * ∏ j : Fin r, (if j.1 = 0 then 1 else ((2 * j.1).factorial : ℚ) / 2) := by
  rcases r with _ | r
  · simp
  · rw [Fin.prod_univ_succ, Fin.prod_univ_succ]
    simp only [Fin.val_zero, Fin.val_succ, if_true, Nat.succ_ne_zero, if_false]
    rw [Finset.prod_div_distrib]
    simp
    field_simp

theorem weylD_int (r : ℕ) (l : ℕ → ℚ) (h : (∃ z : ℕ → ℤ, l = fun k => (z k : ℚ)) ∨ ∃ z : ℕ → ℤ, l = fun k => (z k : ℚ) + 1 / 2) :
    ∃ z : ℤ, weylD r l (fun k => r - k - 1) = z := by
  have h2 : (vandermonde fun i : Fin r => ((r : ℚ) - i - 1) ^ 2) = vandermonde fun i : Fin r => ((((r - 1 - i : ℕ) : ℤ)) : ℚ) ^ 2 := by
    congr 1
    funext i
    have := i.2
    rw [Int.cast_natCast, Nat.cast_sub (by omega), Nat.cast_sub (by omega)]; push_cast; ring
  have hF : (∏ j : Fin r, (if j.1 = 0 then 1 else ((2 * j.1).factorial : ℚ) / 2)) ≠ 0 :=
    Finset.prod_ne_zero_iff.2 fun j _ => by split_ifs <;> positivity
  have key : ∀ D : ℤ, (vandermonde fun i : Fin r => l i ^ 2).det =
      (∏ j : Fin r, (if j.1 = 0 then 1 else ((2 * j.1).factorial : ℚ) / 2)) * D → ∃ z : ℤ, weylD r l (fun k => r - k - 1) = z := by
    intro D hD
    rw [weylD_eq, hD, h2, vandD_int r (fun k => ((r - 1 - k : ℕ) : ℤ)), mul_div_mul_left _ _ hF]
    rcases detD_rho r with h | h <;> rw [h]
    · exact ⟨D, by rw [Int.cast_one, div_one]⟩
    · exact ⟨-D, by rw [Int.cast_neg, Int.cast_one, div_neg, div_one, ← Int.cast_neg]⟩
  rcases h with ⟨z, rfl⟩ | ⟨z, rfl⟩
  · exact key _ (vandD_int r z)
  · refine key ((2 ^ (r - 1) : ℕ) * (Matrix.of fun i j : Fin r => Ring.choose (z i + j.1) (2 * j.1)).det) ?_
    rw [vandD_half, factD, Int.cast_mul, Int.cast_natCast]
    rw [mul_comm ((2 ^ (r - 1) : ℕ) : ℚ), mul_assoc]

theorem weylSoEven_eq (S : List ℤ) : weylSoEven S = weylD S.length (soEvenShift S) (fun k => S.length - k - 1) := rfl

theorem weylSoEven_int (S : List ℤ) : ∃ z : ℤ, weylSoEven S = z := by
  rw [weylSoEven_eq]
  refine weylD_int _ _ ?_
  rcases Int.even_or_odd' (S.getD (S.length - 1) 0 - S.getD (S.length - 2) 0) with ⟨c, hc | hc⟩
  · left
    refine ⟨fun k => ∑ i ∈ Finset.Ico k (S.length - 2), S.getD i 0 +
      (if k = S.length - 1 then c else c + S.getD (S.length - 2) 0) + (S.length - k - 1), ?_⟩
    have hc' := congrArg (fun z : ℤ => (z : ℚ)) hc
    push_cast at hc'
    funext k; dsimp only; rw [soEvenShift]
    split_ifs
    · rw [hc']; push_cast; ring
    · rw [show (S.getD (S.length - 1) 0 : ℚ) + S.getD (S.length - 2) 0 = 2 * c + 2 * S.getD (S.length - 2) 0 by linarith]
      push_cast; ring
  · right
    refine ⟨fun k => ∑ i ∈ Finset.Ico k (S.length - 2), S.getD i 0 +
      (if k = S.length - 1 then c else c + S.getD (S.length - 2) 0) + (S.length - k - 1), ?_⟩
    have hc' := congrArg (fun z : ℤ => (z : ℚ)) hc
    push_cast at hc'
    funext k; dsimp only; rw [soEvenShift]
    split_ifs
    · rw [hc']; push_cast; ring
    · rw [show (S.getD (S.length - 1) 0 : ℚ) + S.getD (S.length - 2) 0 = 2 * c + 1 + 2 * S.getD (S.length - 2) 0 by linarith]
      push_cast; ring

theorem weylSoEven_pos (S : List ℤ) (hS : ∀ s ∈ S, 0 ≤ s) (hr : 2 ≤ S.length) : 0 < weylSoEven S := by
  rw [weylSoEven]
  have hn : ∀ i, 0 ≤ (S.getD i 0 : ℚ) := getD_nonneg S hS
  refine Finset.prod_pos fun i hi => Finset.prod_pos fun j hj => ?_
  rw [Finset.mem_range] at hi hj
  have hij : (j : ℚ) + 1 ≤ i := by exact_mod_cast hj
  have hic : (i : ℚ) + 1 ≤ S.length := by exact_mod_cast hi
  have h2 := sum_Ico_le S hS (S.length - 2) i j hj.le
  have h3 : 0 ≤ ∑ t ∈ Finset.Ico i (S.length - 2), (S.getD t 0 : ℚ) := Finset.sum_nonneg fun t _ => hn t
  have h5 := hn (S.length - 1)
  have h6 := hn (S.length - 2)
  refine div_pos ?_ (by nlinarith)
  have h4 : soEvenShift S i < soEvenShift S j ∧ -soEvenShift S i < soEvenShift S j := by
    rw [soEvenShift, soEvenShift, if_neg (show ¬ j = S.length - 1 by omega)]
    split_ifs <;> constructor <;> linarith
  nlinarith [h4.1, h4.2]

theorem fund_D (r : ℕ) (w : RW r) (hf : 3 ≤ r → w.fund = (List.range (r - 1)).map (fD r) ++ ((List.range (r - 2)).map (fD r) ++ [fD r (r - 1)]))
    (hr : 3 ≤ r) (i : ℕ) (hi : i < r) : w.fund.getD i 0 = if i = r - 1 then fD r 0 else fD r i := by
  rw [hf hr]
  split_ifs with h
  · rw [List.getD_append_right _ _ _ _ (by simp; omega)]
    simp only [List.length_map, List.length_range]
    rw [h, Nat.sub_self, List.getD_append _ _ _ _ (by simp; omega), getD_map_range _ _ _ (by omega)]
  · rw [List.getD_append _ _ _ _ (by simp; omega), getD_map_range _ _ _ (by omega)]

end LieNN.Roots
