import Verif.Proofs.RootsDim2
/-! # Dimensions of the smallest irreps of the symplectic and orthogonal algebras -/
namespace LieNN.Roots

open LieNN.Spec

/-- Telescoping product of the defining representation of type C. -/
theorem tele_C (r : ℕ) (n : ℕ) (hn : n < r) :
    ∏ t ∈ Finset.range n, (((r : ℚ) + 1) ^ 2 - (t + 1) ^ 2) / ((r : ℚ) ^ 2 - (t + 1) ^ 2) =
      ((r : ℚ) * (r + 1 + n) / ((r - n) * (r + 1)) : ℚ) := by
  induction n with
  | zero =>
    have : (r : ℚ) ≠ 0 := by exact_mod_cast (by omega : r ≠ 0)
    simp; field_simp
  | succ n ih =>
    have h1 : (r : ℚ) - n ≠ 0 := by rw [sub_ne_zero]; exact_mod_cast (by omega : r ≠ n)
    have h2 : (r : ℚ) - (n + 1) ≠ 0 := by rw [sub_ne_zero]; exact_mod_cast (by omega : r ≠ n + 1)
    have h3 : (r : ℚ) + (n + 1) ≠ 0 := by positivity
    have h4 : (r : ℚ) ^ 2 - (n + 1) ^ 2 ≠ 0 := by rw [sq_sub_sq]; exact mul_ne_zero h3 h2
    rw [Finset.prod_range_succ, ih (by omega)]
    push_cast
    field_simp
    ring

theorem tele_C2 (r : ℕ) (n : ℕ) (hn : n < r) :
    ∏ t ∈ Finset.range n, (((r : ℚ) + 2) ^ 2 - (t + 1) ^ 2) / ((r : ℚ) ^ 2 - (t + 1) ^ 2) =
      ((r : ℚ) * (r + 1 + n) * (r + 2 + n) / ((r - n) * (r + 1 - n) * (r + 2)) : ℚ) := by
  induction n with
  | zero =>
    have : (r : ℚ) ≠ 0 := by exact_mod_cast (by omega : r ≠ 0)
    have : (r : ℚ) + 1 ≠ 0 := by positivity
    simp; field_simp
  | succ n ih =>
    have h1 : (r : ℚ) - n ≠ 0 := by rw [sub_ne_zero]; exact_mod_cast (by omega : r ≠ n)
    have h2 : (r : ℚ) - (n + 1) ≠ 0 := by rw [sub_ne_zero]; exact_mod_cast (by omega : r ≠ n + 1)
    have h5 : (r : ℚ) + 1 - n ≠ 0 := by rw [sub_ne_zero]; exact_mod_cast (by omega : r + 1 ≠ n)
    have h6 : (r : ℚ) + 1 - (n + 1) ≠ 0 := by rw [sub_ne_zero]; exact_mod_cast (by omega : r + 1 ≠ n + 1)
    have h3 : (r : ℚ) + (n + 1) ≠ 0 := by positivity
    have h4 : (r : ℚ) ^ 2 - (n + 1) ^ 2 ≠ 0 := by rw [sq_sub_sq]; exact mul_ne_zero h3 h2
    rw [Finset.prod_range_succ, ih (by omega)]
    push_cast
    field_simp
    ring

theorem tele_B (r : ℕ) (n : ℕ) (hn : n < r) :
    ∏ t ∈ Finset.range n, (((r : ℚ) + 1 / 2) ^ 2 - (t + 1 / 2) ^ 2) / (((r : ℚ) - 1 / 2) ^ 2 - (t + 1 / 2) ^ 2) =
      (((r : ℚ) + n) / (r - n) : ℚ) := by
  induction n with
  | zero =>
    have : (r : ℚ) ≠ 0 := by exact_mod_cast (by omega : r ≠ 0)
    simp; field_simp
  | succ n ih =>
    have h1 : (r : ℚ) - n ≠ 0 := by rw [sub_ne_zero]; exact_mod_cast (by omega : r ≠ n)
    have h2 : (r : ℚ) - (n + 1) ≠ 0 := by rw [sub_ne_zero]; exact_mod_cast (by omega : r ≠ n + 1)
    have h3 : (r : ℚ) + n ≠ 0 := by
      have : (0 : ℚ) < r := by exact_mod_cast (by omega : 0 < r)
      positivity
    have h4 : ((r : ℚ) - 1 / 2) ^ 2 - (n + 1 / 2) ^ 2 = (r + n) * (r - (n + 1)) := by ring
    rw [Finset.prod_range_succ, ih (by omega), h4]
    push_cast
    field_simp
    ring

theorem tele_D (r : ℕ) (n : ℕ) (hn : n < r) (hr : 2 ≤ r) :
    ∏ t ∈ Finset.range n, ((r : ℚ) ^ 2 - (t : ℚ) ^ 2) / (((r : ℚ) - 1) ^ 2 - (t : ℚ) ^ 2) =
      ((r : ℚ) * (r - 1 + n) / ((r - n) * (r - 1)) : ℚ) := by
  have h0 : (r : ℚ) - 1 ≠ 0 := by rw [sub_ne_zero]; exact_mod_cast (by omega : r ≠ 1)
  induction n with
  | zero =>
    have : (r : ℚ) ≠ 0 := by exact_mod_cast (by omega : r ≠ 0)
    simp; field_simp
  | succ n ih =>
    have h1 : (r : ℚ) - n ≠ 0 := by rw [sub_ne_zero]; exact_mod_cast (by omega : r ≠ n)
    have h2 : (r : ℚ) - (n + 1) ≠ 0 := by rw [sub_ne_zero]; exact_mod_cast (by omega : r ≠ n + 1)
    have h3 : (r : ℚ) - 1 + n ≠ 0 := by
      have : (2 : ℚ) ≤ r := by exact_mod_cast hr
      have : (0 : ℚ) ≤ n := by positivity
      intro h; linarith
    have h4 : ((r : ℚ) - 1) ^ 2 - (n : ℚ) ^ 2 = (r - 1 + n) * (r - (n + 1)) := by ring
    rw [Finset.prod_range_succ, ih (by omega), h4]
    push_cast
    field_simp
    ring

/-- Only the pairs with first member 0 contribute. -/
theorem prod_first (r : ℕ) (F : ℕ → ℕ → ℚ) (h : ∀ j i, 1 ≤ j → j < i → i < r → F j i = 1) :
    ∏ i ∈ Finset.range r, ∏ j ∈ Finset.range i, F j i = ∏ i ∈ Finset.range (r - 1), F 0 (i + 1) := by
  rcases r with _ | r
  · simp
  · rw [Finset.prod_range_succ']
    simp only [Finset.range_zero, Finset.prod_empty, mul_one, Nat.add_sub_cancel]
    refine Finset.prod_congr rfl fun i hi => ?_
    rw [Finset.prod_range_succ', Finset.prod_eq_one, one_mul]
    intro j hj
    rw [Finset.mem_range] at hi hj
    exact h _ _ (by omega) (by omega) (by omega)

/-- A weight differing from zero in the first coordinate only. -/
theorem weylD_first (r : ℕ) (hr : 1 ≤ r) (l ρ : ℕ → ℚ) (h : ∀ i, 1 ≤ i → i < r → l i = ρ i)
    (hρ : ∀ j i, j < i → i < r → ρ j ^ 2 - ρ i ^ 2 ≠ 0) :
    ∏ i ∈ Finset.range r, ∏ j ∈ Finset.range i, (l j ^ 2 - l i ^ 2) / (ρ j ^ 2 - ρ i ^ 2) =
      ∏ t ∈ Finset.range (r - 1), (l 0 ^ 2 - ρ (r - 1 - t) ^ 2) / (ρ 0 ^ 2 - ρ (r - 1 - t) ^ 2) := by
  rw [prod_first r (fun j i => (l j ^ 2 - l i ^ 2) / (ρ j ^ 2 - ρ i ^ 2)), ← Finset.prod_range_reflect]
  · refine Finset.prod_congr rfl fun t ht => ?_
    rw [Finset.mem_range] at ht
    rw [show r - 1 - 1 - t + 1 = r - 1 - t by omega, h (r - 1 - t) (by omega) (by omega)]
  · intro j i hj hji hi
    rw [h j hj (by omega), h i (by omega) hi]
    exact div_self (hρ j i hji hi)

theorem prod_first1 (r : ℕ) (hr : 1 ≤ r) (l ρ : ℕ → ℚ) (h : ∀ i, 1 ≤ i → i < r → l i = ρ i)
    (hρ : ∀ i < r, ρ i ≠ 0) : ∏ i ∈ Finset.range r, l i / ρ i = l 0 / ρ 0 := by
  obtain ⟨n, rfl⟩ : ∃ n, r = n + 1 := ⟨r - 1, by omega⟩
  rw [Finset.prod_range_succ', Finset.prod_eq_one, one_mul]
  intro i hi
  rw [Finset.mem_range] at hi
  rw [h _ (by omega) (by omega), div_self (hρ _ (by omega))]

theorem sq_ne (x y : ℚ) (h : y < x) (h0 : 0 ≤ y) : x ^ 2 - y ^ 2 ≠ 0 := by
  have : 0 < x ^ 2 - y ^ 2 := by nlinarith
  exact this.ne'

theorem zero_getD (n i : ℕ) : (List.replicate n (0 : ℤ)).getD i 0 = 0 := by
  rcases Nat.lt_or_ge i n with h | h
  · rw [List.getD_eq_getElem _ _ (by simpa using h), List.getElem_replicate]
  · rw [List.getD_eq_default _ _ (by simpa using h)]

theorem getD_first (a : ℤ) (n i : ℕ) : (a :: List.replicate n 0).getD i 0 = if i = 0 then a else 0 := by
  rcases i with _ | i
  · simp
  · rw [List.getD_cons_succ, if_neg (by omega), zero_getD]

theorem sum_first (a : ℤ) (n k N : ℕ) (hN : 1 ≤ N) : ∑ i ∈ Finset.Ico k N, (((a :: List.replicate n 0).getD i 0 : ℤ) : ℚ) =
    if k = 0 then (a : ℚ) else 0 := by
  simp only [getD_first]
  split_ifs with h
  · subst h
    rw [Finset.sum_eq_sum_Ico_succ_bot (by omega), Finset.sum_eq_zero]
    · simp
    · intro i hi
      rw [Finset.mem_Ico] at hi
      rw [if_neg (by omega)]; simp
  · refine Finset.sum_eq_zero fun i hi => ?_
    rw [Finset.mem_Ico] at hi
    rw [if_neg (by omega)]; simp

theorem spShift_first (a : ℤ) (n k : ℕ) : spShift (a :: List.replicate n 0) k = (if k = 0 then (a : ℚ) else 0) + (n + 1 - k) := by
  rw [spShift, sum_first _ _ _ _ (by simp)]; simp

theorem rho_C_ne (r : ℕ) (j i : ℕ) (hji : j < i) (hi : i < r) : ((r : ℚ) - j) ^ 2 - (r - i) ^ 2 ≠ 0 := by
  have h1 : (j : ℚ) < i := by exact_mod_cast hji
  have h2 : (i : ℚ) < r := by exact_mod_cast hi
  exact sq_ne _ _ (by linarith) (by linarith)

theorem rho_B_ne (r : ℕ) (j i : ℕ) (hji : j < i) (hi : i < r) : ((r : ℚ) - j - 1 / 2) ^ 2 - (r - i - 1 / 2) ^ 2 ≠ 0 := by
  have h1 : (j : ℚ) < i := by exact_mod_cast hji
  have h2 : (i : ℚ) + 1 ≤ r := by exact_mod_cast hi
  exact sq_ne _ _ (by linarith) (by linarith)

theorem rho_D_ne (r : ℕ) (j i : ℕ) (hji : j < i) (hi : i < r) : ((r : ℚ) - j - 1) ^ 2 - (r - i - 1) ^ 2 ≠ 0 := by
  have h1 : (j : ℚ) < i := by exact_mod_cast hji
  have h2 : (i : ℚ) + 1 ≤ r := by exact_mod_cast hi
  exact sq_ne _ _ (by linarith) (by linarith)

theorem weylSp_first (a : ℤ) (n : ℕ) : weylSp (a :: List.replicate n 0) =
    (∏ t ∈ Finset.range n, (((n + 1 : ℕ) + a : ℚ) ^ 2 - (t + 1) ^ 2) / (((n + 1 : ℕ) : ℚ) ^ 2 - (t + 1) ^ 2)) *
      (((n + 1 : ℕ) + a : ℚ) / (n + 1 : ℕ)) := by
  have hl : (a :: List.replicate n 0).length = n + 1 := by simp
  rw [weylSp, hl]
  have e1 : ∀ i, 1 ≤ i → i < n + 1 → spShift (a :: List.replicate n 0) i = ((n + 1 : ℕ) : ℚ) - i := by
    intro i h1 _
    rw [spShift_first, if_neg (by omega)]; push_cast; ring
  rw [weylD_first (n + 1) (by omega) (spShift (a :: List.replicate n 0)) (fun i => ((n + 1 : ℕ) : ℚ) - i) e1 (rho_C_ne _),
    prod_first1 (n + 1) (by omega) (spShift (a :: List.replicate n 0)) (fun i => ((n + 1 : ℕ) : ℚ) - i) e1]
  · congr 1
    · refine Finset.prod_congr (by simp) fun t ht => ?_
      rw [Finset.mem_range] at ht
      rw [spShift_first, if_pos rfl, Nat.cast_sub (by omega)]
      push_cast
      congr 1 <;> ring
    · rw [spShift_first, if_pos rfl]; push_cast
      congr 1 <;> ring
  · intro i hi
    rw [sub_ne_zero]; exact_mod_cast hi.ne'

theorem soOddShift_first (a : ℤ) (n k : ℕ) (hn : 1 ≤ n) :
    soOddShift (a :: List.replicate n 0) k = (if k = 0 then (a : ℚ) else 0) + (n + 1 - k - 1 / 2) := by
  rw [soOddShift, sum_first _ _ _ _ (by simp; omega), getD_first, if_neg (show ¬ (a :: List.replicate n 0).length - 1 = 0 by simp; omega)]; simp

theorem weylSoOdd_first (a : ℤ) (n : ℕ) (hn : 1 ≤ n) : weylSoOdd (a :: List.replicate n 0) =
    (∏ t ∈ Finset.range n, (((n + 1 : ℕ) + a - 1 / 2 : ℚ) ^ 2 - (t + 1 / 2) ^ 2) / ((((n + 1 : ℕ) : ℚ) - 1 / 2) ^ 2 - (t + 1 / 2) ^ 2)) *
      (((n + 1 : ℕ) + a - 1 / 2 : ℚ) / ((n + 1 : ℕ) - 1 / 2)) := by
  have hl : (a :: List.replicate n 0).length = n + 1 := by simp
  rw [weylSoOdd, hl]
  have e1 : ∀ i, 1 ≤ i → i < n + 1 → soOddShift (a :: List.replicate n 0) i = ((n + 1 : ℕ) : ℚ) - i - 1 / 2 := by
    intro i h1 _
    rw [soOddShift_first _ _ _ hn, if_neg (by omega)]; push_cast; ring
  rw [weylD_first (n + 1) (by omega) (soOddShift (a :: List.replicate n 0)) (fun i => ((n + 1 : ℕ) : ℚ) - i - 1 / 2) e1 (rho_B_ne _),
    prod_first1 (n + 1) (by omega) (soOddShift (a :: List.replicate n 0)) (fun i => ((n + 1 : ℕ) : ℚ) - i - 1 / 2) e1]
  · congr 1
    · refine Finset.prod_congr (by simp) fun t ht => ?_
      rw [Finset.mem_range] at ht
      rw [soOddShift_first _ _ _ hn, if_pos rfl, Nat.cast_sub (by omega)]
      push_cast
      congr 1 <;> ring
    · rw [soOddShift_first _ _ _ hn, if_pos rfl]; push_cast
      congr 1 <;> ring
  · intro i hi
    have : (i : ℚ) + 1 ≤ (n + 1 : ℕ) := by exact_mod_cast hi
    intro h; linarith

theorem soEvenShift_first (a : ℤ) (n k : ℕ) (hn : 2 ≤ n) :
    soEvenShift (a :: List.replicate n 0) k = (if k = 0 then (a : ℚ) else 0) + (n + 1 - k - 1) := by
  rw [soEvenShift, sum_first _ _ _ _ (by simp; omega), getD_first, getD_first, if_neg (show ¬ (a :: List.replicate n 0).length - 1 = 0 by simp; omega),
    if_neg (show ¬ (a :: List.replicate n 0).length - 2 = 0 by simp; omega)]; simp

theorem weylSoEven_first (a : ℤ) (n : ℕ) (hn : 2 ≤ n) : weylSoEven (a :: List.replicate n 0) =
    ∏ t ∈ Finset.range n, (((n + 1 : ℕ) + a - 1 : ℚ) ^ 2 - (t : ℚ) ^ 2) / ((((n + 1 : ℕ) : ℚ) - 1) ^ 2 - (t : ℚ) ^ 2) := by
  have hl : (a :: List.replicate n 0).length = n + 1 := by simp
  rw [weylSoEven, hl]
  have e1 : ∀ i, 1 ≤ i → i < n + 1 → soEvenShift (a :: List.replicate n 0) i = ((n + 1 : ℕ) : ℚ) - i - 1 := by
    intro i h1 _
    rw [soEvenShift_first _ _ _ hn, if_neg (by omega)]; push_cast; ring
  rw [weylD_first (n + 1) (by omega) (soEvenShift (a :: List.replicate n 0)) (fun i => ((n + 1 : ℕ) : ℚ) - i - 1) e1 (rho_D_ne _)]
  refine Finset.prod_congr (by simp) fun t ht => ?_
  rw [Finset.mem_range] at ht
  rw [soEvenShift_first _ _ _ hn, if_pos rfl, Nat.cast_sub (by omega)]
  push_cast
  congr 1 <;> ring

/-! ## The spinor of SO(2 r + 1) -/

theorem tele_spin (d : ℕ) (n : ℕ) (hn : n ≤ d) (hd : 1 ≤ d) :
    ∏ t ∈ Finset.range n, (2 * (d : ℚ) - t) / (2 * d - t - 1) = ((2 * (d : ℚ)) / (2 * d - n) : ℚ) := by
  have hd' : (1 : ℚ) ≤ d := by exact_mod_cast hd
  induction n with
  | zero => simp; field_simp
  | succ n ih =>
    have : (n : ℚ) + 1 ≤ d := by exact_mod_cast hn
    have h1 : 2 * (d : ℚ) - n ≠ 0 := by intro h; linarith
    have h2 : 2 * (d : ℚ) - n - 1 ≠ 0 := by intro h; linarith
    have h3 : 2 * (d : ℚ) - (n + 1) ≠ 0 := by intro h; linarith
    rw [Finset.prod_range_succ, ih (by omega)]
    push_cast
    field_simp
    ring

theorem soOddShift_spin (n k : ℕ) (hk : k < n + 1) :
    soOddShift (List.replicate n 0 ++ [1]) k = (n + 1 - k) := by
  have h : ∀ i, i < n → (List.replicate n (0 : ℤ) ++ [1]).getD i 0 = 0 := by
    intro i hi
    rw [List.getD_append _ _ _ _ (by simpa using hi), zero_getD]
  have h2 : (List.replicate n (0 : ℤ) ++ [1]).getD n 0 = 1 := by
    rw [List.getD_append_right _ _ _ _ (by simp)]; simp
  have hl : (List.replicate n (0 : ℤ) ++ [1]).length = n + 1 := by simp
  rw [soOddShift, hl, Nat.add_sub_cancel, h2, Finset.sum_eq_zero]
  · push_cast; ring
  · intro i hi
    rw [Finset.mem_Ico] at hi
    rw [h i hi.2]; simp

theorem weylSoOdd_spin (n : ℕ) : weylSoOdd (List.replicate n 0 ++ [1]) = 2 ^ (n + 1) := by
  have hl : (List.replicate n (0 : ℤ) ++ [1]).length = n + 1 := by simp
  set g : ℕ → ℕ → ℚ := fun j i => (2 * ((n + 1 : ℕ) : ℚ) - i - j) / (2 * ((n + 1 : ℕ) : ℚ) - i - j - 1) with hg
  have h1 : weylSoOdd (List.replicate n 0 ++ [1]) = (∏ i ∈ Finset.range (n + 1), ∏ j ∈ Finset.range i, g j i) * ∏ i ∈ Finset.range (n + 1), g i i := by
    rw [weylSoOdd, hl]
    congr 1
    · refine Finset.prod_congr rfl fun i hi => Finset.prod_congr rfl fun j hj => ?_
      rw [Finset.mem_range] at hi hj
      have h1 : (j : ℚ) < i := by exact_mod_cast hj
      rw [soOddShift_spin _ _ hi, soOddShift_spin _ _ (by omega)]
      rw [show (((n : ℚ) + 1 - j) ^ 2 - (n + 1 - i) ^ 2) = (i - j) * (2 * ((n + 1 : ℕ) : ℚ) - i - j) by push_cast; ring,
        show ((((n + 1 : ℕ) : ℚ) - j - 1 / 2) ^ 2 - ((n + 1 : ℕ) - i - 1 / 2) ^ 2) = (i - j) * (2 * ((n + 1 : ℕ) : ℚ) - i - j - 1) by ring,
        mul_div_mul_left _ _ (by linarith)]
    · refine Finset.prod_congr rfl fun i hi => ?_
      rw [Finset.mem_range] at hi
      rw [soOddShift_spin _ _ hi]
      simp only [hg]
      rw [show (2 * ((n + 1 : ℕ) : ℚ) - i - i) = 2 * (n + 1 - i) by push_cast; ring,
        show (2 * ((n : ℚ) + 1 - i) - 1) = 2 * ((n + 1 : ℕ) - i - 1 / 2) by push_cast; ring, mul_div_mul_left _ _ (by norm_num)]
  have h2 : ∏ i ∈ Finset.range (n + 1), ∏ j ∈ Finset.range i, g j i = ∏ j ∈ Finset.range (n + 1), ∏ i ∈ Finset.Ico (j + 1) (n + 1), g j i := by
    refine Finset.prod_comm' ?_
    intro i j
    simp only [Finset.mem_range, Finset.mem_Ico]; omega
  rw [h1, h2, ← Finset.prod_mul_distrib]
  rw [show (2 : ℚ) ^ (n + 1) = ∏ _j ∈ Finset.range (n + 1), (2 : ℚ) by simp]
  refine Finset.prod_congr rfl fun j hj => ?_
  rw [Finset.mem_range] at hj
  rw [mul_comm, ← Finset.prod_eq_prod_Ico_succ_bot hj, Finset.prod_Ico_eq_prod_range]
  have h3 := tele_spin (n + 1 - j) (n + 1 - j) le_rfl (by omega)
  rw [Finset.prod_congr (g := fun t : ℕ => (2 * ((n + 1 - j : ℕ) : ℚ) - t) / (2 * (n + 1 - j : ℕ) - t - 1)) rfl, h3]
  · have : ((n + 1 - j : ℕ) : ℚ) ≠ 0 := by exact_mod_cast (by omega : n + 1 - j ≠ 0)
    rw [show 2 * ((n + 1 - j : ℕ) : ℚ) - (n + 1 - j : ℕ) = (n + 1 - j : ℕ) by ring, mul_div_assoc, div_self this, mul_one]
  · intro t _
    rw [hg, Nat.cast_sub hj.le]
    push_cast
    congr 1 <;> ring

end LieNN.Roots
