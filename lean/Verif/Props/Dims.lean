import Verif.Proofs.RootsDim3
/-! # C67: dimensions of the symplectic and orthogonal irreps -/
namespace LieNN.Props

open LieNN.Spec Roots

/-- C67: for every tuple of at least two non-negative Dynkin labels, `SPN.dim` is Weyl's dimension of the
Sp(2 r) irrep with these labels; the product of fractions is an exact positive integer, so `int(...)` rounds
nothing. -/
theorem C67_sp_dim (S : List ℤ) (hr : 2 ≤ S.length) (hS : ∀ s ∈ S, 0 ≤ s) :
    ∃ d : ℕ, 1 ≤ d ∧ dimSP S = .ok (d : ℤ) ∧ weylSp S = d := by
  obtain ⟨d, h1, h2⟩ := nat_of_int_pos (weylSp_int S) (weylSp_pos S hS)
  exact ⟨d, h1, by rw [dimSP_eq S hr, SU2Real.trunc_nat h2], h2⟩

/-- C67: for an odd number (at least three) of labels, `SON.dim` is Weyl's dimension of the SO(2 r + 1) irrep. -/
theorem C67_so_odd_dim (S : List ℤ) (hr : 2 ≤ S.length) (ho : S.length % 2 = 1) (hS : ∀ s ∈ S, 0 ≤ s) :
    ∃ d : ℕ, 1 ≤ d ∧ dimSO S = .ok (d : ℤ) ∧ weylSoOdd S = d := by
  obtain ⟨d, h1, h2⟩ := nat_of_int_pos (weylSoOdd_int S) (weylSoOdd_pos S hS)
  exact ⟨d, h1, by rw [dimSO_odd S hr ho, SU2Real.trunc_nat h2], h2⟩

/-- C67, what holds for an even number (at least four) of labels: `SON.dim` is Weyl's dimension of another SO(2 r)
irrep, the one whose first label is the sum of the first and the last label given and whose last label is zero.
(The claim for SO(2 r) would have the labels as given; `C67_so_even_wrong` refutes it.) -/
theorem C67_so_even_dim (a z : ℤ) (M : List ℤ) (hr : 2 ≤ M.length) (he : M.length % 2 = 0)
    (hS : ∀ s ∈ a :: (M ++ [z]), 0 ≤ s) :
    ∃ d : ℕ, 1 ≤ d ∧ dimSO (a :: (M ++ [z])) = .ok (d : ℤ) ∧ weylSoEven ((a + z) :: (M ++ [0])) = d := by
  have ha : 0 ≤ a := hS a (by simp)
  have hz : 0 ≤ z := hS z (by simp)
  have hS' : ∀ s ∈ (a + z) :: (M ++ [0]), 0 ≤ s := by
    intro s hs
    simp only [List.mem_cons, List.mem_append, List.not_mem_nil, or_false] at hs
    rcases hs with rfl | hs | rfl
    · omega
    · exact hS s (by simp [hs])
    · exact le_rfl
  obtain ⟨d, h1, h2⟩ := nat_of_int_pos (weylSoEven_int ((a + z) :: (M ++ [0]))) (weylSoEven_pos _ hS' (by simp))
  refine ⟨d, h1, ?_, h2⟩
  have hlen : (a :: (M ++ [z])).length = M.length + 2 := by simp
  have hlen' : ((a + z) :: (M ++ [0])).length = M.length + 2 := by simp
  obtain ⟨w, hw, -, hp, -, -, hf⟩ := rootsD_ok (M.length + 2) (by omega)
  have key : weylDim (weights (a :: (M ++ [z])) w.fund) w.pos (weylVector w.pos) = d := by
    rw [← h2, weylSoEven_eq, hlen', hp]
    refine weylDim_D _ _ _ _ (fun k => ?_) fun k => weylVector_D _ k
    rw [Pi.add_apply, weylVector_D, weights_apply, soEvenShift, hlen, hlen']
    congr 1
    have hk := k.2
    rw [Finset.sum_congr rfl fun i hi => by rw [fund_D _ w hf (by omega) i (Finset.mem_range.1 hi)]]
    have g1 : ∀ i, i < M.length → (a :: (M ++ [z])).getD (i + 1) 0 = M.getD i 0 := by
      intro i hi
      rw [List.getD_cons_succ, List.getD_append _ _ _ _ hi]
    have g1' : ∀ i, i < M.length → ((a + z) :: (M ++ [0])).getD (i + 1) 0 = M.getD i 0 := by
      intro i hi
      rw [List.getD_cons_succ, List.getD_append _ _ _ _ hi]
    have g2 : (a :: (M ++ [z])).getD (M.length + 1) 0 = z := by
      rw [List.getD_cons_succ, List.getD_append_right _ _ _ _ le_rfl]; simp
    have g2' : ((a + z) :: (M ++ [0])).getD (M.length + 1) 0 = 0 := by
      rw [List.getD_cons_succ, List.getD_append_right _ _ _ _ le_rfl]; simp
    obtain ⟨n, hn⟩ : ∃ n, M.length = n + 1 := ⟨M.length - 1, by omega⟩
    have s1 : M.length + 2 - 1 = M.length + 1 := by omega
    have s2 : M.length + 2 - 2 = M.length := by omega
    rw [s1, s2, Finset.sum_range_succ, Finset.sum_range_succ, g2, g2', if_pos rfl, if_neg (by omega)]
    have e1 : ∀ i < M.length, fD (M.length + 2) i k = if k.1 < i + 1 then 1 else 0 := by
      intro i hi
      rw [fD, if_pos (by omega), psum_apply]
    have e2 : fD (M.length + 2) M.length k = if k.1 = M.length + 1 then -1 / 2 else 1 / 2 := by
      rw [fD, if_neg (by omega), if_pos (by omega)]
      simp only [Pi.sub_apply, Pi.smul_apply, psum_apply, e, smul_eq_mul]
      split_ifs <;> first | omega | norm_num
    rw [Finset.sum_congr rfl fun i hi => by rw [if_neg (by rw [Finset.mem_range] at hi; omega), e1 i (Finset.mem_range.1 hi)],
      e1 0 (by omega), e2, ← sum_ite_lt]
    generalize (k : ℕ) = κ at hk
    have t : ∀ L : List ℤ, (∀ i, i < M.length → L.getD (i + 1) 0 = M.getD i 0) →
        (∑ i ∈ Finset.range (n + 1), ((L.getD i 0 : ℤ) : ℚ) * if κ < i + 1 then 1 else 0) =
        (∑ i ∈ Finset.range n, ((M.getD i 0 : ℤ) : ℚ) * if κ < i + 1 + 1 then 1 else 0) + ((L.getD 0 0 : ℤ) : ℚ) * if κ < 0 + 1 then 1 else 0 := by
      intro L hL
      rw [Finset.sum_range_succ']
      congr 1
      refine Finset.sum_congr rfl fun i hi => ?_
      rw [hL i (by rw [Finset.mem_range] at hi; omega)]
    rw [hn]
    rw [t _ g1, t _ g1', g1 n (by omega), g1' n (by omega)]
    simp only [List.getD_cons_zero]
    split_ifs <;> first | omega | (push_cast; ring)
  rw [dimSO, hlen, rootWeightsSO, if_pos (by omega), hw]
  simp only [SU2.ok_bind']
  rw [SU2Real.trunc_nat key]
  rfl

/-- C67: two labels: `SON.dim` is the dimension of SO(4) = (SU(2) × SU(2))/±1. -/
theorem C67_so4_dim (a b : ℤ) (ha : 0 ≤ a) (hb : 0 ≤ b) : dimSO [a, b] = .ok ((a + 1) * (b + 1)) := by
  obtain ⟨w, hw, -, hp, -, hf, -⟩ := rootsD_ok 2 le_rfl
  have key : weylDim (weights [a, b] w.fund) w.pos (weylVector w.pos) = ((a + 1) * (b + 1)).toNat := by
    rw [hp, weylDim_D _ _ (fun k => if k = 0 then (a + b + 2 : ℚ) / 2 else (b - a : ℚ) / 2) (fun k => 2 - k - 1) ?_ fun k => weylVector_D _ k]
    · have h0 : 0 ≤ (a + 1) * (b + 1) := by positivity
      have : ((((a + 1) * (b + 1)).toNat : ℤ) : ℚ) = ((a + 1) * (b + 1) : ℤ) := by rw [Int.toNat_of_nonneg h0]
      rw [← Int.cast_natCast, this]
      simp [weylD, Finset.prod_range_succ]
      ring
    · intro k
      rw [Pi.add_apply, weylVector_D, weights_apply, hf rfl]
      fin_cases k <;> simp [Finset.sum_range_succ, fD, psum_apply, List.range_succ, e] <;> ring
  rw [dimSO, rootWeightsSO, List.length_cons, List.length_singleton, if_pos (by rfl), hw]
  simp only [SU2.ok_bind']
  rw [SU2Real.trunc_nat key, Int.toNat_of_nonneg (by positivity)]
  rfl

/-- C67: labels of length 0 or 1 are refused by the root data: no SO(2), SO(3), Sp(2) and no empty label. -/
theorem C67_small_rank (a : ℤ) : dimSP [] = .error .indexError ∧ dimSP [a] = .error .valueError ∧
    dimSO [] = .error .indexError ∧ dimSO [a] = .error .valueError := ⟨rfl, rfl, rfl, rfl⟩

/-- C67: the trivial, defining and adjoint irreps of Sp(2 r), `r = n + 1`, have dimensions 1, 2 r and r (2 r + 1). -/
theorem C67_sp_small (n : ℕ) (hn : 1 ≤ n) : dimSP (0 :: List.replicate n 0) = .ok 1 ∧
    dimSP (1 :: List.replicate n 0) = .ok (2 * (n + 1)) ∧
    dimSP (2 :: List.replicate n 0) = .ok ((n + 1) * (2 * (n + 1) + 1)) := by
  have hl : ∀ a : ℤ, 2 ≤ (a :: List.replicate n 0).length := fun a => by simp; omega
  have h0 : ((n + 1 : ℕ) : ℚ) ≠ 0 := by positivity
  refine ⟨?_, ?_, ?_⟩
  · rw [dimSP_eq _ (hl _), SU2Real.trunc_nat (n := 1)]
    · rfl
    · rw [weylSp_first, Int.cast_zero, add_zero, div_self h0, mul_one, Finset.prod_eq_one]
      · simp
      · intro t ht
        rw [Finset.mem_range] at ht
        have : (t : ℚ) + 1 < (n + 1 : ℕ) := by exact_mod_cast (by omega : t + 1 < n + 1)
        exact div_self (sq_ne _ _ this (by positivity))
  · rw [dimSP_eq _ (hl _), SU2Real.trunc_nat (n := 2 * (n + 1))]
    · simp
    · rw [weylSp_first, Int.cast_one, tele_C (n + 1) n (by omega)]
      push_cast; field_simp; ring
  · rw [dimSP_eq _ (hl _), SU2Real.trunc_nat (n := (n + 1) * (2 * (n + 1) + 1))]
    · simp
    · rw [weylSp_first, Int.cast_ofNat, tele_C2 (n + 1) n (by omega)]
      push_cast; field_simp; ring

/-- C67: for SO(2 r + 1), `r = n + 1` odd: the trivial irrep has dimension 1, the defining one 2 r + 1 and the
spinor 2^r. -/
theorem C67_so_odd_small (n : ℕ) (hn : 1 ≤ n) (he : n % 2 = 0) : dimSO (0 :: List.replicate n 0) = .ok 1 ∧
    dimSO (1 :: List.replicate n 0) = .ok (2 * (n + 1) + 1) ∧
    dimSO (List.replicate n 0 ++ [1]) = .ok (2 ^ (n + 1)) := by
  have hl : ∀ a : ℤ, 2 ≤ (a :: List.replicate n 0).length := fun a => by simp; omega
  have ho : ∀ a : ℤ, (a :: List.replicate n 0).length % 2 = 1 := fun a => by simp; omega
  refine ⟨?_, ?_, ?_⟩
  · rw [dimSO_odd _ (hl _) (ho _), SU2Real.trunc_nat (n := 1)]
    · rfl
    · have h0 : ((n + 1 : ℕ) : ℚ) - 1 / 2 ≠ 0 := by push_cast; intro h; have : (0 : ℚ) ≤ n := by positivity
                                                    linarith
      rw [weylSoOdd_first _ _ hn, Int.cast_zero, add_zero, div_self h0, mul_one, Finset.prod_eq_one]
      · simp
      · intro t ht
        rw [Finset.mem_range] at ht
        have : (t : ℚ) + 1 < (n + 1 : ℕ) := by exact_mod_cast (by omega : t + 1 < n + 1)
        exact div_self (sq_ne _ _ (by linarith) (by positivity))
  · rw [dimSO_odd _ (hl _) (ho _), SU2Real.trunc_nat (n := 2 * (n + 1) + 1)]
    · simp
    · have h0 : 2 * ((n : ℚ) + 1) - 1 ≠ 0 := by intro h; have : (0 : ℚ) ≤ n := by positivity
                                                linarith
      rw [weylSoOdd_first _ _ hn, Int.cast_one, show ((n + 1 : ℕ) : ℚ) + 1 - 1 / 2 = (n + 1 : ℕ) + 1 / 2 by ring, tele_B (n + 1) n (by omega)]
      push_cast
      rw [show (n : ℚ) + 1 - n = 1 by ring, div_one, show (n : ℚ) + 1 + n = 2 * (n + 1) - 1 by ring,
        show (n : ℚ) + 1 - 1 / 2 = (2 * (n + 1) - 1) / 2 by ring]
      field_simp
  · rw [dimSO_odd _ (by simp; omega) (by simp; omega), SU2Real.trunc_nat (n := 2 ^ (n + 1))]
    · simp
    · rw [weylSoOdd_spin]; simp

/-- C67, finding: for an even number `r ≥ 4` of labels the spinor label (0, …, 0, 1) gets the dimension 2 r of the
defining representation; the two agree only for r = 4 (triality), the spinor of SO(2 r) having dimension
2^(r-1). -/
theorem C67_so_even_wrong (n : ℕ) (hn : 2 ≤ n) (he : n % 2 = 0) :
    dimSO (1 :: (List.replicate n 0 ++ [0])) = .ok (2 * (n + 2)) ∧
    dimSO (0 :: (List.replicate n 0 ++ [1])) = .ok (2 * (n + 2)) ∧ (4 ≤ n → 2 * (n + 2) < 2 ^ (n + 1)) := by
  have e1 : (1 : ℤ) :: (List.replicate n 0 ++ [0]) = 1 :: List.replicate (n + 1) 0 := by
    rw [List.replicate_succ']
  have key : weylSoEven ((1 : ℤ) :: (List.replicate n 0 ++ [0])) = (2 * (n + 2) : ℕ) := by
    rw [e1, weylSoEven_first _ _ (by omega), Int.cast_one, add_sub_cancel_right, tele_D (n + 2) (n + 1) (by omega) (by omega)]
    push_cast
    rw [show (n : ℚ) + 2 - (n + 1) = 1 by ring, show (n : ℚ) + 2 - 1 = n + 1 by ring]
    have : (n : ℚ) + 1 ≠ 0 := by positivity
    field_simp; ring
  refine ⟨?_, ?_, ?_⟩
  · obtain ⟨d, -, h2, h3⟩ := C67_so_even_dim 1 0 (List.replicate n 0) (by simpa using hn) (by simpa using he) (by
      intro s hs; simp at hs; omega)
    rw [add_zero, key] at h3
    rw [h2, ← show 2 * (n + 2) = d by exact_mod_cast h3]; simp
  · obtain ⟨d, -, h2, h3⟩ := C67_so_even_dim 0 1 (List.replicate n 0) (by simpa using hn) (by simpa using he) (by
      intro s hs; simp at hs; omega)
    rw [zero_add, key] at h3
    rw [h2, ← show 2 * (n + 2) = d by exact_mod_cast h3]; simp
  · intro h
    have h3 : ∀ k, 4 ≤ k → 2 * (k + 2) < 2 ^ (k + 1) := by
      intro k hk
      induction k, hk using Nat.le_induction with
      | base => norm_num
      | succ k hk ih => have := pow_succ 2 (k + 1); omega
    exact h3 n h

/-- C67, finding: nothing checks that labels are non-negative: (-5, 0) is given the dimension -4. -/
theorem C67_sp_negative : dimSP [-5, 0] = .ok (-4) := by
  rw [dimSP_eq _ (by simp)]
  have : weylSp [-5, 0] = -4 := by
    norm_num [weylSp, spShift, Finset.prod_range_succ, Finset.sum_Ico_succ_top, Finset.sum_range_succ]
  rw [this]
  norm_num [SU2.trunc]

example : dimSP [1, 0, 0] = .ok 6 := (C67_sp_small 2 (by norm_num)).2.1
example : dimSO [0, 0, 1] = .ok 8 := (C67_so_odd_small 2 (by norm_num) rfl).2.2
example : weylSoEven [0, 0, 0, 0, 0, 1] = 32 := by
  norm_num [weylSoEven, soEvenShift, Finset.prod_range_succ, Finset.sum_Ico_succ_top, Finset.sum_range_succ]
example : 2 ≤ [1, 2, 0].length ∧ [1, 2, (0 : ℤ)].length % 2 = 1 ∧ ∀ s ∈ [1, 2, 0], (0 : ℤ) ≤ s := by decide
example : dimSO [0, 0, 0, 0, 0, 1] = .ok 12 := (C67_so_even_wrong 4 (by norm_num) rfl).2.1

end LieNN.Props
