import Verif.Proofs.TensorPower
import Verif.Proofs.SU2Table
import Mathlib.Algebra.Polynomial.Laurent
import Mathlib.Combinatorics.Enumerative.Catalan.Basic
/-!
# Multiplicities in the powers of an `SU2` irrep
-/
namespace LieNN

open Spec LaurentPolynomial Finset

namespace SU2

/-- Weyl's denominator. -/
noncomputable def den : LaurentPolynomial ℤ := T 1 - T (-1)

theorem coeff_T_mul (n k : ℤ) (f : LaurentPolynomial ℤ) : (T n * f).coeff k = f.coeff (k - n) := by
  have := AddMonoidAlgebra.coeff_single_mul_eq_mul_coeff (R := ℤ) (x := f) (m := n) (m₁ := k) (r := 1)
    (k - n) (by intro m _; constructor <;> intro h <;> omega)
  rw [one_mul] at this
  exact this

theorem coeff_den_mul (k : ℤ) (f : LaurentPolynomial ℤ) :
    (den * f).coeff k = f.coeff (k - 1) - f.coeff (k + 1) := by
  unfold den
  rw [sub_mul]
  show (T 1 * f).coeff k - (T (-1) * f).coeff k = _
  rw [coeff_T_mul, coeff_T_mul, sub_neg_eq_add]

theorem den_ne : den ≠ 0 := by
  intro h
  have : (den : LaurentPolynomial ℤ).coeff 1 = 0 := by rw [h]; rfl
  unfold den at this
  change (T 1 : LaurentPolynomial ℤ).coeff 1 - (T (-1) : LaurentPolynomial ℤ).coeff 1 = 0 at this
  rw [T_apply, T_apply] at this
  simp at this

theorem den_chi (j : ℕ) : den * su2Char j = T (j + 1) - T (-(j + 1)) := by
  unfold den su2Char
  rw [sub_mul, mul_sum, mul_sum, ← sum_sub_distrib]
  have (t : ℕ) : (T 1 * T ((j : ℤ) - 2 * t) - T (-1) * T ((j : ℤ) - 2 * t) : LaurentPolynomial ℤ) =
      T ((j : ℤ) + 1 - 2 * t) - T ((j : ℤ) + 1 - 2 * ((t + 1 : ℕ) : ℤ)) := by
    rw [← T_add, ← T_add]
    congr 2
    · ring
    · push_cast; ring
  simp_rw [this]
  rw [sum_range_sub' fun t : ℕ => (T ((j : ℤ) + 1 - 2 * (t : ℤ)) : LaurentPolynomial ℤ)]
  have e : (j : ℤ) + 1 - 2 * ((j + 1 : ℕ) : ℤ) = -(j + 1) := by push_cast; ring
  rw [e, Nat.cast_zero, mul_zero, sub_zero]

theorem chi_mul_aux {i j : ℕ} (h : i ≤ j) :
    su2Char i * su2Char j = ∑ t ∈ range (i + 1), su2Char (j - i + 2 * t) := by
  apply mul_left_cancel₀ den_ne
  rw [mul_left_comm, den_chi, mul_sum]
  simp_rw [den_chi]
  rw [mul_sub, sum_sub_distrib]
  unfold su2Char
  rw [sum_mul, sum_mul, ← sum_range_reflect]
  congr 1
  · refine sum_congr rfl fun t ht => ?_
    have := mem_range.1 ht
    rw [← T_add]
    congr 1
    omega
  · refine sum_congr rfl fun t ht => ?_
    have := mem_range.1 ht
    rw [← T_add]
    congr 1
    push_cast [h]
    omega

theorem chi_mul (i j : ℕ) : su2Char i * su2Char j = ((mulL i j).map su2Char).sum := by
  have key (i j : ℕ) (h : i ≤ j) : su2Char i * su2Char j = ((mulL i j).map su2Char).sum := by
    rw [chi_mul_aux h]
    unfold mulL
    rw [List.map_map, min_eq_left h, max_eq_right h]
    rfl
  rcases le_total i j with h | h
  · exact key i j h
  · rw [mul_comm, key j i h]
    unfold mulL
    rw [min_comm, max_comm]

theorem mult_chi : IrRep.Mult table su2Char := by
  intro i j
  have e : ((table.prod i j).map fun k => ((table.cg i j k).length : LaurentPolynomial ℤ) * su2Char k) =
      (mulL i j).map su2Char := by
    rw [table_prod i j]
    refine List.map_congr_left fun k hk => ?_
    have : (table.cg i j k).length = 1 := by rw [table_cg hk]; rfl
    rw [this, Nat.cast_one, one_mul]
  rw [e]
  exact chi_mul i j

theorem chi_zero : su2Char 0 = 1 := by
  unfold su2Char
  simp

theorem coeff_block (m i k : ℕ) :
    (den * ((m : LaurentPolynomial ℤ) * su2Char i)).coeff ((k : ℤ) + 1) = if i = k then (m : ℤ) else 0 := by
  rw [mul_left_comm, den_chi i, ← nsmul_eq_mul]
  show m • ((T ((i : ℤ) + 1) : LaurentPolynomial ℤ).coeff ((k : ℤ) + 1) -
    (T (-((i : ℤ) + 1)) : LaurentPolynomial ℤ).coeff ((k : ℤ) + 1)) = _
  rw [T_apply, T_apply, if_neg (show ¬ -((i : ℤ) + 1) = k + 1 by omega)]
  by_cases h : i = k
  · rw [if_pos (by omega), if_pos h]; simp
  · rw [if_neg (by omega), if_neg h]; simp

/-- A multiplicity is a difference of two multiplicities of weights. -/
theorem timesIn_eq (x : IrRep table) (k : ℕ) :
    (timesIn (T := table) k x : ℤ) = (total x su2Char).coeff k - (total x su2Char).coeff (k + 2) := by
  have h := coeff_den_mul (k + 1) (total x su2Char)
  rw [show (k : ℤ) + 1 - 1 = k by ring, show (k : ℤ) + 1 + 1 = k + 2 by ring] at h
  rw [← h]
  unfold timesIn total
  generalize blocksOf x = l
  induction l with
  | nil => 
    simp only [List.map_nil, List.sum_nil, mul_zero]
    rfl
  | cons b l ih =>
    obtain ⟨m, i⟩ := b
    rw [List.map_cons, List.sum_cons, List.map_cons, List.sum_cons, mul_add]
    show _ = (den * ((m : LaurentPolynomial ℤ) * su2Char i)).coeff (k + 1) + _
    rw [Nat.cast_add, ih]
    congr 1
    refine Eq.trans ?_ (coeff_block m i k).symm
    by_cases h : i = k
    · exact (congrArg Nat.cast (if_pos h)).trans (if_pos h).symm
    · exact (congrArg Nat.cast (if_neg h)).trans (if_neg h).symm

/-! ## The powers of `SU2(1)` -/

theorem chi_one : su2Char 1 = T 1 + T (-1) := by
  unfold su2Char
  rw [sum_range_succ, sum_range_one]
  norm_num

theorem coeff_chi_one_pow (N : ℕ) (k : ℕ) :
    (su2Char 1 ^ N).coeff (k : ℤ) = if (N + k) % 2 = 0 then (N.choose ((N + k) / 2) : ℤ) else 0 := by
  have e : su2Char 1 ^ N = ∑ m ∈ range (N + 1), N.choose m • (T (2 * (m : ℤ) - N) : LaurentPolynomial ℤ) := by
    rw [chi_one, add_pow]
    refine sum_congr rfl fun m hm => ?_
    have := mem_range.1 hm
    rw [T_pow, T_pow, ← T_add, nsmul_eq_mul, mul_comm]
    congr 2
    push_cast [show m ≤ N by omega]
    ring
  have e2 : (su2Char 1 ^ N).coeff (k : ℤ) =
      ∑ m ∈ range (N + 1), if 2 * (m : ℤ) - N = k then (N.choose m : ℤ) else 0 := by
    rw [e, AddMonoidAlgebra.coeff_sum, Finsupp.finsetSum_apply]
    refine sum_congr rfl fun m _ => ?_
    show N.choose m • (T (2 * (m : ℤ) - N) : LaurentPolynomial ℤ).coeff (k : ℤ) = _
    rw [T_apply]
    split_ifs <;> simp
  rw [e2]
  by_cases h : (N + k) % 2 = 0
  · rw [if_pos h]
    by_cases hk : k ≤ N
    · rw [sum_eq_single ((N + k) / 2)]
      · rw [if_pos (by omega)]
      · intro m _ hm
        rw [if_neg (by omega)]
      · intro hm
        exact absurd (mem_range.2 (by omega)) hm
    · rw [Nat.choose_eq_zero_of_lt (by omega)]
      refine sum_eq_zero fun m hm => ?_
      have := mem_range.1 hm
      rw [if_neg (by omega)]
  · rw [if_neg h]
    refine sum_eq_zero fun m _ => ?_
    rw [if_neg (by omega)]

theorem catalan_eq (m : ℕ) : (catalan m : ℤ) = (2 * m).choose m - (2 * m).choose (m + 1) := by
  have h1 := succ_mul_catalan_eq_centralBinom m
  have h2 := Nat.choose_succ_right_eq (2 * m) m
  rw [show 2 * m - m = m by omega] at h2
  unfold Nat.centralBinom at h1
  have h1' : ((m : ℤ) + 1) * catalan m = (2 * m).choose m := by exact_mod_cast h1
  have h2' : ((2 * m).choose (m + 1) : ℤ) * (m + 1) = (2 * m).choose m * m := by exact_mod_cast h2
  have h3 : ((m : ℤ) + 1) ≠ 0 := by omega
  apply mul_left_cancel₀ h3
  rw [h1', mul_sub]
  linarith

end SU2

end LieNN
