import Mathlib.LinearAlgebra.Lagrange
import Mathlib.Algebra.Polynomial.BigOperators
import Mathlib.Tactic.Ring
import Mathlib.Tactic.Linarith
import Mathlib.Tactic.FieldSimp
/-!
# A sum of quotients of products

The sum over the nodes of the values of a monic polynomial divided by the derivative of the node
polynomial of the same degree is the difference of the sums of the nodes and of the roots.
-/
namespace LieNN.GT

open Finset Polynomial

variable {ι : Type} [DecidableEq ι]

omit [DecidableEq ι] in
theorem nextCoeff_prod (s : Finset ι) (v : ι → ℚ) (hs : 0 < s.card) :
    (∏ i ∈ s, (X - C (v i))).coeff (s.card - 1) = -∑ i ∈ s, v i := by
  rw [← prod_X_sub_C_nextCoeff, nextCoeff_of_natDegree_pos]
  · rw [natDegree_prod_of_monic _ _ (fun i _ => monic_X_sub_C _)]
    simp
  · rw [natDegree_prod_of_monic _ _ (fun i _ => monic_X_sub_C _)]
    simpa using hs

theorem lagrange_sum (s s' : Finset ι) (v w : ι → ℚ) (hc : s.card = s'.card)
    (hv : Set.InjOn v s) :
    ∑ i ∈ s, (∏ j ∈ s', (v i - w j)) / ∏ j ∈ s.erase i, (v i - v j) =
      ∑ i ∈ s, v i - ∑ j ∈ s', w j := by
  rcases Nat.eq_zero_or_pos s.card with h | h
  · have h' : s'.card = 0 := by omega
    rw [card_eq_zero] at h h'
    subst h h'
    simp
  have m1 : (∏ i ∈ s, (X - C (v i))).Monic := monic_prod_of_monic _ _ fun i _ => monic_X_sub_C _
  have m2 : (∏ i ∈ s', (X - C (w i))).Monic := monic_prod_of_monic _ _ fun i _ => monic_X_sub_C _
  have d1 : (∏ i ∈ s, (X - C (v i))).natDegree = s.card := by
    rw [natDegree_prod_of_monic _ _ (fun i _ => monic_X_sub_C _)]; simp
  have d2 : (∏ i ∈ s', (X - C (w i))).natDegree = s.card := by
    rw [natDegree_prod_of_monic _ _ (fun i _ => monic_X_sub_C _)]; simp [hc]
  have hd : (∏ i ∈ s', (X - C (w i)) - ∏ i ∈ s, (X - C (v i))).degree < (s.card : WithBot ℕ) := by
    have g1 : (∏ i ∈ s', (X - C (w i))).degree = (s.card : WithBot ℕ) := by
      rw [degree_eq_natDegree m2.ne_zero, d2]
    have g2 : (∏ i ∈ s, (X - C (v i))).degree = (s.card : WithBot ℕ) := by
      rw [degree_eq_natDegree m1.ne_zero, d1]
    rw [← g1]
    exact degree_sub_lt_left (g1.trans g2.symm) m2.ne_zero (by rw [m1.leadingCoeff, m2.leadingCoeff])
  have := Lagrange.coeff_eq_sum hv hd
  rw [coeff_sub, nextCoeff_prod s v h, hc, nextCoeff_prod s' w (by omega)] at this
  rw [show ∑ i ∈ s, v i - ∑ j ∈ s', w j = -∑ i ∈ s', w i - -∑ i ∈ s, v i by ring, this]
  refine sum_congr rfl fun i hi => ?_
  congr 1
  rw [eval_sub, eval_prod, eval_prod, prod_eq_zero hi (by simp), sub_zero]
  simp

/-- The same when nodes coincide with each other, each of them with a root. -/
theorem lagrange_sum' (T T' : Finset ι) (v w : ι → ℚ) (hc : T.card = T'.card)
    (h : ∀ i ∈ T, ∀ j ∈ T, i ≠ j → v i = v j → i ∈ T' ∧ w i = v i) :
    ∑ i ∈ T, (∏ j ∈ T', (v i - w j)) / ∏ j ∈ T.erase i, (v i - v j) =
      ∑ i ∈ T, v i - ∑ j ∈ T', w j := by
  classical
  set B := T.filter fun i => ∃ j ∈ T, i ≠ j ∧ v i = v j with hB
  have hBT : B ⊆ T := filter_subset _ _
  have hB' : ∀ i ∈ B, i ∈ T' ∧ w i = v i := by
    intro i hi
    rw [hB, mem_filter] at hi
    obtain ⟨h1, j, h2, h3, h4⟩ := hi
    exact h i h1 j h2 h3 h4
  have hBT' : B ⊆ T' := fun i hi => (hB' i hi).1
  have key := lagrange_sum (T \ B) (T' \ B) v w
    (by rw [card_sdiff_of_subset hBT, card_sdiff_of_subset hBT', hc]) (by
      intro i hi j hj hij
      by_contra hne
      simp only [coe_sdiff, Set.mem_sdiff, mem_coe] at hi hj
      exact hi.2 (by rw [hB, mem_filter]; exact ⟨hi.1, j, hj.1, hne, hij⟩))
  have e1 : ∑ i ∈ T, v i - ∑ j ∈ T', w j = ∑ i ∈ T \ B, v i - ∑ j ∈ T' \ B, w j := by
    rw [← sum_sdiff hBT, ← sum_sdiff hBT', sum_congr rfl fun i hi => (hB' i hi).2]
    ring
  rw [e1, ← key, ← sum_sdiff hBT]
  have e2 : ∑ i ∈ B, (∏ j ∈ T', (v i - w j)) / ∏ j ∈ T.erase i, (v i - v j) = 0 :=
    sum_eq_zero fun i hi => by
      rw [prod_eq_zero (hB' i hi).1 (by rw [(hB' i hi).2]; ring), zero_div]
  rw [e2, add_zero]
  refine sum_congr rfl fun i hi => ?_
  rw [mem_sdiff] at hi
  have e3 : (T \ B).erase i = T.erase i \ B := by
    ext j; simp only [mem_erase, mem_sdiff]; tauto
  have hBe : B ⊆ T.erase i := fun j hj => mem_erase.2 ⟨fun e => hi.2 (e ▸ hj), hBT hj⟩
  have e4 : ∏ j ∈ B, (v i - w j) = ∏ j ∈ B, (v i - v j) :=
    prod_congr rfl fun j hj => by rw [(hB' j hj).2]
  rw [← prod_sdiff hBT', ← prod_sdiff hBe, e3, e4]
  have e5 : ∏ j ∈ B, (v i - v j) ≠ 0 := by
    refine prod_ne_zero_iff.2 fun j hj hz => hi.2 ?_
    rw [hB, mem_filter]
    exact ⟨hi.1, j, hBT hj, fun e => hi.2 (e ▸ hj), sub_eq_zero.1 hz⟩
  exact mul_div_mul_right _ _ e5

end LieNN.GT
