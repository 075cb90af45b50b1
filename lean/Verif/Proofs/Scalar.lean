import Verif.Proofs.RootsDim3
import Verif.Proofs.SUNDim
/-! # Weyl's product exceeds one for labels that are not zero -/
namespace LieNN.Roots

open LieNN.Spec

theorem quot_ge {a b c d : ℚ} (h0 : 0 ≤ d) (h1 : d < c) (h2 : d ≤ b) (h3 : c - d ≤ a - b) :
    1 ≤ (a ^ 2 - b ^ 2) / (c ^ 2 - d ^ 2) := by
  rw [le_div_iff₀ (by nlinarith)]
  nlinarith [mul_nonneg (sub_nonneg.2 h3) (by linarith : (0 : ℚ) ≤ a + b), mul_nonneg (by linarith : (0 : ℚ) ≤ c - d)
    (by linarith : (0 : ℚ) ≤ a + b - c - d)]

theorem weylBC_gt {r : ℕ} (hr : 0 < r) (l ρ : ℕ → ℚ) (h0 : ∀ i < r, 0 < ρ i) (h1 : ∀ i < r, ∀ j < i, ρ i < ρ j)
    (h2 : ∀ i < r, ρ i ≤ l i) (h3 : ∀ i < r, ∀ j < i, l i - ρ i ≤ l j - ρ j) (h4 : ρ 0 < l 0) : 1 < weylBC r l ρ := by
  rw [weylBC]
  have a1 : 1 ≤ ∏ i ∈ Finset.range r, ∏ j ∈ Finset.range i, (l j ^ 2 - l i ^ 2) / (ρ j ^ 2 - ρ i ^ 2) := by
    calc (1 : ℚ) = ∏ i ∈ Finset.range r, 1 := by simp
      _ ≤ _ := Finset.prod_le_prod (by simp) fun i hi => ?_
    rw [Finset.mem_range] at hi
    calc (1 : ℚ) = ∏ j ∈ Finset.range i, 1 := by simp
      _ ≤ _ := Finset.prod_le_prod (by simp) fun j hj => ?_
    rw [Finset.mem_range] at hj
    exact quot_ge (h0 i hi).le (h1 i hi j hj) (h2 i hi) (by linarith [h3 i hi j hj])
  have a2 : 1 < ∏ i ∈ Finset.range r, l i / ρ i := by
    calc (1 : ℚ) = ∏ i ∈ Finset.range r, 1 := by simp
      _ < _ := Finset.prod_lt_prod (by simp) (fun i hi => ?_) ⟨0, Finset.mem_range.2 hr, ?_⟩
    · rw [Finset.mem_range] at hi
      rw [le_div_iff₀ (h0 i hi), one_mul]
      exact h2 i hi
    · rw [lt_div_iff₀ (h0 0 hr), one_mul]
      exact h4
  nlinarith

theorem exists_pos {S : List ℤ} (hS : ∀ s ∈ S, 0 ≤ s) (h : isScalar S = false) : ∃ i < S.length, 0 < (S.getD i 0 : ℚ) := by
  obtain ⟨s, hs, h0⟩ : ∃ s ∈ S, s ≠ 0 := by
    by_contra hc
    push Not at hc
    have : isScalar S = true := by
      rw [isScalar, List.all_eq_true]
      intro s hs
      simp [hc s hs]
    rw [this] at h
    cases h
  obtain ⟨i, hi, rfl⟩ := List.mem_iff_getElem.1 hs
  refine ⟨i, hi, ?_⟩
  rw [List.getD_eq_getElem _ _ hi]
  have := hS _ hs
  exact_mod_cast lt_of_le_of_ne this (Ne.symm h0)

theorem isScalar_replicate {S : List ℤ} (h : isScalar S = true) : S = List.replicate S.length 0 := by
  rw [isScalar, List.all_eq_true] at h
  exact List.eq_replicate_iff.2 ⟨rfl, fun s hs => by simpa using h s hs⟩

theorem weylSp_gt {S : List ℤ} (hS : ∀ s ∈ S, 0 ≤ s) (h : isScalar S = false) : 1 < weylSp S := by
  obtain ⟨t, ht, hp⟩ := exists_pos hS h
  rw [weylSp_eq]
  refine weylBC_gt (by omega) _ _ ?_ ?_ ?_ ?_ ?_
  · intro i hi
    have : (i : ℚ) < S.length := by exact_mod_cast hi
    linarith
  · intro i hi j hj
    have : (j : ℚ) < i := by exact_mod_cast hj
    linarith
  · intro i hi
    have h2 : 0 ≤ ∑ t ∈ Finset.Ico i S.length, (S.getD t 0 : ℚ) := Finset.sum_nonneg fun t _ => getD_nonneg S hS t
    rw [spShift]; linarith
  · intro i hi j hj
    have h2 := sum_Ico_le S hS S.length i j hj.le
    rw [spShift, spShift]; linarith
  · have h2 : (S.getD t 0 : ℚ) ≤ ∑ t ∈ Finset.Ico 0 S.length, (S.getD t 0 : ℚ) :=
      Finset.single_le_sum (f := fun t => (S.getD t 0 : ℚ)) (fun t _ => getD_nonneg S hS t) (by simpa using ht)
    rw [spShift]; linarith

theorem weylSoOdd_gt {S : List ℤ} (hS : ∀ s ∈ S, 0 ≤ s) (h : isScalar S = false) : 1 < weylSoOdd S := by
  obtain ⟨t, ht, hp⟩ := exists_pos hS h
  have hl := getD_nonneg S hS (S.length - 1)
  rw [weylSoOdd_eq]
  refine weylBC_gt (by omega) _ _ ?_ ?_ ?_ ?_ ?_
  · intro i hi
    have : (i : ℚ) + 1 ≤ S.length := by exact_mod_cast hi
    linarith
  · intro i hi j hj
    have : (j : ℚ) < i := by exact_mod_cast hj
    linarith
  · intro i hi
    have h2 : 0 ≤ ∑ t ∈ Finset.Ico i (S.length - 1), (S.getD t 0 : ℚ) := Finset.sum_nonneg fun t _ => getD_nonneg S hS t
    rw [soOddShift]; linarith
  · intro i hi j hj
    have h2 := sum_Ico_le S hS (S.length - 1) i j hj.le
    rw [soOddShift, soOddShift]; linarith
  · have h0 : 0 ≤ ∑ t ∈ Finset.Ico 0 (S.length - 1), (S.getD t 0 : ℚ) := Finset.sum_nonneg fun t _ => getD_nonneg S hS t
    rw [soOddShift]
    rcases Nat.lt_or_ge t (S.length - 1) with h1 | h1
    · have h2 : (S.getD t 0 : ℚ) ≤ ∑ t ∈ Finset.Ico 0 (S.length - 1), (S.getD t 0 : ℚ) :=
        Finset.single_le_sum (f := fun t => (S.getD t 0 : ℚ)) (fun t _ => getD_nonneg S hS t) (by simpa using h1)
      linarith
    · obtain rfl : t = S.length - 1 := by omega
      linarith

theorem quot_ge' {a b c d : ℚ} (h0 : 0 ≤ d) (h1 : d < c) (h2 : c - d ≤ a - b) (h3 : c + d ≤ a + b) :
    1 ≤ (a ^ 2 - b ^ 2) / (c ^ 2 - d ^ 2) := by
  rw [le_div_iff₀ (by nlinarith), one_mul, sq_sub_sq, sq_sub_sq]
  exact mul_le_mul h3 h2 (by linarith) (by linarith)

theorem quot_gt' {a b c d : ℚ} (h0 : 0 ≤ d) (h1 : d < c) (h2 : c - d ≤ a - b) (h3 : c + d ≤ a + b) (h4 : c < a) :
    1 < (a ^ 2 - b ^ 2) / (c ^ 2 - d ^ 2) := by
  rw [lt_div_iff₀ (by nlinarith), one_mul, sq_sub_sq, sq_sub_sq]
  rcases h2.lt_or_eq with h | h
  · exact mul_lt_mul' h3 h (by linarith) (by linarith)
  · rw [← h]
    exact mul_lt_mul_of_pos_right (by linarith) (by linarith)

theorem weylSoEven_gt {S : List ℤ} (hS : ∀ s ∈ S, 0 ≤ s) (hr : 2 ≤ S.length) (h : isScalar S = false) : 1 < weylSoEven S := by
  obtain ⟨t, ht, hp⟩ := exists_pos hS h
  have hn := getD_nonneg S hS
  have g : ∀ i < S.length, ∀ j < i, (S.length - j - 1 : ℚ) - (S.length - i - 1) ≤ soEvenShift S j - soEvenShift S i ∧
      (S.length - j - 1 : ℚ) + (S.length - i - 1) ≤ soEvenShift S j + soEvenShift S i := by
    intro i hi j hj
    have h2 := sum_Ico_le S hS (S.length - 2) i j hj.le
    have h3 : 0 ≤ ∑ t ∈ Finset.Ico i (S.length - 2), (S.getD t 0 : ℚ) := Finset.sum_nonneg fun t _ => hn t
    have h5 := hn (S.length - 1)
    have h6 := hn (S.length - 2)
    rw [soEvenShift, soEvenShift, if_neg (show ¬ j = S.length - 1 by omega)]
    split_ifs <;> constructor <;> linarith
  have g0 : (S.length - (0 : ℕ) - 1 : ℚ) < soEvenShift S 0 := by
    have h3 : 0 ≤ ∑ t ∈ Finset.Ico 0 (S.length - 2), (S.getD t 0 : ℚ) := Finset.sum_nonneg fun t _ => hn t
    have h5 := hn (S.length - 1)
    have h6 := hn (S.length - 2)
    rw [soEvenShift, if_neg (by omega)]
    rcases Nat.lt_or_ge t (S.length - 2) with h1 | h1
    · have h2 : (S.getD t 0 : ℚ) ≤ ∑ t ∈ Finset.Ico 0 (S.length - 2), (S.getD t 0 : ℚ) :=
        Finset.single_le_sum (f := fun t => (S.getD t 0 : ℚ)) (fun t _ => hn t) (by simpa using h1)
      linarith
    · obtain rfl | rfl : t = S.length - 1 ∨ t = S.length - 2 := by omega
      all_goals linarith
  rw [weylSoEven]
  have b : ∀ i < S.length, ∀ j < i, (0 : ℚ) ≤ S.length - i - 1 ∧ (S.length - i - 1 : ℚ) < S.length - j - 1 := by
    intro i hi j hj
    have h1 : (i : ℚ) + 1 ≤ S.length := by exact_mod_cast hi
    have h2 : (j : ℚ) < i := by exact_mod_cast hj
    constructor <;> linarith
  have c : ∀ i < S.length, ∀ j < i,
      1 ≤ (soEvenShift S j ^ 2 - soEvenShift S i ^ 2) / (((S.length : ℚ) - j - 1) ^ 2 - (S.length - i - 1) ^ 2) :=
    fun i hi j hj => quot_ge' (b i hi j hj).1 (b i hi j hj).2 (g i hi j hj).1 (g i hi j hj).2
  calc (1 : ℚ) = ∏ i ∈ Finset.range S.length, 1 := by simp
    _ < _ := Finset.prod_lt_prod (by simp) (fun i hi => ?_) ⟨1, Finset.mem_range.2 (by omega), ?_⟩
  · rw [Finset.mem_range] at hi
    calc (1 : ℚ) = ∏ j ∈ Finset.range i, 1 := by simp
      _ ≤ _ := Finset.prod_le_prod (by simp) fun j hj => c i hi j (Finset.mem_range.1 hj)
  · rw [Finset.prod_range_one]
    exact quot_gt' (b 1 (by omega) 0 (by omega)).1 (b 1 (by omega) 0 (by omega)).2 (g 1 (by omega) 0 (by omega)).1
      (g 1 (by omega) 0 (by omega)).2 g0

end LieNN.Roots

namespace LieNN.SUN

/-- Weyl's product of a weakly decreasing label with distinct first and last entries. -/
theorem dimProd_gt {S : List ℤ} (hS : S.Pairwise (· ≥ ·)) {i : ℕ} (hi : i < S.length) (h : S.getD i 0 < S.getD 0 0) : 1 < dimProd S := by
  have mono : ∀ a b, a < b → b < S.length → S.getD b 0 ≤ S.getD a 0 := by
    intro a b hab hb
    rw [List.getD_eq_getElem _ _ hb, List.getD_eq_getElem _ _ (hab.trans hb)]
    exact List.pairwise_iff_getElem.1 hS a b _ _ hab
  have h0 : i ≠ 0 := by rintro rfl; exact lt_irrefl _ h
  have c : ∀ a b, a < b → b < S.length → 0 ≤ ((S.getD a 0 - S.getD b 0 : ℤ) : ℚ) / (((b : ℤ) - a : ℤ) : ℚ) := by
    intro a b hab hb
    refine div_nonneg (by exact_mod_cast sub_nonneg.2 (mono a b hab hb)) (Int.cast_nonneg (by omega))
  rw [dimProd_prod]
  calc (1 : ℚ) = ∏ a ∈ Finset.range S.length, 1 := by simp
    _ < _ := Finset.prod_lt_prod (by simp) (fun a ha => ?_) ⟨0, Finset.mem_range.2 (by omega), ?_⟩
  · calc (1 : ℚ) = ∏ b ∈ Finset.Ico (a + 1) S.length, 1 := by simp
      _ ≤ _ := Finset.prod_le_prod (by simp) fun b hb => ?_
    rw [Finset.mem_Ico] at hb
    linarith [c a b (by omega) hb.2]
  · calc (1 : ℚ) = ∏ b ∈ Finset.Ico (0 + 1) S.length, 1 := by simp
      _ < _ := Finset.prod_lt_prod (by simp) (fun b hb => ?_) ⟨i, Finset.mem_Ico.2 ⟨by omega, hi⟩, ?_⟩
    · rw [Finset.mem_Ico] at hb
      linarith [c 0 b (by omega) hb.2]
    · have : 0 < ((S.getD 0 0 - S.getD i 0 : ℤ) : ℚ) / (((i : ℤ) - (0 : ℕ) : ℤ) : ℚ) :=
        div_pos (by exact_mod_cast sub_pos.2 h) (Int.cast_pos.2 (by omega))
      linarith

end LieNN.SUN
