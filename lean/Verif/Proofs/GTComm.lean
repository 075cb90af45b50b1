import Verif.Proofs.GTSum
import Verif.Proofs.SUNAdj
/-!
# The squares of the ladder coefficients

The sum over a row of the squares of the lowering coefficients minus that of the raising ones is twice
the weight.
-/
namespace LieNN.SUN

open Spec Finset

theorem erase_inl (r p : ℕ) : ((range r).disjSum (range r)).erase (Sum.inl p) =
    ((range r).erase p).disjSum (range r) := by
  ext (x | x) <;> simp

theorem erase_inr (r p : ℕ) : ((range r).disjSum (range r)).erase (Sum.inr p) =
    (range r).disjSum ((range r).erase p) := by
  ext (x | x) <;> simp

theorem prod_neg_pair (a b : ℕ) (f g : ℕ → ℚ) (h : Even (a + b)) :
    (∏ p ∈ range a, f p) * (∏ p ∈ range b, g p) =
      (∏ p ∈ range a, -f p) * ∏ p ∈ range b, -g p := by
  rw [prod_neg, prod_neg]
  simp only [card_range]
  have : (-1 : ℚ) ^ a * (-1) ^ b = 1 := by rw [← pow_add]; exact h.neg_one_pow
  linear_combination (-(∏ p ∈ range a, f p) * (∏ p ∈ range b, g p)) * this

theorem sum_coefSq {n : ℕ} {M : Pat} (hM : Triangular n M) (hI : Interlacing M) {k : ℕ} (h1 : 1 ≤ k)
    (hk : k < n) :
    ∑ l ∈ range (n - k), (coefSq n M k l (ent M k l - 1) - coefSq n M k l (ent M k l)) =
      ((2 * sig n M k - sig n M (k - 1) - sig n M (k + 1) : ℤ) : ℚ) := by
  obtain ⟨r, hr⟩ : ∃ r, n - k = r + 1 := ⟨n - k - 1, by omega⟩
  have hr1 : n - (k - 1) = r + 2 := by omega
  have hr2 : n - (k + 1) = r := by omega
  set e : ℕ → ℚ := fun p => ((ent M k p - p : ℤ) : ℚ) with he
  set b : ℕ → ℚ := fun p => ((ent M (k - 1) p - p : ℤ) : ℚ) with hb
  set c : ℕ → ℚ := fun p => ((ent M (k + 1) p - p : ℤ) : ℚ) with hc
  have anti : ∀ j j', j ≤ j' → j' < r + 1 → ent M k j' ≤ ent M k j := fun j j' h h' => by
    rcases Nat.eq_or_lt_of_le h with rfl | h''
    · exact le_rfl
    · exact row_antitone hI h (by rw [hM.1]; omega) (by rw [hM.1]; omega)
  have hup : ∀ j, j < r → ent M k (j + 1) ≤ ent M (k + 1) j ∧ ent M (k + 1) j ≤ ent M k j :=
    fun j hj => hI k j (by rw [hM.1]; omega)
  have hdn : ∀ j, j < r + 1 → ent M (k - 1) (j + 1) ≤ ent M k j ∧ ent M k j ≤ ent M (k - 1) j :=
    fun j hj => by
      have := hI (k - 1) j (by rw [hM.1]; omega)
      rwa [show k - 1 + 1 = k by omega] at this
  have key := GT.lagrange_sum' ((range (r + 1)).disjSum (range (r + 1)))
    ((range (r + 2)).disjSum (range r)) (Sum.elim e fun p => e p - 1) (Sum.elim b fun p => c p - 1)
    (by simp only [card_disjSum, card_range]; omega) (by
      have hinj : ∀ i j, i < r + 1 → j < r + 1 → e i = e j → i = j := by
        intro i j hi hj hij
        simp only [he, Int.cast_inj] at hij
        rcases lt_trichotomy i j with h | h | h
        · have := anti i j h.le hj; omega
        · exact h
        · have := anti j i h.le hi; omega
      have hadj : ∀ i j, i < r + 1 → j < r + 1 → e i = e j - 1 → i = j + 1 ∧ ent M k i = ent M k j := by
        intro i j hi hj hij
        have hij : ent M k i - i = ent M k j - j - 1 := by
          simp only [he] at hij; exact_mod_cast hij
        rcases lt_trichotomy i j with h | h | h
        · have := anti i j h.le hj; omega
        · subst h; omega
        · have := anti j i h.le hi; omega
      rintro (i | i) hi (j | j) hj hne hv
      · simp only [inl_mem_disjSum, mem_range, Sum.elim_inl] at hi hj hv
        exact absurd (congrArg _ (hinj i j hi hj hv)) hne
      · simp only [inl_mem_disjSum, inr_mem_disjSum, mem_range, Sum.elim_inl, Sum.elim_inr] at hi hj hv ⊢
        obtain ⟨rfl, h2⟩ := hadj i j hi hj hv
        refine ⟨by omega, ?_⟩
        simp only [hb, he, Int.cast_inj]
        have a1 := hdn j (by omega)
        have a2 := hdn (j + 1) (by omega)
        omega
      · simp only [inl_mem_disjSum, inr_mem_disjSum, mem_range, Sum.elim_inl, Sum.elim_inr] at hi hj hv ⊢
        obtain ⟨rfl, h2⟩ := hadj j i hj hi hv.symm
        refine ⟨by omega, ?_⟩
        have a1 := hup i (by omega)
        have : ent M (k + 1) i = ent M k i := by omega
        simp only [hc, he, this]
      · simp only [inr_mem_disjSum, mem_range, Sum.elim_inr] at hi hj hv
        exact absurd (congrArg _ (hinj i j hi hj (by linarith))) hne)
  rw [sum_disjSum, sum_disjSum, sum_disjSum] at key
  simp only [erase_inl, erase_inr, prod_disjSum, Sum.elim_inl, Sum.elim_inr] at key
  have eup : ∀ l ∈ range (r + 1), ((∏ j ∈ range (r + 2), (e l - b j)) * ∏ j ∈ range r, (e l - (c j - 1))) /
      ((∏ j ∈ (range (r + 1)).erase l, (e l - e j)) * ∏ j ∈ range (r + 1), (e l - (e j - 1))) =
      -coefSq n M k l (ent M k l) := by
    intro l hl
    unfold coefSq numF denF
    rw [neg_div, neg_neg]
    congr 1
    · rw [prod_neg_pair _ _ _ _ ⟨r + 1, by ring⟩]
      push_cast
      rw [show n - k + 1 = r + 2 by omega, show n - k - 1 = r by omega]
      congr 1
      · exact prod_congr rfl fun p _ => by simp only [he, hb]; push_cast; ring
      · exact prod_congr rfl fun p _ => by simp only [he, hc]; push_cast; ring
    · rw [← mul_prod_erase (range (r + 1)) _ hl, show e l - (e l - 1) = 1 by ring, one_mul,
        ← prod_mul_distrib, hr]
      push_cast
      exact prod_congr rfl fun p _ => by simp only [he]; push_cast; ring
  have edn : ∀ l ∈ range (r + 1), ((∏ j ∈ range (r + 2), (e l - 1 - b j)) *
        ∏ j ∈ range r, (e l - 1 - (c j - 1))) /
      ((∏ j ∈ range (r + 1), (e l - 1 - e j)) *
        ∏ j ∈ (range (r + 1)).erase l, (e l - 1 - (e j - 1))) =
      coefSq n M k l (ent M k l - 1) := by
    intro l hl
    unfold coefSq numF denF
    rw [← mul_prod_erase (range (r + 1)) (fun j => e l - 1 - e j) hl,
      show e l - 1 - e l = -1 by ring, mul_assoc, neg_one_mul, div_neg, neg_div]
    congr 2
    · rw [prod_neg_pair _ _ _ _ ⟨r + 1, by ring⟩]
      push_cast
      rw [show n - k + 1 = r + 2 by omega, show n - k - 1 = r by omega]
      congr 1
      · exact prod_congr rfl fun p _ => by simp only [he, hb]; push_cast; ring
      · exact prod_congr rfl fun p _ => by simp only [he, hc]; push_cast; ring
    · rw [← prod_mul_distrib, hr]
      push_cast
      exact prod_congr rfl fun p _ => by simp only [he]; push_cast; ring
  rw [sum_congr rfl eup, sum_congr rfl edn] at key
  rw [hr, sum_sub_distrib]
  rw [sum_neg_distrib] at key
  unfold sig
  rw [hr, hr1, hr2]
  have g : ∀ m : ℕ, ∑ p ∈ range m, (p : ℚ) = m * (m - 1) / 2 := by
    intro m
    induction m with
    | zero => simp
    | succ m ih => rw [sum_range_succ, ih]; push_cast; ring
  simp only [he, hb, hc] at key
  push_cast at key ⊢
  simp only [sum_sub_distrib, g] at key
  push_cast at key
  simp only [sum_const, card_range, nsmul_eq_mul] at key
  push_cast at key
  linear_combination key

/-! ## Two different entries -/

theorem den_same {n : ℕ} {Q : Pat} (hQ : Triangular n Q) {k p q : ℕ} (hp : k + p < n) (hq : k + q < n)
    (hpq : p ≠ q) :
    denF n Q k p (ent Q k p) * denF n Q k q (ent Q k q) =
      denF n (addAt Q k q 1) k p (ent Q k p) * denF n (addAt Q k p 1) k q (ent Q k q) := by
  unfold denF
  have m1 : q ∈ (range (n - k)).erase p := mem_erase.2 ⟨hpq.symm, mem_range.2 (by omega)⟩
  have m2 : p ∈ (range (n - k)).erase q := mem_erase.2 ⟨hpq, mem_range.2 (by omega)⟩
  rw [← mul_prod_erase _ _ m1, ← mul_prod_erase _ _ m2, ← mul_prod_erase _ _ m1,
    ← mul_prod_erase _ _ m2]
  have c1 : ∀ z : ℤ, ∏ s ∈ ((range (n - k)).erase p).erase q,
      ((ent (addAt Q k q 1) k s - z + p - s) * (ent (addAt Q k q 1) k s - z + p - s - 1)) =
      ∏ s ∈ ((range (n - k)).erase p).erase q,
      ((ent Q k s - z + p - s) * (ent Q k s - z + p - s - 1)) := fun z =>
    prod_congr rfl fun s hs => by
      simp only [mem_erase, mem_range] at hs
      rw [ent_addAt hQ _ _ _ _ _ (by omega), if_neg (by omega), add_zero]
  have c2 : ∀ z : ℤ, ∏ s ∈ ((range (n - k)).erase q).erase p,
      ((ent (addAt Q k p 1) k s - z + q - s) * (ent (addAt Q k p 1) k s - z + q - s - 1)) =
      ∏ s ∈ ((range (n - k)).erase q).erase p,
      ((ent Q k s - z + q - s) * (ent Q k s - z + q - s - 1)) := fun z =>
    prod_congr rfl fun s hs => by
      simp only [mem_erase, mem_range] at hs
      rw [ent_addAt hQ _ _ _ _ _ (by omega), if_neg (by omega), add_zero]
  rw [c1, c2, ent_addAt hQ _ _ _ _ _ hq, ent_addAt hQ _ _ _ _ _ hp, if_pos ⟨rfl, rfl⟩,
    if_pos ⟨rfl, rfl⟩]
  ring

/-- The numerator only depends on the two neighbouring rows. -/
theorem numF_congr {n : ℕ} {Q : Pat} (hQ : Triangular n Q) {k p i j : ℕ} (c x : ℤ) (h1 : 1 ≤ k)
    (hk : k + p < n) (hi : i ≠ k - 1) (hi' : i ≠ k + 1) : numF n (addAt Q i j c) k p x = numF n Q k p x := by
  unfold numF
  congr 1
  · refine prod_congr rfl fun s hs => ?_
    have := mem_range.1 hs
    rw [ent_addAt hQ _ _ _ _ _ (by omega), if_neg (by omega), add_zero]
  · refine prod_congr rfl fun s hs => ?_
    have := mem_range.1 hs
    rw [ent_addAt hQ _ _ _ _ _ (by omega), if_neg (by omega), add_zero]

/-- The denominator only depends on the row. -/
theorem denF_congr {n : ℕ} {Q : Pat} (hQ : Triangular n Q) {k p i j : ℕ} (c x : ℤ)
    (hi : i ≠ k) : denF n (addAt Q i j c) k p x = denF n Q k p x := by
  unfold denF
  refine prod_congr rfl fun s hs => ?_
  simp only [mem_erase, mem_range] at hs
  rw [ent_addAt hQ _ _ _ _ _ (by omega), if_neg (by omega), add_zero]

theorem num_adjacent {n : ℕ} {Q : Pat} (hQ : Triangular n Q) {k p q : ℕ} (h1 : 1 ≤ k)
    (hq : k + 1 + q < n) (hp : k + p < n) :
    numF n Q k p (ent Q k p) * numF n Q (k + 1) q (ent Q (k + 1) q) =
      numF n (addAt Q (k + 1) q 1) k p (ent Q k p) *
        numF n (addAt Q k p 1) (k + 1) q (ent Q (k + 1) q) := by
  unfold numF
  simp only [Nat.add_sub_cancel]
  have m1 : q ∈ range (n - k - 1) := mem_range.2 (by omega)
  have m2 : p ∈ range (n - (k + 1) + 1) := mem_range.2 (by omega)
  rw [← mul_prod_erase (range (n - k - 1)) _ m1, ← mul_prod_erase (range (n - (k + 1) + 1)) _ m2,
    ← mul_prod_erase (range (n - k - 1)) _ m1, ← mul_prod_erase (range (n - (k + 1) + 1)) _ m2]
  have c1 : ∏ s ∈ range (n - k + 1), (ent (addAt Q (k + 1) q 1) (k - 1) s - ent Q k p + p - s) =
      ∏ s ∈ range (n - k + 1), (ent Q (k - 1) s - ent Q k p + p - s) := prod_congr rfl fun s hs => by
    have := mem_range.1 hs
    rw [ent_addAt hQ _ _ _ _ _ (by omega), if_neg (by omega), add_zero]
  have c2 : ∏ s ∈ (range (n - k - 1)).erase q,
      (ent (addAt Q (k + 1) q 1) (k + 1) s - ent Q k p + p - s - 1) =
      ∏ s ∈ (range (n - k - 1)).erase q, (ent Q (k + 1) s - ent Q k p + p - s - 1) :=
    prod_congr rfl fun s hs => by
      simp only [mem_erase, mem_range] at hs
      rw [ent_addAt hQ _ _ _ _ _ (by omega), if_neg (by omega), add_zero]
  have c3 : ∏ s ∈ (range (n - (k + 1) + 1)).erase p,
      (ent (addAt Q k p 1) k s - ent Q (k + 1) q + q - s) =
      ∏ s ∈ (range (n - (k + 1) + 1)).erase p, (ent Q k s - ent Q (k + 1) q + q - s) :=
    prod_congr rfl fun s hs => by
      simp only [mem_erase, mem_range] at hs
      rw [ent_addAt hQ _ _ _ _ _ (by omega), if_neg (by omega), add_zero]
  have c4 : ∏ s ∈ range (n - (k + 1) - 1),
      (ent (addAt Q k p 1) (k + 1 + 1) s - ent Q (k + 1) q + q - s - 1) =
      ∏ s ∈ range (n - (k + 1) - 1), (ent Q (k + 1 + 1) s - ent Q (k + 1) q + q - s - 1) :=
    prod_congr rfl fun s hs => by
      have := mem_range.1 hs
      rw [ent_addAt hQ _ _ _ _ _ (by omega), if_neg (by omega), add_zero]
  rw [c1, c2, c3, c4, ent_addAt hQ _ _ _ _ _ hq, ent_addAt hQ _ _ _ _ _ hp, if_pos ⟨rfl, rfl⟩,
    if_pos ⟨rfl, rfl⟩]
  ring

/-- The numerators of two different places. -/
theorem num_comm {n : ℕ} {Q : Pat} (hQ : Triangular n Q) {k p i q : ℕ} (h1 : 1 ≤ k) (h2 : 1 ≤ i)
    (hp : k + p < n) (hq : i + q < n) :
    numF n Q k p (ent Q k p) * numF n Q i q (ent Q i q) =
      numF n (addAt Q i q 1) k p (ent Q k p) * numF n (addAt Q k p 1) i q (ent Q i q) := by
  by_cases e1 : i = k + 1
  · subst e1
    exact num_adjacent hQ h1 hq hp
  · by_cases e2 : k = i + 1
    · subst e2
      have := num_adjacent hQ h2 hp hq
      rw [mul_comm, this, mul_comm]
    · rw [numF_congr hQ _ _ h1 hp (by omega) e1, numF_congr hQ _ _ h2 hq (by omega) e2]

theorem den_comm {n : ℕ} {Q : Pat} (hQ : Triangular n Q) {k p i q : ℕ}
    (hp : k + p < n) (hq : i + q < n) (hne : (k, p) ≠ (i, q)) :
    denF n Q k p (ent Q k p) * denF n Q i q (ent Q i q) =
      denF n (addAt Q i q 1) k p (ent Q k p) * denF n (addAt Q k p 1) i q (ent Q i q) := by
  by_cases e1 : i = k
  · subst e1
    exact den_same hQ hp hq (fun e => hne (by rw [e]))
  · rw [denF_congr hQ _ _ e1, denF_congr hQ _ _ (Ne.symm e1)]

theorem coefSq_comm {n : ℕ} {Q : Pat} (hQ : Triangular n Q) {k p i q : ℕ} (h1 : 1 ≤ k) (h2 : 1 ≤ i)
    (hp : k + p < n) (hq : i + q < n) (hne : (k, p) ≠ (i, q)) :
    coefSq n Q k p (ent Q k p) * coefSq n Q i q (ent Q i q) =
      coefSq n (addAt Q i q 1) k p (ent (addAt Q i q 1) k p) *
        coefSq n (addAt Q k p 1) i q (ent (addAt Q k p 1) i q) := by
  have a := num_comm hQ h1 h2 hp hq
  have b := den_comm hQ hp hq hne
  rw [ent_addAt hQ _ _ _ _ _ hp, ent_addAt hQ _ _ _ _ _ hq,
    if_neg (fun e => hne (by rw [e.1, e.2])), if_neg (fun e => hne (by rw [e.1, e.2])), add_zero, add_zero]
  unfold coefSq
  rw [div_mul_div_comm, div_mul_div_comm]
  congr 1
  · rw [neg_mul_neg, neg_mul_neg]; exact_mod_cast a
  · exact_mod_cast b

/-! ## Validity of the intermediate patterns -/

theorem isGT_addAt_iff {S : List ℤ} {M : Pat} (hM : IsGT S M) {k l : ℕ} (h1 : 1 ≤ k) (c : ℤ) :
    IsGT S (addAt M k l c) ↔ Interlacing (addAt M k l c) := by
  refine ⟨fun h => h.2.2, fun h => ⟨tri_addAt hM.1 _ _ _, ?_, h⟩⟩
  have hh := hM.2.1
  match M, hh with
  | R :: M', hh =>
    simp at hh
    subst hh
    have e : R.mapIdx (fun j x => if (0, j) = (k, l) then x + c else x) = R := by
      apply List.ext_getElem (by simp)
      intro j h1 h2
      simp
      omega
    simp only [addAt, List.mapIdx_cons, List.head?_cons]
    rw [e]

theorem mid_ineq {u v : ℤ} {ua ub va vb : Prop} [Decidable ua] [Decidable ub] [Decidable va]
    [Decidable vb] (hu : ua → ub → False) (hv : va → vb → False) (h : v ≤ u)
    (h' : v + (if va then -1 else 0) + (if vb then 1 else 0) ≤
      u + (if ua then -1 else 0) + (if ub then 1 else 0)) :
    v + (if va then -1 else 0) ≤ u + (if ua then -1 else 0) ∧
      v + (if vb then 1 else 0) ≤ u + (if ub then 1 else 0) := by
  by_cases h1 : ua <;> by_cases h2 : ub <;> by_cases h3 : va <;> by_cases h4 : vb <;>
    first
      | exact (hu h1 h2).elim
      | exact (hv h3 h4).elim
      | (simp only [h1, h2, h3, h4, if_true, if_false] at h' ⊢; omega)

/-- Raising one entry and lowering another one: both can be done first. -/
theorem isGT_mid {S : List ℤ} {M : Pat} (hM : IsGT S M) {k p i q : ℕ} (h1 : 1 ≤ k) (h2 : 1 ≤ i)
    (hne : (k, p) ≠ (i, q)) (hN : IsGT S (addAt (addAt M i q (-1)) k p 1)) :
    IsGT S (addAt M i q (-1)) ∧ IsGT S (addAt M k p 1) := by
  have hT := hM.1
  have hT' := tri_addAt hT i q (-1)
  have eN : ∀ a b, a + b < S.length → ent (addAt (addAt M i q (-1)) k p 1) a b = ent M a b +
      (if a = i ∧ b = q then -1 else 0) + (if a = k ∧ b = p then 1 else 0) := fun a b h => by
    rw [ent_addAt hT' _ _ _ _ _ h, ent_addAt hT _ _ _ _ _ h]
  have hne' : ∀ a b, (a = i ∧ b = q) → (a = k ∧ b = p) → False := by
    rintro a b ⟨rfl, rfl⟩ ⟨rfl, rfl⟩; exact hne rfl
  have key : ∀ a b, a + b + 1 < S.length → _ := fun a b hab => by
    have g1 := hM.2.2 a b (by rw [hT.1]; omega)
    have g2 := hN.2.2 a b (by rw [length_addAt, length_addAt, hT.1]; omega)
    rw [eN _ _ (by omega), eN _ _ (by omega), eN _ _ (by omega)] at g2
    exact And.intro (mid_ineq (hne' (a + 1) b) (hne' a (b + 1)) g1.1 g2.1)
      (mid_ineq (hne' a b) (hne' (a + 1) b) g1.2 g2.2)
  rw [isGT_addAt_iff hM h2, isGT_addAt_iff hM h1]
  constructor
  · intro a b hab
    rw [length_addAt, hT.1] at hab
    rw [ent_addAt hT _ _ _ _ _ (by omega), ent_addAt hT _ _ _ _ _ (by omega),
      ent_addAt hT _ _ _ _ _ (by omega)]
    exact ⟨(key a b hab).1.1, (key a b hab).2.1⟩
  · intro a b hab
    rw [length_addAt, hT.1] at hab
    rw [ent_addAt hT _ _ _ _ _ (by omega), ent_addAt hT _ _ _ _ _ (by omega),
      ent_addAt hT _ _ _ _ _ (by omega)]
    exact ⟨(key a b hab).1.2, (key a b hab).2.2⟩

/-- The coefficient is zero where the entry cannot be raised. -/
theorem coefSq_up_zero {S : List ℤ} {M : Pat} (hM : IsGT S M) {k p : ℕ} (h1 : 1 ≤ k)
    (hp : k + p < S.length) (h : ¬ IsGT S (addAt M k p 1)) : coefSq S.length M k p (ent M k p) = 0 := by
  by_contra hne
  refine h ((isGT_addAt_iff hM h1 1).2 ?_)
  have hnum : numF S.length M k p (ent M k p) ≠ 0 := fun e => hne (by unfold coefSq; rw [e]; simp)
  unfold numF at hnum
  have hT := hM.1
  have a1 : ent M k p ≠ ent M (k - 1) p := fun e => hnum (by
    rw [prod_eq_zero (i := p) (mem_range.2 (by omega)) (by rw [e]; ring), zero_mul])
  have a2 : ∀ t, p = t + 1 → ent M k p ≠ ent M (k + 1) t := fun t ht e => hnum (by
    rw [prod_eq_zero (s := range (S.length - k - 1)) (i := t) (mem_range.2 (by omega))
      (by rw [e, ht]; push_cast; ring), mul_zero])
  intro a b hab
  rw [length_addAt, hT.1] at hab
  have g1 := hM.2.2 a b (by rw [hT.1]; omega)
  rw [ent_addAt hT _ _ _ _ _ (by omega), ent_addAt hT _ _ _ _ _ (by omega),
      ent_addAt hT _ _ _ _ _ (by omega)]
  constructor
  · by_cases c1 : a = k ∧ b + 1 = p
    · have := a2 b (by omega)
      obtain ⟨rfl, rfl⟩ := c1
      rw [if_pos ⟨rfl, rfl⟩]
      split_ifs <;> omega
    · rw [if_neg c1]
      split_ifs <;> omega
  · by_cases c1 : a + 1 = k ∧ b = p
    · obtain ⟨rfl, rfl⟩ := c1
      rw [Nat.add_sub_cancel] at a1
      rw [if_pos ⟨rfl, rfl⟩]
      split_ifs <;> omega
    · rw [if_neg c1]
      split_ifs <;> omega

/-- The coefficient is zero where the entry cannot be lowered. -/
theorem coefSq_down_zero {S : List ℤ} {M : Pat} (hM : IsGT S M) {k p : ℕ} (h1 : 1 ≤ k)
    (hp : k + p < S.length) (h : ¬ IsGT S (addAt M k p (-1))) :
    coefSq S.length M k p (ent M k p - 1) = 0 := by
  by_contra hne
  refine h ((isGT_addAt_iff hM h1 (-1)).2 ?_)
  have hnum : numF S.length M k p (ent M k p - 1) ≠ 0 := fun e => hne (by unfold coefSq; rw [e]; simp)
  unfold numF at hnum
  have hT := hM.1
  have a1 : ent M k p ≠ ent M (k - 1) (p + 1) := fun e => hnum (by
    rw [prod_eq_zero (i := p + 1) (mem_range.2 (by omega)) (by rw [e]; push_cast; ring), zero_mul])
  have a2 : k + p + 1 < S.length → ent M k p ≠ ent M (k + 1) p := fun t e => hnum (by
    rw [prod_eq_zero (s := range (S.length - k - 1)) (i := p) (mem_range.2 (by omega))
      (by rw [e]; ring), mul_zero])
  intro a b hab
  rw [length_addAt, hT.1] at hab
  have g1 := hM.2.2 a b (by rw [hT.1]; omega)
  rw [ent_addAt hT _ _ _ _ _ (by omega), ent_addAt hT _ _ _ _ _ (by omega),
      ent_addAt hT _ _ _ _ _ (by omega)]
  constructor
  · by_cases c1 : a + 1 = k ∧ b = p
    · obtain ⟨rfl, rfl⟩ := c1
      rw [Nat.add_sub_cancel] at a1
      split_ifs <;> omega
    · rw [if_neg c1]
      split_ifs <;> omega
  · by_cases c1 : a = k ∧ b = p
    · obtain ⟨rfl, rfl⟩ := c1
      have := a2 (by omega)
      split_ifs <;> omega
    · rw [if_neg c1]
      split_ifs <;> omega

end LieNN.SUN
