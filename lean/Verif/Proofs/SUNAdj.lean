import Verif.Proofs.SUNLadder
/-!
# The ladder operators are adjoint to each other and shift the weights
-/
namespace LieNN.SUN

open Spec

/-- The number between two patterns. -/
noncomputable def ladderVal (n l : ℕ) (N M : Pat) : ℝ :=
  ∑ k ∈ Finset.range (n - (l + 1)), if addAt M (l + 1) k 1 = N then
    Real.sqrt (coefSq n M (l + 1) k (ent M (l + 1) k)) else 0

theorem foldlM_add {α : Type} (L : List α) (f : ℝ → α → Py ℝ) (g : α → ℝ)
    (h : ∀ a ∈ L, ∀ z, f z a = .ok (z + g a)) (z : ℝ) : L.foldlM f z = .ok (z + (L.map g).sum) := by
  induction L generalizing z with
  | nil => simp; rfl
  | cons a L ih =>
    rw [List.foldlM_cons, h a (by simp)]
    simp only [SU2.ok_bind', List.map_cons, List.sum_cons]
    rw [ih (fun b hb => h b (by simp [hb]))]
    rw [add_assoc]

theorem sum_range_listR (f : ℕ → ℝ) (n : ℕ) : ((List.range n).map f).sum = ∑ i ∈ Finset.range n, f i := by
  rw [← List.sum_toFinset f List.nodup_range, List.toFinset_range]

/-- Interlacing, triangular, non-negative. -/
def GoodPat (n : ℕ) (M : Pat) : Prop := Triangular n M ∧ Good n M

theorem mAddAt_eq {n : ℕ} {M : Pat} (hM : Triangular n M) (l k : ℕ) (c : ℤ) :
    (Good n (addAt M l k c) ∧ mAddAt M l k c = .ok (some (addAt M l k c))) ∨
      (¬ Good n (addAt M l k c) ∧ mAddAt M l k c = .ok none) := by
  obtain ⟨b, h1, h2⟩ := isValidM_eq (tri_addAt hM l k c)
  unfold mAddAt
  rw [h1]
  cases b with
  | true => left; exact ⟨h2.1 rfl, rfl⟩
  | false => right; exact ⟨fun h => by simpa using h2.2 h, rfl⟩

theorem ladder_step {n : ℕ} {M N : Pat} (hM : Triangular n M) (hN : GoodPat n N) {l k : ℕ} {c : ℤ}
    (coeff : Pat → ℕ → ℕ → Py ℝ) (v : ℝ)
    (hc : addAt M (l + 1) k c = N → coeff M (l + 1) k = .ok v) (acc : ℝ) :
    (do
      let M' ← mAddAt M (l + 1) k c
      if M' = some N then do
        let c ← coeff M (l + 1) k
        pure (acc + c)
      else pure acc) = (.ok (acc + if addAt M (l + 1) k c = N then v else 0) : Py ℝ) := by
  rcases mAddAt_eq hM (l + 1) k c with ⟨h1, h2⟩ | ⟨h1, h2⟩
  · rw [h2]
    simp only [SU2.ok_bind', Option.some.injEq]
    by_cases h : addAt M (l + 1) k c = N
    · rw [if_pos h, if_pos h, hc h]
      rfl
    · rw [if_neg h, if_neg h, add_zero]
      rfl
  · rw [h2]
    have h : addAt M (l + 1) k c ≠ N := fun e => h1 (e ▸ hN.2)
    simp only [SU2.ok_bind']
    rw [if_neg h, add_zero]
    rfl

theorem upperLadder_eq {n l : ℕ} {M N : Pat} (hM : GoodPat n M) (hN : GoodPat n N) (_hl : l + 1 < n) :
    upperLadder l N M = .ok (ladderVal n l N M) := by
  unfold upperLadder ladder ladderVal
  rw [hM.1.1]
  rw [foldlM_add _ _ (fun k : ℕ => if addAt M (l + 1) k 1 = N then
    Real.sqrt (coefSq n M (l + 1) k (ent M (l + 1) k)) else 0), sum_range_listR, zero_add]
  intro k hk z
  have hk := List.mem_range.1 hk
  refine ladder_step hM.1 hN coeffUpper _ (fun e => ?_) z
  exact coeffUpper_ok hM.1 (good_interlacing hM.1 hM.2) (e ▸ good_interlacing hN.1 hN.2)
    (by omega) (by omega)

theorem addAt_neg_iff {n : ℕ} {M N : Pat} (hM : Triangular n M) (hN : Triangular n N) (l k : ℕ) (c : ℤ) :
    addAt N l k (-c) = M ↔ addAt M l k c = N := by
  constructor
  · rintro rfl
    have := addAt_addAt hN l k (-c)
    rwa [neg_neg] at this
  · rintro rfl
    exact addAt_addAt hM l k c

theorem lowerLadder_eq {n l : ℕ} {M N : Pat} (hM : GoodPat n M) (hN : GoodPat n N) (_hl : l + 1 < n) :
    lowerLadder l M N = .ok (ladderVal n l N M) := by
  unfold lowerLadder ladder ladderVal
  rw [hN.1.1]
  rw [foldlM_add _ _ (fun k : ℕ => if addAt M (l + 1) k 1 = N then
    Real.sqrt (coefSq n M (l + 1) k (ent M (l + 1) k)) else 0), sum_range_listR, zero_add]
  intro k hk z
  have hk := List.mem_range.1 hk
  rw [ladder_step hN.1 hM coeffLower (Real.sqrt (coefSq n M (l + 1) k (ent M (l + 1) k)))
    (fun e => ?_) z]
  · have : (addAt N (l + 1) k (-1) = M) = (addAt M (l + 1) k 1 = N) :=
      propext (addAt_neg_iff hM.1 hN.1 _ _ _)
    simp only [this]
  · have e' := (addAt_neg_iff hM.1 hN.1 _ _ _).1 e
    have := coeffLower_ok hM.1 (good_interlacing hM.1 hM.2) (k := l + 1) (l := k)
      (e' ▸ good_interlacing hN.1 hN.2) (by omega) (by omega)
    rwa [e'] at this

/-- The patterns of a weight with non-negative entries. -/
theorem goodPat_of_mem {S : List ℤ} (hS : IsWeight S) (h0 : ∀ s ∈ S, 0 ≤ s) (h2 : 2 ≤ S.length)
    {M : Pat} (hM : M ∈ pats S) : GoodPat S.length M := by
  obtain ⟨hT, hh, hI⟩ := (mem_pats S hS M).1 hM
  refine ⟨hT, (good_iff hT h2).2 ⟨hI, ?_⟩⟩
  rw [← hT.1]
  refine nonneg_of_last hI ?_
  match M, hh with
  | R :: M', hh =>
    simp at hh
    subst hh
    have : ent (R :: M') 0 ((R :: M').length - 1) = R.getD (R.length - 1) 0 := by
      unfold ent
      rw [hT.1]
      rfl
    rw [this, List.getD_eq_getElem _ _ (by omega)]
    exact h0 _ (List.getElem_mem _)

/-! ## Weights -/

/-- The sum of the entries of a row; zero below the last. -/
def sig (n : ℕ) (M : Pat) (i : ℕ) : ℤ := ∑ j ∈ Finset.range (n - i), ent M i j

theorem sum_getD (R : List ℤ) : R.sum = ∑ j ∈ Finset.range R.length, R.getD j 0 := by
  induction R with
  | nil => simp
  | cons a R ih =>
    rw [List.sum_cons, List.length_cons, Finset.sum_range_succ', ih]
    simp [add_comm]

theorem sigma_getElem {n : ℕ} {M : Pat} (hM : Triangular n M) (i : ℕ) (h : i < (mToSigma M).length) :
    (mToSigma M)[i] = sig n M i := by
  have hl := hM.1
  simp only [mToSigma, List.length_append, List.length_map, List.length_singleton] at h
  simp only [mToSigma]
  unfold sig
  by_cases hi : i < n
  · rw [List.getElem_append_left (by simp; omega), List.getElem_map, sum_getD]
    have h2 := hM.2 i hi
    unfold ent
    rw [List.getD_eq_getElem _ _ (by omega)] at h2 ⊢
    rw [h2]
  · rw [List.getElem_append_right (by simp; omega)]
    rw [show n - i = 0 by omega]
    simp

theorem length_sigma {n : ℕ} {M : Pat} (hM : Triangular n M) : (mToSigma M).length = n + 1 := by
  simp [mToSigma, hM.1]

theorem zip_tail_reverse {α β : Type} (l : List α) (f : α × α → β) :
    ((l.reverse.zip l.reverse.tail).map f).reverse = (l.zip l.tail).map fun p => f (p.2, p.1) := by
  apply List.ext_getElem
  · simp
  · intro i h1 h2
    simp at h1 h2
    simp only [List.getElem_reverse, List.getElem_map, List.getElem_zip, List.getElem_tail,
      List.length_map, List.length_zip, List.length_reverse, List.length_tail]
    congr 2 <;> congr 1 <;> omega

theorem pWeight_eq (M : Pat) : mToPWeight M =
    ((mToSigma M).zip (mToSigma M).tail).map fun p => p.1 - p.2 := by
  unfold mToPWeight
  exact zip_tail_reverse (mToSigma M) fun p => p.2 - p.1

theorem zWeight_eq (M : Pat) : mToZWeight M =
    ((mToPWeight M).zip (mToPWeight M).tail).map fun p => ((p.2 - p.1 : ℤ) : ℚ) / 2 := by
  unfold mToZWeight
  have := zip_tail_reverse (mToPWeight M) fun p => ((p.1 - p.2 : ℤ) : ℚ) / 2
  rw [← this]
  apply List.ext_getElem
  · simp
  · intro i h1 h2
    simp

theorem length_pWeight {n : ℕ} {M : Pat} (hM : Triangular n M) : (mToPWeight M).length = n := by
  rw [pWeight_eq]
  simp [length_sigma hM]

theorem pWeight_getElem {n : ℕ} {M : Pat} (hM : Triangular n M) (i : ℕ) (h : i < (mToPWeight M).length) :
    (mToPWeight M)[i] = sig n M i - sig n M (i + 1) := by
  have hl := length_pWeight hM
  have hs := length_sigma hM
  simp only [pWeight_eq, List.getElem_map, List.getElem_zip, List.getElem_tail]
  rw [sigma_getElem hM, sigma_getElem hM]

theorem length_zWeight {n : ℕ} {M : Pat} (hM : Triangular n M) : (mToZWeight M).length = n - 1 := by
  rw [zWeight_eq]
  simp [length_pWeight hM]

theorem zWeight_getD {n : ℕ} {M : Pat} (hM : Triangular n M) (i : ℕ) (h : i + 1 < n) :
    (mToZWeight M).getD i 0 =
      ((2 * sig n M (i + 1) - sig n M i - sig n M (i + 2) : ℤ) : ℚ) / 2 := by
  have hl := length_zWeight hM
  rw [List.getD_eq_getElem _ _ (by omega)]
  simp only [zWeight_eq, List.getElem_map, List.getElem_zip, List.getElem_tail]
  rw [pWeight_getElem hM, pWeight_getElem hM]
  push_cast
  ring

theorem pWeight_sum {n : ℕ} {M : Pat} (hM : Triangular n M) : (mToPWeight M).sum = sig n M 0 := by
  rw [sum_getD, length_pWeight hM]
  rw [Finset.sum_congr rfl (g := fun i => sig n M i - sig n M (i + 1))]
  · rw [Finset.sum_range_sub']
    simp [sig]
  · intro i hi
    have := Finset.mem_range.1 hi
    rw [List.getD_eq_getElem _ _ (by rw [length_pWeight hM]; exact this), pWeight_getElem hM]

theorem sig_addAt {n : ℕ} {M : Pat} (hM : Triangular n M) {k l : ℕ} (hk : k + l < n) (c : ℤ) (i : ℕ) :
    sig n (addAt M k l c) i = sig n M i + if i = k then c else 0 := by
  unfold sig
  rw [Finset.sum_congr rfl (g := fun j => ent M i j + if i = k ∧ j = l then c else 0)]
  · rw [Finset.sum_add_distrib]
    congr 1
    by_cases h : i = k
    · subst h
      simp only [true_and, if_true]
      rw [Finset.sum_ite_eq' (Finset.range (n - i)) l fun _ => c, if_pos (Finset.mem_range.2 (by omega))]
    · simp [h]
  · intro j hj
    have := Finset.mem_range.1 hj
    exact ent_addAt hM k l c i j (by omega)

theorem zWeight_addAt {n : ℕ} {M : Pat} (hM : Triangular n M) {l k : ℕ} (hk : l + 1 + k < n) (i : ℕ)
    (hi : i + 1 < n) : (mToZWeight (addAt M (l + 1) k 1)).getD i 0 = (mToZWeight M).getD i 0 +
      (if i = l then 1 else if i = l + 1 ∨ i + 1 = l then -1 / 2 else 0) := by
  rw [zWeight_getD (tri_addAt hM _ _ _) i hi, zWeight_getD hM i hi, sig_addAt hM hk, sig_addAt hM hk,
    sig_addAt hM hk]
  by_cases h1 : i = l
  · subst h1
    simp
    ring
  · by_cases h2 : i = l + 1
    · subst h2
      simp
      ring
    · by_cases h3 : i + 1 = l
      · subst h3
        simp [show ¬ i = i + 1 + 1 by omega]
        ring
      · simp [h1, h2, h3, show ¬ i + 2 = l + 1 by omega]

/-- A non-zero number raises the weight. -/
theorem ladderVal_weight {n l : ℕ} {M N : Pat} (hM : Triangular n M) (i : ℕ)
    (hi : i + 1 < n) (h : ladderVal n l N M ≠ 0) : (mToZWeight N).getD i 0 = (mToZWeight M).getD i 0 +
      (if i = l then 1 else if i = l + 1 ∨ i + 1 = l then -1 / 2 else 0) := by
  unfold ladderVal at h
  obtain ⟨k, hk, hne⟩ := Finset.exists_ne_zero_of_sum_ne_zero h
  have := Finset.mem_range.1 hk
  have e : addAt M (l + 1) k 1 = N := by
    by_contra e
    rw [if_neg e] at hne
    exact hne rfl
  rw [← e]
  exact zWeight_addAt hM (by omega) i hi

end LieNN.SUN
