import Verif.Proofs.SUNCGRow
/-!
# Labels for which every pattern can be lowered in at most one way
-/
namespace LieNN.SUN

open Spec Finset Matrix

section
variable {S : List ℤ}

theorem getD_mono (hS : IsWeight S) {i j : ℕ} (hij : i ≤ j) (hj : j < S.length) : S.getD j 0 ≤ S.getD i 0 := by
  rcases Nat.lt_or_eq_of_le hij with h | rfl
  · rw [List.getD_eq_getElem _ _ hj, List.getD_eq_getElem _ _ (by omega)]
    exact List.pairwise_iff_getElem.1 hS.2 i j _ _ h
  · exact le_rfl

theorem getD_nonneg (h0 : ∀ s ∈ S, 0 ≤ s) (i : ℕ) : 0 ≤ S.getD i 0 := by
  by_cases h : i < S.length
  · rw [List.getD_eq_getElem _ _ h]
    exact h0 _ (List.getElem_mem _)
  · rw [List.getD_eq_default _ _ (by omega)]

theorem gt_ge_row0 {M : Pat} (hM : IsGT S M) : ∀ i j, i + j < S.length → S.getD (i + j) 0 ≤ ent M i j := by
  intro i
  induction i with
  | zero => intro j _; rw [Nat.zero_add]; exact (gt_row0 hM j).ge
  | succ i ih =>
    intro j hj
    have := ih (j + 1) (by omega)
    rw [show i + (j + 1) = i + 1 + j by omega] at this
    exact this.trans (hM.2.2 i j (by rw [hM.1.1]; omega)).1

theorem gt_row_mono {M : Pat} (hM : IsGT S M) (i : ℕ) {j j' : ℕ} (hj : j ≤ j') (h : i + j' < S.length) :
    ent M i j' ≤ ent M i j := by
  induction j', hj using Nat.le_induction with
  | base => exact le_rfl
  | succ m hm ih =>
    have := hM.2.2 i m (by rw [hM.1.1]; omega)
    exact (this.1.trans this.2).trans (ih (by omega))

theorem JR_ne_iff (hS : IsWeight S) (l : ℕ) (a b : Fin (pats S).length) :
    JR S l a b ≠ 0 ↔ ∃ k, l + 1 + k < S.length ∧ addAt (pats S)[b] (l + 1) k 1 = (pats S)[a] := by
  constructor
  · exact ladderVal_ne
  · rintro ⟨k, hk, e⟩
    unfold JR
    rw [← e]
    exact (ladderVal_pos (idx_gt hS b) hk (by rw [e]; exact idx_gt hS a)).ne'

/-- The labels for which every pattern can be lowered in at most one way in every row. -/
theorem unique_lowering (hS : IsWeight S) (h0 : ∀ s ∈ S, 0 ≤ s)
    (hc : S.getD 1 0 = 0 ∨ S.getD (S.length - 2) 0 = S.getD 0 0 ∨ S.getD 0 0 ≤ 1) :
    ∀ l c k k', l + 1 < S.length → JR S l c k ≠ 0 → JR S l c k' ≠ 0 → k = k' := by
  intro l c k k' hl h1 h2
  obtain ⟨j, hj, e⟩ := (JR_ne_iff hS l c k).1 h1
  obtain ⟨j', hj', e'⟩ := (JR_ne_iff hS l c k').1 h2
  have gk := idx_gt hS k
  have gk' := idx_gt hS k'
  have gc := idx_gt hS c
  have ek : ∀ x y, x + y < S.length → ent (pats S)[c] x y = ent (pats S)[k] x y + if x = l + 1 ∧ y = j then 1 else 0 := by
    intro x y hxy
    rw [← e]
    exact ent_addAt gk.1 _ _ _ _ _ hxy
  have ek' : ∀ x y, x + y < S.length → ent (pats S)[c] x y = ent (pats S)[k'] x y + if x = l + 1 ∧ y = j' then 1 else 0 := by
    intro x y hxy
    rw [← e']
    exact ent_addAt gk'.1 _ _ _ _ _ hxy
  by_cases hjj : j = j'
  · subst hjj
    refine idx_inj hS (tri_ext gk.1 gk'.1 fun x y hxy => ?_)
    have a := ek x y hxy
    have b := ek' x y hxy
    omega
  exfalso
  -- both entries are above the next entry of the previous row
  have la : ent (pats S)[c] l (j + 1) + 1 ≤ ent (pats S)[c] (l + 1) j := by
    have a := ek l (j + 1) (by omega)
    have b := ek (l + 1) j (by omega)
    rw [if_neg (by omega)] at a
    rw [if_pos ⟨rfl, rfl⟩] at b
    have := (gk.2.2 l j (by rw [gk.1.1]; omega)).1
    omega
  have lb : ent (pats S)[c] l (j' + 1) + 1 ≤ ent (pats S)[c] (l + 1) j' := by
    have a := ek' l (j' + 1) (by omega)
    have b := ek' (l + 1) j' (by omega)
    rw [if_neg (by omega)] at a
    rw [if_pos ⟨rfl, rfl⟩] at b
    have := (gk'.2.2 l j' (by rw [gk'.1.1]; omega)).1
    omega
  have key : ∀ j j', j < j' → l + 1 + j' < S.length → ent (pats S)[c] l (j + 1) + 1 ≤ ent (pats S)[c] (l + 1) j →
      ent (pats S)[c] l (j' + 1) + 1 ≤ ent (pats S)[c] (l + 1) j' → False := by
    intro j j' hlt hj' la lb
    have b1 := gt_ge_row0 gc l (j' + 1) (by omega)
    have b2 := gt_le_row0 gc (l + 1) j' (by omega)
    have b3 := gt_ge_row0 gc l (j + 1) (by omega)
    have b4 := gt_le_row0 gc (l + 1) j (by omega)
    have b5 := gt_row_mono gc l (j := j + 1) (j' := j') (by omega) (by omega)
    have b6 := (gc.2.2 l j' (by rw [gc.1.1]; omega)).2
    have n1 := getD_nonneg h0 (l + (j' + 1))
    have m1 := getD_mono hS (i := 0) (j := j) (by omega) (by omega)
    rcases hc with hc | hc | hc
    · have m2 := getD_mono hS (i := 1) (j := j') (by omega) (by omega)
      omega
    · have m2 := getD_mono hS (i := l + (j + 1)) (j := S.length - 2) (by omega) (by omega)
      omega
    · omega
  rcases lt_or_gt_of_ne hjj with hlt | hlt
  · exact key j j' hlt hj' la lb
  · exact key j' j hlt hj lb la

/-! ## The other labels -/

/-- The triangular array with given entries. -/
def patOf (n : ℕ) (f : ℕ → ℕ → ℤ) : Pat := (List.range n).map fun i => (List.range (n - i)).map (f i)

theorem patOf_row (n : ℕ) (f : ℕ → ℕ → ℤ) {i : ℕ} (hi : i < n) : (patOf n f).getD i [] = (List.range (n - i)).map (f i) := by
  unfold patOf
  rw [List.getD_eq_getElem _ _ (by simpa using hi)]
  simp

theorem patOf_ent (n : ℕ) (f : ℕ → ℕ → ℤ) {i j : ℕ} (h : i + j < n) : ent (patOf n f) i j = f i j := by
  unfold ent
  rw [patOf_row n f (by omega), List.getD_eq_getElem _ _ (by simp; omega)]
  simp

theorem patOf_tri (n : ℕ) (f : ℕ → ℕ → ℤ) : Triangular n (patOf n f) := by
  refine ⟨by simp [patOf], fun i hi => ?_⟩
  rw [patOf_row n f hi]
  simp

theorem patOf_isGT (hS : S ≠ []) {f : ℕ → ℕ → ℤ} (h0 : ∀ j, f 0 j = S.getD j 0)
    (hi : ∀ i j, i + j + 1 < S.length → f i (j + 1) ≤ f (i + 1) j ∧ f (i + 1) j ≤ f i j) : IsGT S (patOf S.length f) := by
  refine ⟨patOf_tri _ _, ?_, fun i j h => ?_⟩
  · have h : 0 < S.length := List.length_pos_iff.2 hS
    rw [List.head?_eq_getElem?, List.getElem?_eq_getElem (by rw [(patOf_tri _ _).1]; exact h)]
    refine congrArg some (List.ext_getElem (by simp [patOf]) fun j h1 h2 => ?_)
    have := h0 j
    rw [List.getD_eq_getElem _ _ h2] at this
    simp [patOf, this]
  · rw [(patOf_tri _ _).1] at h
    rw [patOf_ent _ _ (by omega), patOf_ent _ _ (by omega), patOf_ent _ _ (by omega)]
    exact hi i j h

/-- Two arrays that differ by the move of one unit in row `l + 1` have a common raised pattern. -/
theorem JR_of_patOf (hS : IsWeight S) {l : ℕ} {c k' : Fin (pats S).length} {f' : ℕ → ℕ → ℤ}
    (hk' : (pats S)[k'] = patOf S.length f') {j' : ℕ} (hj' : l + 1 + j' < S.length)
    (he : ∀ x y, x + y < S.length → ent (pats S)[c] x y = f' x y + if x = l + 1 ∧ y = j' then 1 else 0) :
    JR S l c k' ≠ 0 := by
  refine (JR_ne_iff hS l c k').2 ⟨j', hj', tri_ext (tri_addAt (idx_gt hS k').1 _ _ _) (idx_gt hS c).1 fun x y hxy => ?_⟩
  rw [ent_addAt (idx_gt hS k').1 _ _ _ _ _ hxy, he x y hxy, hk', patOf_ent _ _ hxy]

/-- One unit is moved from the entry `j₁` to the entry `j₀` of the row `r`. -/
def moved (f : ℕ → ℕ → ℤ) (r j₀ j₁ : ℕ) (i j : ℕ) : ℤ :=
  f i j + (if i = r ∧ j = j₀ then 1 else 0) - (if i = r ∧ j = j₁ then 1 else 0)

theorem double_of (hS : IsWeight S) {f : ℕ → ℕ → ℤ} {r j₀ j₁ : ℕ} (hj : j₀ ≠ j₁) (h₀ : r + j₀ < S.length)
    (h₁ : r + j₁ < S.length) (gf : IsGT S (patOf S.length f)) (gf' : IsGT S (patOf S.length (moved f r j₀ j₁)))
    (htop : f r j₀ < S.getD j₀ 0)
    (hraise : ∀ (N : Pat) (l j : ℕ), IsGT S N → l + 1 + j < S.length →
      (∀ x y, x + y < S.length → ent N x y = f x y + if x = l + 1 ∧ y = j then 1 else 0) → l + 1 = r ∧ j = j₀) :
    ∃ k, k ≠ topIdx hS ∧ ∀ l c, l + 1 < S.length → JR S l c k ≠ 0 → ∃ k', k' ≠ k ∧ JR S l c k' ≠ 0 := by
  obtain ⟨k, hk⟩ := exists_idx hS gf
  obtain ⟨k', hk'⟩ := exists_idx hS gf'
  have hkent : ∀ x y, x + y < S.length → ent (pats S)[k] x y = f x y := fun x y hxy => by
    rw [hk, patOf_ent _ _ hxy]
  refine ⟨k, ?_, fun l c hl' hne => ⟨k', ?_, ?_⟩⟩
  · rintro rfl
    have a := hkent r j₀ h₀
    rw [topIdx_spec, topPat_ent S h₀] at a
    omega
  · rintro rfl
    have a := hkent r j₁ h₁
    rw [hk', patOf_ent _ _ h₁, moved, if_neg (fun e => hj e.2.symm), if_pos ⟨rfl, rfl⟩] at a
    omega
  · obtain ⟨j, hj', e⟩ := (JR_ne_iff hS l c k).1 hne
    have ek : ∀ x y, x + y < S.length → ent (pats S)[c] x y = f x y + if x = l + 1 ∧ y = j then 1 else 0 := by
      intro x y hxy
      rw [← hkent x y hxy, ← e]
      exact ent_addAt (idx_gt hS k).1 _ _ _ _ _ hxy
    obtain ⟨hr, rfl⟩ := hraise _ l j (idx_gt hS c) hj' ek
    refine JR_of_patOf hS hk' (j' := j₁) (by omega) fun x y hxy => ?_
    rw [ek x y hxy, moved, hr]
    omega

/-- The pattern for a label that is not a rectangle. -/
def fSlope (S : List ℤ) (r j₀ : ℕ) (i j : ℕ) : ℤ := S.getD j 0 - if r ≤ i ∧ j = j₀ then 1 else 0

theorem double_slope (hS : IsWeight S) {q j₀ : ℕ} (hq : q < S.length)
    (hposq : ∀ j < q, 1 ≤ S.getD j 0) (hzero : ∀ j, q ≤ j → j < S.length → S.getD j 0 = 0)
    (hj₀ : j₀ + 2 ≤ q) (hd : S.getD (j₀ + 1) 0 < S.getD j₀ 0) :
    ∃ k, k ≠ topIdx hS ∧ ∀ l c, l + 1 < S.length → JR S l c k ≠ 0 → ∃ k', k' ≠ k ∧ JR S l c k' ≠ 0 := by
  have hmono : ∀ i j, i ≤ j → j < S.length → S.getD j 0 ≤ S.getD i 0 := fun i j hij hj => getD_mono hS hij hj
  refine double_of hS (f := fSlope S (S.length - q) j₀) (r := S.length - q) (j₀ := j₀) (j₁ := q - 1) (by omega) (by omega)
    (by omega) ?_ ?_ ?_ ?_
  · refine patOf_isGT hS.1 (fun j => ?_) fun i j hij => ?_
    · rw [fSlope, if_neg (by omega), sub_zero]
    · have a1 := hmono j (j + 1) (by omega) (by omega)
      simp only [fSlope]
      by_cases ej : j = j₀
      · subst ej
        split_ifs <;> omega
      · split_ifs <;> omega
  · refine patOf_isGT hS.1 (fun j => ?_) fun i j hij => ?_
    · rw [moved, fSlope, if_neg (by omega), if_neg (by omega), if_neg (by omega)]
      omega
    · have a1 := hmono j (j + 1) (by omega) (by omega)
      have a2 := hposq j
      have a3 := hzero (j + 1)
      simp only [moved, fSlope]
      by_cases ej : j = j₀
      · subst ej
        split_ifs <;> omega
      · split_ifs <;> omega
  · rw [fSlope, if_pos ⟨le_rfl, rfl⟩]
    omega
  · intro N l j gc hj ek
    have a1 := ek (l + 1) j (by omega)
    rw [if_pos ⟨rfl, rfl⟩] at a1
    have a2 := gt_le_row0 gc (l + 1) j (by omega)
    have a3 := (gc.2.2 l j (by rw [gc.1.1]; omega)).2
    have a4 := ek l j (by omega)
    rw [if_neg (by omega)] at a4
    simp only [fSlope] at a1 a4
    by_contra hno
    split_ifs at a1 a4 <;> omega

/-- The pattern for a rectangle. -/
def fRect (a : ℤ) (n q : ℕ) (i j : ℕ) : ℤ :=
  if i + q + 1 < n then (if j < q then a else 0)
  else if i + q < n then (if j + 1 < q then a else if j < q then 1 else 0)
  else if j + 2 < q then a else 1

theorem fRect_top {a : ℤ} {n q i : ℕ} (j : ℕ) (h : i + q + 1 < n) : fRect a n q i j = if j < q then a else 0 := if_pos h

theorem fRect_mid {a : ℤ} {n q i : ℕ} (j : ℕ) (h : i + q + 1 = n) :
    fRect a n q i j = if j + 1 < q then a else if j < q then 1 else 0 := by
  rw [fRect, if_neg (by omega), if_pos (by omega)]

theorem fRect_low {a : ℤ} {n q i : ℕ} (j : ℕ) (h : n ≤ i + q) : fRect a n q i j = if j + 2 < q then a else 1 := by
  rw [fRect, if_neg (by omega), if_neg (by omega)]

theorem rect_inter {a : ℤ} {n q : ℕ} (ha : 1 < a) {i j : ℕ} (hij : i + j + 1 < n) :
    fRect a n q i (j + 1) ≤ fRect a n q (i + 1) j ∧ fRect a n q (i + 1) j ≤ fRect a n q i j := by
  rcases (by omega : i + 1 + q + 1 < n ∨ i + 1 + q + 1 = n ∨ i + q + 1 = n ∨ n ≤ i + q) with h | h | h | h
  · rw [fRect_top _ (by omega), fRect_top _ (by omega), fRect_top _ (by omega)]
    split_ifs <;> omega
  · rw [fRect_top _ (by omega), fRect_mid _ (by omega), fRect_top _ (by omega)]
    split_ifs <;> omega
  · rw [fRect_mid _ (by omega), fRect_low _ (by omega), fRect_mid _ (by omega)]
    split_ifs <;> omega
  · rw [fRect_low _ (by omega), fRect_low _ (by omega), fRect_low _ (by omega)]
    split_ifs <;> omega

theorem moved_off {f : ℕ → ℕ → ℤ} {r j₀ j₁ i : ℕ} (j : ℕ) (h : i ≠ r) : moved f r j₀ j₁ i j = f i j := by
  rw [moved, if_neg (fun e => h e.1), if_neg (fun e => h e.1), add_zero, sub_zero]

theorem moved_rect {a : ℤ} {n q r : ℕ} (hq2 : 2 ≤ q) (hr : r + q = n) (j : ℕ) (hj : j < q) :
    moved (fRect a n q) r (q - 2) (q - 1) r j = if j + 2 < q then a else if j + 1 < q then 2 else 0 := by
  rw [moved, fRect_low _ (by omega)]
  rcases (by omega : j + 2 < q ∨ j + 2 = q ∨ j + 1 = q) with h | h | h
  · rw [if_pos h, if_pos h, if_neg (by omega), if_neg (by omega)]
    omega
  · rw [if_neg (by omega), if_pos ⟨rfl, by omega⟩, if_neg (by omega), if_neg (by omega), if_pos (by omega)]
    omega
  · rw [if_neg (by omega), if_neg (by omega), if_pos ⟨rfl, by omega⟩, if_neg (by omega), if_neg (by omega)]
    omega

theorem double_rect (hS : IsWeight S) {q : ℕ} {a : ℤ} (hq2 : 2 ≤ q) (hqn : q + 2 ≤ S.length) (ha : 1 < a)
    (hS' : ∀ j, j < S.length → S.getD j 0 = if j < q then a else 0) :
    ∃ k, k ≠ topIdx hS ∧ ∀ l c, l + 1 < S.length → JR S l c k ≠ 0 → ∃ k', k' ≠ k ∧ JR S l c k' ≠ 0 := by
  have hall : ∀ j, S.getD j 0 = if j < q then a else 0 := fun j => by
    by_cases h : j < S.length
    · exact hS' j h
    · rw [List.getD_eq_default _ _ (by omega), if_neg (by omega)]
  obtain ⟨r, hr⟩ : ∃ r, r + q = S.length := ⟨S.length - q, by omega⟩
  refine double_of hS (f := fRect a S.length q) (r := r) (j₀ := q - 2) (j₁ := q - 1) (by omega) (by omega)
    (by omega) ?_ ?_ ?_ ?_
  · refine patOf_isGT hS.1 (fun j => ?_) fun i j hij => rect_inter ha hij
    rw [fRect_top _ (by omega), hall]
  · refine patOf_isGT hS.1 (fun j => ?_) fun i j hij => ?_
    · rw [moved_off _ (by omega), fRect_top _ (by omega), hall]
    · by_cases h1 : i = r
      · subst h1
        rw [moved_rect hq2 hr _ (by omega), moved_rect hq2 hr _ (by omega), moved_off _ (by omega), fRect_low _ (by omega)]
        split_ifs <;> omega
      · by_cases h2 : i + 1 = r
        · subst h2
          rw [moved_rect hq2 hr _ (by omega), moved_off _ (by omega), moved_off _ (by omega), fRect_mid _ (by omega),
            fRect_mid _ (by omega)]
          split_ifs <;> omega
        · rw [moved_off _ h1, moved_off _ h1, moved_off _ h2]
          exact rect_inter ha hij
  · rw [fRect_low _ (by omega), if_neg (by omega), hall, if_pos (by omega)]
    exact ha
  · intro N l j gc hj ek
    have a1 := ek (l + 1) j (by omega)
    rw [if_pos ⟨rfl, rfl⟩] at a1
    have a2 := gt_le_row0 gc (l + 1) j (by omega)
    have a3 := (gc.2.2 l j (by rw [gc.1.1]; omega)).2
    have a4 := ek l j (by omega)
    rw [if_neg (by omega)] at a4
    have a5 : 1 ≤ j → ent N (l + 1) j ≤ fRect a S.length q (l + 2) (j - 1) := by
      intro hj1
      have h1 : ent N (l + 1) (j - 1 + 1) ≤ ent N (l + 2) (j - 1) := (gc.2.2 (l + 1) (j - 1) (by rw [gc.1.1]; omega)).1
      have h2 := ek (l + 2) (j - 1) (by omega)
      rw [if_neg (by omega)] at h2
      rw [show j - 1 + 1 = j by omega] at h1
      omega
    rw [hall] at a2
    by_contra hno
    rcases (by omega : l + 1 + q + 1 < S.length ∨ l + 1 + q + 1 = S.length ∨ l + 1 + q = S.length ∨ S.length ≤ l + q) with
      h | h | h | h
    · rw [fRect_top _ (by omega)] at a1
      omega
    · rw [fRect_mid _ (by omega)] at a1
      rw [fRect_low _ (by omega)] at a5
      split_ifs at a1 a2 a5 <;> omega
    · rw [fRect_low _ (by omega)] at a1 a5
      split_ifs at a1 a2 a5 <;> omega
    · rw [fRect_low _ (by omega)] at a1 a4
      omega

/-- For every other label there is a pattern, not the highest, such that every raised pattern can be lowered
in a second way in the same row. -/
theorem double_lowering (hS : IsWeight S) (h0 : ∀ s ∈ S, 0 ≤ s) (hl : S.getD (S.length - 1) 0 = 0)
    (h1 : S.getD 1 0 ≠ 0) (h2 : S.getD (S.length - 2) 0 ≠ S.getD 0 0) (h3 : 1 < S.getD 0 0) :
    ∃ k, k ≠ topIdx hS ∧ ∀ l c, l + 1 < S.length → JR S l c k ≠ 0 → ∃ k', k' ≠ k ∧ JR S l c k' ≠ 0 := by
  have hpos := List.length_pos_iff.2 hS.1
  -- the number of the entries that are not zero
  obtain ⟨q, hq, hq0, hq1⟩ : ∃ q, q < S.length ∧ S.getD q 0 = 0 ∧ ∀ j < q, S.getD j 0 ≠ 0 := by
    have hex : ∃ q, q < S.length ∧ S.getD q 0 = 0 := ⟨S.length - 1, by omega, hl⟩
    classical
    refine ⟨Nat.find hex, (Nat.find_spec hex).1, (Nat.find_spec hex).2, fun j hj e => ?_⟩
    exact Nat.find_min hex hj ⟨by have := (Nat.find_spec hex).1; omega, e⟩
  have hq2 : 2 ≤ q := by
    by_contra hlt
    rcases (by omega : q = 0 ∨ q = 1) with rfl | rfl
    · omega
    · exact h1 hq0
  have hmono : ∀ i j, i ≤ j → j < S.length → S.getD j 0 ≤ S.getD i 0 := fun i j hij hj => getD_mono hS hij hj
  have hnn := getD_nonneg h0
  have hposq : ∀ j < q, 1 ≤ S.getD j 0 := fun j hj => by
    have := hnn j
    have := hq1 j hj
    omega
  have hzero : ∀ j, q ≤ j → j < S.length → S.getD j 0 = 0 := fun j h4 h5 => by
    have := hmono q j h4 h5
    have := hnn j
    omega
  by_cases hrect : S.getD (q - 1) 0 = S.getD 0 0
  · have hqn : q + 2 ≤ S.length := by
      by_contra hlt
      have : q - 1 = S.length - 2 := by omega
      rw [this] at hrect
      exact h2 hrect
    refine double_rect hS hq2 hqn h3 fun j hj => ?_
    split_ifs with hlt
    · have a := hmono j (q - 1) (by omega) (by omega)
      have b := hmono 0 j (by omega) (by omega)
      omega
    · exact hzero j (by omega) hj
  · obtain ⟨j₀, hj₀, hd⟩ : ∃ j₀, j₀ + 2 ≤ q ∧ S.getD (j₀ + 1) 0 < S.getD j₀ 0 := by
      by_contra hno
      push Not at hno
      have : ∀ j, j < q → S.getD j 0 = S.getD 0 0 := by
        intro j
        induction j with
        | zero => intro _; rfl
        | succ j ih =>
          intro hj
          have a := hno j (by omega)
          have b := hmono j (j + 1) (by omega) (by omega)
          have := ih (by omega)
          omega
      exact hrect (this (q - 1) (by omega))
    exact double_slope hS hq hposq hzero hj₀ hd

end

end LieNN.SUN
