import Verif.Proofs.Mat
/-!
# `direct_sum` and `block_diagonal` of lists of matrices
-/
namespace LieNN

open Matrix

/-- Direct sum of a list, the empty sum being the `0 × 0` matrix. -/
def dsums (l : List SMat) : SMat := l.foldr SMat.dsum ⟨0, 0, 0⟩

theorem dsum_empty (A : SMat) : SMat.dsum A ⟨0, 0, 0⟩ = A := by
  apply SMat.ext_get
  · simp [SMat.dsum]
  · simp [SMat.dsum]
  · intro i hi j hj
    have hi : i < A.rows := by simpa [SMat.dsum] using hi
    have hj : j < A.cols := by simpa [SMat.dsum] using hj
    rw [SMat.get_dsum, if_pos hi, if_pos hj]

theorem empty_dsum (A : SMat) : SMat.dsum ⟨0, 0, 0⟩ A = A := by
  apply SMat.ext_get
  · simp [SMat.dsum]
  · simp [SMat.dsum]
  · intro i hi j hj
    rw [SMat.get_dsum, if_neg (by simp), if_neg (by simp)]
    simp

theorem directSumMats_ok {l : List SMat} (hl : l ≠ []) : directSumMats l = .ok (dsums l) := by
  induction l with
  | nil => exact absurd rfl hl
  | cons A l ih =>
    cases l with
    | nil => simp [directSumMats, dsums, dsum_empty]
    | cons B l =>
      rw [directSumMats, ih (by simp)]
      rfl

theorem dsums_append (l₁ l₂ : List SMat) : dsums (l₁ ++ l₂) = SMat.dsum (dsums l₁) (dsums l₂) := by
  induction l₁ with
  | nil => exact (empty_dsum _).symm
  | cons A l ih =>
    show SMat.dsum A (dsums (l ++ l₂)) = _
    rw [ih, ← SMat.dsum_assoc]
    rfl

theorem dsums_rows (l : List SMat) : (dsums l).rows = (l.map SMat.rows).sum := by
  induction l with
  | nil => rfl
  | cons A l ih => rw [List.map_cons, List.sum_cons, ← ih]; rfl

theorem dsums_cols (l : List SMat) : (dsums l).cols = (l.map SMat.cols).sum := by
  induction l with
  | nil => rfl
  | cons A l ih => rw [List.map_cons, List.sum_cons, ← ih]; rfl

theorem dsums_get_block (l₁ l₂ : List SMat) (A : SMat) {i j : ℕ} (hi : i < A.rows)
    (hj : j < A.cols) :
    (dsums (l₁ ++ A :: l₂)).get ((l₁.map SMat.rows).sum + i) ((l₁.map SMat.cols).sum + j) =
      A.get i j := by
  rw [dsums_append, SMat.get_dsum, ← dsums_rows, ← dsums_cols, if_neg (by omega), if_neg (by omega),
    Nat.add_sub_cancel_left, Nat.add_sub_cancel_left]
  show (SMat.dsum A (dsums l₂)).get i j = _
  rw [SMat.get_dsum, if_pos hi, if_pos hj]

theorem dsums_get_ne_zero (l : List SMat) {i j : ℕ} (h : (dsums l).get i j ≠ 0) :
    ∃ l₁ A l₂ i' j', l = l₁ ++ A :: l₂ ∧ i' < A.rows ∧ j' < A.cols ∧
      i = (l₁.map SMat.rows).sum + i' ∧ j = (l₁.map SMat.cols).sum + j' := by
  induction l generalizing i j with
  | nil => exact absurd (SMat.get_of_not _ (by simp [dsums])) h
  | cons A l ih =>
    change (SMat.dsum A (dsums l)).get i j ≠ 0 at h
    rw [SMat.get_dsum] at h
    split_ifs at h with h1 h2 h3
    · exact ⟨[], A, l, i, j, rfl, h1, h2, by simp, by simp⟩
    · exact absurd rfl h
    · exact absurd rfl h
    · obtain ⟨l₁, B, l₂, i', j', rfl, hi, hj, e1, e2⟩ := ih h
      refine ⟨A :: l₁, B, l₂, i', j', rfl, hi, hj, ?_, ?_⟩ <;>
        simp only [List.map_cons, List.sum_cons] <;> omega

/-! ## `block_diagonal` -/

/-- The index `(i, j)` lies in one of the diagonal blocks. -/
def InBlock : List SMat → ℕ → ℕ → Prop
  | [], _, _ => False
  | A :: l, i, j => (i < A.rows ∧ j < A.cols) ∨
      (A.rows ≤ i ∧ A.cols ≤ j ∧ InBlock l (i - A.rows) (j - A.cols))

theorem dsums_get_not_inBlock (l : List SMat) {i j : ℕ} (h : ¬ InBlock l i j) :
    (dsums l).get i j = 0 := by
  induction l generalizing i j with
  | nil => exact SMat.get_of_not _ (by simp [dsums])
  | cons A l ih =>
    simp only [InBlock, not_or, not_and] at h
    show (SMat.dsum A (dsums l)).get i j = 0
    rw [SMat.get_dsum]
    split_ifs with h1 h2 h3
    · exact absurd h2 (h.1 h1)
    · rfl
    · rfl
    · exact ih (h.2 (by omega) (by omega))

open Classical in
theorem blockDiagonalLoop_apply {M N : ℕ} (l : List SMat) (x y : ℕ) (R : Matrix (Fin M) (Fin N) ℝ)
    (i : Fin M) (j : Fin N) :
    blockDiagonalLoop l x y R i j =
      if x ≤ i.1 ∧ y ≤ j.1 ∧ InBlock l (i.1 - x) (j.1 - y)
      then ((dsums l).get (i.1 - x) (j.1 - y)).re else R i j := by
  induction l generalizing x y R with
  | nil => simp [blockDiagonalLoop, InBlock]
  | cons A l ih =>
    rw [blockDiagonalLoop, ih]
    have hget : (dsums (A :: l)).get (i.1 - x) (j.1 - y) = _ :=
      SMat.get_dsum A (dsums l) (i.1 - x) (j.1 - y)
    rw [hget]
    by_cases hx : x ≤ i.1 ∧ y ≤ j.1
    · obtain ⟨hx, hy⟩ := hx
      have e1 : i.1 - (x + A.rows) = i.1 - x - A.rows := by omega
      have e2 : j.1 - (y + A.cols) = j.1 - y - A.cols := by omega
      rw [e1, e2]
      by_cases hb : A.rows ≤ i.1 - x ∧ A.cols ≤ j.1 - y ∧
          InBlock l (i.1 - x - A.rows) (j.1 - y - A.cols)
      · rw [if_pos ⟨by omega, by omega, hb.2.2⟩, if_pos ⟨hx, hy, Or.inr hb⟩, if_neg (by omega),
          if_neg (by omega)]
      · rw [if_neg (fun h => hb ⟨by omega, by omega, h.2.2⟩)]
        by_cases ha : i.1 - x < A.rows ∧ j.1 - y < A.cols
        · rw [if_pos ⟨hx, hy, Or.inl ha⟩, if_pos ha.1, if_pos ha.2]
          unfold setBlock
          rw [if_pos (by omega)]
        · rw [if_neg]
          · unfold setBlock
            rw [if_neg (by omega)]
          · rintro ⟨_, _, h | h⟩
            · exact ha h
            · exact hb h
    · rw [if_neg (by omega), if_neg (by omega)]
      unfold setBlock
      rw [if_neg (by omega)]

theorem blockDiagonal_eq {l : List SMat} (hl : l ≠ []) :
    ∃ B, blockDiagonal l = .ok B ∧ B.rows = (dsums l).rows ∧ B.cols = (dsums l).cols ∧
      ∀ i j, B.get i j = (((dsums l).get i j).re : ℂ) := by
  have hB : blockDiagonal l = .ok ⟨(l.map SMat.rows).sum, (l.map SMat.cols).sum,
      fun i j => ((blockDiagonalLoop l 0 0 0) i j : ℂ)⟩ := by
    unfold blockDiagonal
    rw [if_neg hl]
  refine ⟨_, hB, ?_, ?_, ?_⟩
  · exact (dsums_rows l).symm
  · exact (dsums_cols l).symm
  · intro i j
    by_cases h : i < (l.map SMat.rows).sum ∧ j < (l.map SMat.cols).sum
    · rw [SMat.get_of_lt _ h.1 h.2]
      simp only
      rw [blockDiagonalLoop_apply]
      by_cases hb : InBlock l i j
      · rw [if_pos ⟨Nat.zero_le _, Nat.zero_le _, hb⟩]
        rfl
      · rw [if_neg (fun h => hb h.2.2), dsums_get_not_inBlock l hb]
        simp
    · rw [SMat.get_of_not _ h, SMat.get_of_not, Complex.zero_re, Complex.ofReal_zero]
      rwa [dsums_rows, dsums_cols]

end LieNN
