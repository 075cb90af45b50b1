import Verif.Proofs.SUNMul
/-!
# The matrices of the ladder operators
-/
namespace LieNN.SUN

open Spec Matrix

/-- The matrix of the raising operator. -/
noncomputable def Jp (S : List ℤ) (l : ℕ) : Matrix (Fin (pats S).length) (Fin (pats S).length) ℂ :=
  Matrix.of fun i j => ((ladderVal S.length l (pats S)[i] (pats S)[j] : ℝ) : ℂ)

/-- The matrix of the weights. -/
noncomputable def Jz (S : List ℤ) (l : ℕ) : Matrix (Fin (pats S).length) (Fin (pats S).length) ℂ :=
  Matrix.diagonal fun i => (((mToZWeight (pats S)[i]).getD l 0 : ℚ) : ℂ)

theorem ladderMats_eq {S : List ℤ} (hS : IsWeight S) (f : ℕ → Pat → Pat → Py ℝ) (g : ℕ → Pat → Pat → ℝ)
    (h : ∀ l, l + 1 < S.length → ∀ N ∈ pats S, ∀ M ∈ pats S, f l N M = .ok (g l N M)) :
    ladderMats f S = .ok ((List.range (S.length - 1)).map fun l =>
      (pats S).map fun N => (pats S).map fun M => g l N M) := by
  unfold ladderMats
  rw [sToMs_eq S hS]
  simp only [SU2.ok_bind']
  rw [LieNN.mapM_ok (g := fun l => (pats S).map fun N => (pats S).map fun M => g l N M)]
  · simp only [SU2.ok_bind']
    rw [dim_eq S hS]
    simp only [SU2.ok_bind']
    rw [if_pos (by push_cast; ring)]
    rfl
  · intro l hl
    have := List.mem_range.1 hl
    rw [LieNN.mapM_ok (g := fun N => (pats S).map fun M => g l N M)]
    intro N hN
    rw [LieNN.mapM_ok (g := fun M => g l N M)]
    intro M hM
    exact h l (by omega) N hN M hM

theorem toMat_eq (P : List Pat) (g : Pat → Pat → ℝ) :
    toMat P.length (P.map fun N => P.map fun M => g N M) =
      Matrix.of fun i j => ((g P[i] P[j] : ℝ) : ℂ) := by
  ext i j
  simp only [toMat, Matrix.of_apply]
  have h1 : (P.map fun N => P.map fun M => g N M).getD i [] = P.map fun M => g P[i] M := by
    rw [List.getD_eq_getElem _ _ (by simp), List.getElem_map]
    rfl
  rw [h1, List.getD_eq_getElem _ _ (by simp), List.getElem_map]
  rfl

/-- What `upper_ladder_matrices` returns. -/
theorem upperMats_eq {S : List ℤ} (hS : IsWeight S) (h0 : ∀ s ∈ S, 0 ≤ s) :
    ∃ L, ladderMats upperLadder S = .ok L ∧ L.length = S.length - 1 ∧
      ∀ l, l + 1 < S.length → toMat (pats S).length (L.getD l []) = Jp S l := by
  refine ⟨_, ladderMats_eq hS upperLadder (fun l N M => ladderVal S.length l N M) ?_, by simp, ?_⟩
  · intro l hl N hN M hM
    exact upperLadder_eq (goodPat_of_mem hS h0 (by omega) hM) (goodPat_of_mem hS h0 (by omega) hN) hl
  · intro l hl
    rw [List.getD_eq_getElem _ _ (by simp; omega), List.getElem_map, List.getElem_range, toMat_eq]
    rfl

/-- What `lower_ladder_matrices` returns. -/
theorem lowerMats_eq {S : List ℤ} (hS : IsWeight S) (h0 : ∀ s ∈ S, 0 ≤ s) :
    ∃ L, ladderMats lowerLadder S = .ok L ∧ L.length = S.length - 1 ∧
      ∀ l, l + 1 < S.length → toMat (pats S).length (L.getD l []) = (Jp S l)ᵀ := by
  refine ⟨_, ladderMats_eq hS lowerLadder (fun l N M => ladderVal S.length l M N) ?_, by simp, ?_⟩
  · intro l hl N hN M hM
    exact lowerLadder_eq (goodPat_of_mem hS h0 (by omega) hN) (goodPat_of_mem hS h0 (by omega) hM) hl
  · intro l hl
    rw [List.getD_eq_getElem _ _ (by simp; omega), List.getElem_map, List.getElem_range, toMat_eq]
    rfl

/-- What `Jz_matrices` returns. -/
theorem jzDiag_eq {S : List ℤ} (hS : IsWeight S) :
    ∃ L, jzDiag S = .ok L ∧ L.length = S.length - 1 ∧
      ∀ l, l + 1 < S.length → toDiag (pats S).length (L.getD l []) = Jz S l := by
  unfold jzDiag
  rw [sToMs_eq S hS]
  refine ⟨_, rfl, by simp, fun l hl => ?_⟩
  unfold toDiag Jz
  congr 1
  funext i
  have h1 : ((List.range (S.length - 1)).map fun l => (pats S).map fun M =>
      (mToZWeight M).getD l 0).getD l [] = (pats S).map fun M => (mToZWeight M).getD l 0 := by
    rw [List.getD_eq_getElem _ _ (by simp; omega), List.getElem_map, List.getElem_range]
  rw [h1, List.getD_eq_getElem _ _ (by simp), List.getElem_map]
  rfl

/-- `[Jz_i, Jp_l]` is the Cartan integer times half of `Jp_l`. -/
theorem Jz_Jp {S : List ℤ} (hS : IsWeight S) (i l : ℕ) (hi : i + 1 < S.length) :
    Jz S i * Jp S l - Jp S l * Jz S i =
      (if i = l then (1 : ℂ) else if i = l + 1 ∨ i + 1 = l then -1 / 2 else 0) • Jp S l := by
  ext a b
  unfold Jz
  rw [Matrix.sub_apply, Matrix.diagonal_mul, Matrix.mul_diagonal, Matrix.smul_apply]
  by_cases h : ladderVal S.length l (pats S)[a] (pats S)[b] = 0
  · simp only [Jp, Matrix.of_apply, h]
    simp
  · have hT := ((mem_pats S hS (pats S)[b]).1 (List.getElem_mem _)).1
    rw [ladderVal_weight hT i hi h]
    rw [smul_eq_mul]
    split_ifs <;> push_cast <;> ring

end LieNN.SUN
