import Verif.Proofs.GLRel
import Verif.Proofs.GTMat
import Mathlib.Algebra.Lie.Sl2
import Mathlib.Algebra.Lie.OfAssociative
/-!
# The ladder operators satisfy the relations of the general linear Lie algebra
-/
namespace LieNN.SUN

open Spec Matrix

attribute [local instance 100] LieRing.ofAssociativeRing

theorem serre {L : Type} [LieRing L] [LieAlgebra ℂ L] [Module.Finite ℂ L] {h e f x : L}
    (h1 : ⁅e, f⁆ = h) (h2 : ⁅h, e⁆ = (2 : ℂ) • e) (h3 : ⁅h, f⁆ = -((2 : ℂ) • f)) (n : ℕ)
    (hx : ⁅h, x⁆ = (-(n : ℂ)) • x) (hfx : ⁅f, x⁆ = 0) :
    ((LieModule.toEnd ℂ L L e) ^ (n + 1)) x = 0 := by
  by_cases hz : h = 0
  · have he : e = 0 := by
      rw [hz, zero_lie] at h2
      exact (smul_eq_zero.1 h2.symm).resolve_left (by norm_num)
    rw [he, map_zero, zero_pow (by omega)]
    rfl
  by_cases hx0 : x = 0
  · rw [hx0, map_zero]
  have t : IsSl2Triple h e f := ⟨hz, h1, by rw [h2, two_smul, two_nsmul], by rw [h3, two_smul, two_nsmul]⟩
  have P : IsSl2Triple.HasPrimitiveVectorWith t.symm x (n : ℂ) :=
    ⟨hx0, by rw [neg_lie, hx, neg_smul, neg_neg], hfx⟩
  exact P.pow_toEnd_f_eq_zero_of_eq_nat rfl

/-- The diagonal of the general linear Lie algebra: minus the pattern weights. -/
noncomputable def Dw (S : List ℤ) (i : ℕ) : Matrix (Fin (pats S).length) (Fin (pats S).length) ℂ :=
  Matrix.diagonal fun a => ((sig S.length (pats S)[a] (i + 1) - sig S.length (pats S)[a] i : ℤ) : ℂ)

theorem Dw_Jp {S : List ℤ} (hS : IsWeight S) (i j : ℕ) :
    ⁅Dw S i, Jp S j⁆ = ((if i = j then 1 else 0) - (if i = j + 1 then 1 else 0) : ℂ) • Jp S j := by
  rw [Ring.lie_def]
  ext a b
  unfold Dw
  rw [Matrix.sub_apply, Matrix.diagonal_mul, Matrix.mul_diagonal, Matrix.smul_apply]
  by_cases h : ladderVal S.length j (pats S)[a] (pats S)[b] = 0
  · simp only [Jp, Matrix.of_apply, h]
    simp
  · have hT := ((mem_pats S hS (pats S)[b]).1 (List.getElem_mem _)).1
    unfold ladderVal at h
    obtain ⟨k, hk, hne⟩ := Finset.exists_ne_zero_of_sum_ne_zero h
    have hk := Finset.mem_range.1 hk
    have e : addAt (pats S)[b] (j + 1) k 1 = (pats S)[a] := by
      by_contra e
      rw [if_neg e] at hne
      exact hne rfl
    rw [← e, sig_addAt hT (by omega), sig_addAt hT (by omega), smul_eq_mul]
    by_cases h1 : i = j
    · subst h1
      simp
      ring
    · by_cases h2 : i = j + 1
      · subst h2
        simp
        ring
      · simp [h1, h2]
        ring

theorem Dw_sub {S : List ℤ} (hS : IsWeight S) (i : ℕ) (hi : i + 1 < S.length) :
    Dw S i - Dw S (i + 1) = (2 : ℂ) • Jz S i := by
  unfold Dw Jz
  rw [Matrix.diagonal_sub, ← Matrix.diagonal_smul]
  congr 1
  funext a
  have hT := ((mem_pats S hS (pats S)[a]).1 (List.getElem_mem _)).1
  rw [Pi.smul_apply, zWeight_getD hT i hi, smul_eq_mul]
  push_cast
  ring

/-- Transposition, as a linear map. -/
noncomputable def trL (d : ℕ) : Matrix (Fin d) (Fin d) ℂ →ₗ[ℂ] Matrix (Fin d) (Fin d) ℂ :=
  (Matrix.transposeLinearEquiv (Fin d) (Fin d) ℂ ℂ).toLinearMap

theorem trL_apply {d : ℕ} (x : Matrix (Fin d) (Fin d) ℂ) : trL d x = xᵀ := rfl

theorem jz_lie {S : List ℤ} (hS : IsWeight S) (i l : ℕ) (hi : i + 1 < S.length) :
    ⁅(2 : ℂ) • Jz S i, Jp S l⁆ =
      (if i = l then (2 : ℂ) else if i = l + 1 ∨ i + 1 = l then -1 else 0) • Jp S l := by
  have h := Jz_Jp hS i l hi
  rw [smul_lie, Ring.lie_def, h, smul_smul]
  congr 1
  split_ifs <;> norm_num

theorem jp_jm_lie {S : List ℤ} (hS : IsWeight S) (i l : ℕ) (hi : i + 1 < S.length) :
    ⁅Jp S i, (Jp S l)ᵀ⁆ = if i = l then (2 : ℂ) • Jz S i else 0 := by
  rw [Ring.lie_def, Jp_Jm hS hi]

theorem tr_lie {d : ℕ} (x y : Matrix (Fin d) (Fin d) ℂ) : ⁅x, y⁆ᵀ = ⁅yᵀ, xᵀ⁆ := by
  rw [Ring.lie_def, Ring.lie_def, transpose_sub, transpose_mul, transpose_mul]

theorem jz_tr (S : List ℤ) (i : ℕ) : ((2 : ℂ) • Jz S i)ᵀ = (2 : ℂ) • Jz S i := by
  simp [Jz]

theorem serre_Jp {S : List ℤ} (hS : IsWeight S) (i j n : ℕ) (hi : i + 1 < S.length)
    (hij : i ≠ j) (hj : j + 1 < S.length) (hn : n = if i = j + 1 ∨ i + 1 = j then 1 else 0) :
    ((LieModule.toEnd ℂ _ _ (Jp S i)) ^ (n + 1)) (Jp S j) = 0 := by
  refine serre (h := (2 : ℂ) • Jz S i) (f := (Jp S i)ᵀ) ?_ ?_ ?_ n ?_ ?_
  · rw [jp_jm_lie hS i i hi, if_pos rfl]
  · rw [jz_lie hS i i hi, if_pos rfl]
  · have := congrArg Matrix.transpose (jz_lie hS i i hi)
    rw [tr_lie, jz_tr, if_pos rfl, transpose_smul] at this
    rw [← lie_skew, this]
  · rw [jz_lie hS i j hi, if_neg hij, hn]
    congr 1
    split_ifs <;> simp
  · have := jp_jm_lie hS j i hj
    rw [if_neg hij.symm] at this
    rw [← lie_skew, this, neg_zero]

/-- The relations hold for the matrices of every weight. -/
theorem gen_Jp {S : List ℤ} (hS : IsWeight S) :
    GL.Gen S.length (Jp S) (fun i => (Jp S i)ᵀ) (Dw S) (trL _) where
  De i j _ _ := Dw_Jp hS i j
  DD i j _ _ := by
    rw [Ring.lie_def, Dw, Dw, Matrix.diagonal_mul_diagonal, Matrix.diagonal_mul_diagonal, sub_eq_zero]
    congr 1
    funext a
    ring
  ef i j hi hj := by
    rw [jp_jm_lie hS i j hi, Dw_sub hS i hi]
  s1 i j h1 h2 := by
    have := serre_Jp hS i j 0 (by omega) (by omega) h2 (by rw [if_neg (by omega)])
    simpa using this
  s2 i h := by
    have := serre_Jp hS i (i + 1) 1 (by omega) (by omega) (by omega) (by rw [if_pos (by omega)])
    simpa [pow_succ] using this
  s3 i h := by
    have := serre_Jp hS (i + 1) i 1 (by omega) (by omega) (by omega) (by rw [if_pos (by omega)])
    rw [← lie_skew (Jp S i), lie_neg, neg_eq_zero]
    simpa [pow_succ] using this
  anti x y := by rw [trL_apply, trL_apply, trL_apply, tr_lie]
  σe i _ := rfl
  σf i _ := rfl
  σD i _ := by rw [trL_apply, Dw, Matrix.diagonal_transpose]

end LieNN.SUN
