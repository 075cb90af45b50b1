import Verif.Proofs.GroupRepHom
import Verif.Proofs.SU2Orth
import Verif.Proofs.SU2Table
import Verif.Proofs.SO3Table
/-!
# The irreps of `SU2`, `SO3` and `O3` are polynomial representations of their groups
-/
namespace LieNN

open Matrix NormedSpace Spec

variable {n h b d : ℕ}

namespace SU2

theorem polyOf (j : ℕ) : PolyOf (rep 1) (rep j) j := by
  induction j with
  | zero =>
    refine PolyOf.trivial _ (fun a => ?_) fun a => a.elim0
    have := SU2.trace_eq_zero (j := 0) a
    ext i k
    have h1 : Matrix.trace (gens 0 a) = gens 0 a 0 0 := by
      rw [Matrix.trace]
      exact Fin.sum_univ_one _
    change gens 0 a i k = 0
    rw [Fin.fin_one_eq_zero i, Fin.fin_one_eq_zero k, ← h1]
    exact this
  | succ j ih =>
    have hm : j + 1 ∈ mulL j 1 := mem_mulL.2 ⟨1, j, 0, by omega, by omega, by omega⟩
    refine ih.of_cg (PolyOf.refl _) (isCG_ct hm) fun c c' => ?_
    have := ct_orth hm hm c c'
    have e := congrArg Complex.ofReal this
    push_cast at e
    simp only [Complex.conj_ofReal]
    rw [e]
    simp only [Fin.ext_iff, true_and]
    split_ifs <;> simp

end SU2

namespace SO3

theorem polyOf (l : ℕ) : PolyOf (rep 1) (rep l) l := by
  induction l with
  | zero =>
    refine PolyOf.trivial _ (fun a => ?_) fun a => a.elim0
    have := SU2.trace_eq_zero (j := 0) a
    have h0 : SU2.gens (2 * 0) a = 0 := by
      ext i k
      have h1 : Matrix.trace (SU2.gens 0 a) = SU2.gens 0 a 0 0 := by
        rw [Matrix.trace]
        exact Fin.sum_univ_one _
      change SU2.gens 0 a i k = 0
      rw [Fin.fin_one_eq_zero i, Fin.fin_one_eq_zero k, ← h1]
      exact this
    rw [rep_X, h0, Matrix.mul_zero, Matrix.zero_mul]
  | succ l ih =>
    have hm : l + 1 ∈ mulR l 1 := mem_mulR.2 ⟨by omega, by omega, by omega⟩
    refine ih.of_cg (PolyOf.refl _) (isCG (mem_double.2 hm)) fun c c' => ?_
    have := ctR_orth hm hm c c'
    have e := congrArg Complex.ofReal this
    push_cast at e
    simp only [Complex.conj_ofReal]
    rw [e]
    simp only [Fin.ext_iff, true_and]
    split_ifs <;> simp

end SO3

namespace O3

theorem polyOf_step {base : Rep 3 1 b} {i j k : O3} {e e' : ℕ} (hi : PolyOf base (rep i) e) (hj : PolyOf base (rep j) e')
    (h : k.l ∈ SO3.mulR i.l j.l) (hp : i.p * j.p = k.p) : PolyOf base (rep k) (e + e') := by
  refine hi.of_cg hj (isCG h hp) fun c c' => ?_
  have := SO3.ctR_orth h h c c'
  have e := congrArg Complex.ofReal this
  push_cast at e
  simp only [Complex.conj_ofReal]
  refine e.trans ?_
  simp only [Fin.ext_iff, true_and]
  split_ifs <;> simp

theorem polyOf_natural (l : ℕ) : PolyOf (rep ⟨1, -1⟩) (rep ⟨l, (-1) ^ l⟩) l := by
  induction l with
  | zero =>
    refine PolyOf.trivial _ (fun a => ?_) fun a => ?_
    · have := SU2.trace_eq_zero (j := 0) a
      have h0 : SU2.gens (2 * 0) a = 0 := by
        ext i k
        have h1 : Matrix.trace (SU2.gens 0 a) = SU2.gens 0 a 0 0 := by
          rw [Matrix.trace]
          exact Fin.sum_univ_one _
        change SU2.gens 0 a i k = 0
        rw [Fin.fin_one_eq_zero i, Fin.fin_one_eq_zero k, ← h1]
        exact this
      change (SO3.rep 0).X a = 0
      rw [SO3.rep_X, h0, Matrix.mul_zero, Matrix.zero_mul]
    · change (((-1) ^ 0 : ℤ) : ℂ) • _ = _
      simp
  | succ l ih =>
    exact polyOf_step ih (PolyOf.refl _) (SO3.mem_mulR.2 ⟨by dsimp; omega, by dsimp; omega, by dsimp; omega⟩)
      (by simp [pow_succ])

theorem polyOf (l : ℕ) {p : ℤ} (hp : p = 1 ∨ p = -1) : ∃ e, PolyOf (rep ⟨1, -1⟩) (rep ⟨l, p⟩) e := by
  have h1 : PolyOf (rep ⟨1, -1⟩) (rep ⟨1, 1⟩) 2 :=
    polyOf_step (PolyOf.refl _) (PolyOf.refl _) (SO3.mem_mulR.2 ⟨by dsimp; omega, by dsimp; omega, by dsimp; omega⟩)
      (by simp)
  have h0 : PolyOf (rep ⟨1, -1⟩) (rep ⟨0, -1⟩) 3 :=
    polyOf_step (PolyOf.refl _) h1 (SO3.mem_mulR.2 ⟨by dsimp; omega, by dsimp; omega, by dsimp; omega⟩) (by simp)
  have hl := polyOf_natural l
  have hl' : PolyOf (rep ⟨1, -1⟩) (rep ⟨l, -(-1) ^ l⟩) (3 + l) :=
    polyOf_step h0 hl (SO3.mem_mulR.2 ⟨by dsimp; omega, by dsimp; omega, by dsimp; omega⟩) (by simp)
  rcases neg_one_pow_eq_or ℤ l with e | e <;> rw [e] at hl hl' <;> rcases hp with rfl | rfl <;>
    first | exact ⟨_, hl⟩ | exact ⟨_, hl'⟩

end O3

end LieNN
