import Verif.Proofs.GTComm
import Verif.Proofs.SUNMats
/-!
# The commutators of the ladder operators
-/
namespace LieNN.SUN

open Spec Finset

/-- One term of the matrix entry. -/
noncomputable def partVal (n l k : ℕ) (N M : Pat) : ℝ :=
  if addAt M (l + 1) k 1 = N then Real.sqrt (coefSq n M (l + 1) k (ent M (l + 1) k)) else 0

theorem ladderVal_eq (n l : ℕ) (N M : Pat) :
    ladderVal n l N M = ∑ k ∈ range (n - (l + 1)), partVal n l k N M := rfl

theorem partVal_ne {n l k : ℕ} {N M : Pat} (h : addAt M (l + 1) k 1 ≠ N) : partVal n l k N M = 0 :=
  if_neg h

theorem partVal_self {n l k : ℕ} {N M : Pat} (h : addAt M (l + 1) k 1 = N) :
    partVal n l k N M = Real.sqrt (coefSq n M (l + 1) k (ent M (l + 1) k)) := if_pos h

theorem addAt_comm {n : ℕ} {M : Pat} (hM : Triangular n M) (k p i q : ℕ) (c d : ℤ) :
    addAt (addAt M k p c) i q d = addAt (addAt M i q d) k p c := by
  refine tri_ext (tri_addAt (tri_addAt hM _ _ _) _ _ _) (tri_addAt (tri_addAt hM _ _ _) _ _ _)
    fun a b hab => ?_
  rw [ent_addAt (tri_addAt hM _ _ _) _ _ _ _ _ hab, ent_addAt (tri_addAt hM _ _ _) _ _ _ _ _ hab,
    ent_addAt hM _ _ _ _ _ hab, ent_addAt hM _ _ _ _ _ hab]
  ring

/-- The set of the patterns. -/
def patSet (S : List ℤ) : Finset Pat := (pats S).toFinset

theorem mem_patSet {S : List ℤ} (hS : IsWeight S) {M : Pat} : M ∈ patSet S ↔ IsGT S M := by
  rw [patSet, List.mem_toFinset, mem_pats S hS]

theorem coefSq_nonneg {S : List ℤ} {M : Pat} (hM : IsGT S M) {k p : ℕ} (h1 : 1 ≤ k)
    (hp : k + p < S.length) : 0 ≤ coefSq S.length M k p (ent M k p) := by
  by_cases h : IsGT S (addAt M k p 1)
  · exact (coefSq_pos hp (canMove_of hM.1 hM.2.2 h.2.2 h1 hp rfl)).le
  · rw [coefSq_up_zero hM h1 hp h]

theorem part_comm {S : List ℤ} (hS : IsWeight S) {l k m j : ℕ} (hk : l + 1 + k < S.length)
    (hj : m + 1 + j < S.length) (hne : (l, k) ≠ (m, j)) {M N : Pat} (hM : IsGT S M) (hN : IsGT S N) :
    ∑ Q ∈ patSet S, partVal S.length l k N Q * partVal S.length m j M Q =
      ∑ Q ∈ patSet S, partVal S.length m j Q N * partVal S.length l k Q M := by
  have hne' : (l + 1, k) ≠ (m + 1, j) := by
    intro e; apply hne; simp only [Prod.mk.injEq, Nat.add_right_cancel_iff] at e ⊢; exact e
  by_cases h : addAt (addAt M (m + 1) j (-1)) (l + 1) k 1 = N
  · obtain ⟨v0, v1⟩ := isGT_mid hM (by omega) (by omega) hne' (h ▸ hN)
    have e0 : addAt (addAt M (m + 1) j (-1)) (m + 1) j 1 = M := by
      have := addAt_addAt hM.1 (m + 1) j (-1)
      rwa [neg_neg] at this
    have e1 : addAt N (m + 1) j 1 = addAt M (l + 1) k 1 := by
      rw [← h, addAt_comm v0.1, e0]
    rw [sum_eq_single_of_mem _ ((mem_patSet hS).2 v0), sum_eq_single_of_mem _ ((mem_patSet hS).2 v1)]
    · rw [partVal_self h, partVal_self e0, partVal_self e1, partVal_self rfl,
        ← Real.sqrt_mul, ← Real.sqrt_mul]
      · congr 1
        have := coefSq_comm v0.1 (k := l + 1) (p := k) (i := m + 1) (q := j) (by omega) (by omega) hk hj
          hne'
        rw [e0, h] at this
        rw [mul_comm (coefSq _ N _ _ _ : ℝ)]
        exact_mod_cast this
      · exact_mod_cast coefSq_nonneg hN (by omega) hj
      · exact_mod_cast coefSq_nonneg v0 (by omega) hk
    · intro Q hQ hQne
      rw [partVal_ne (N := Q) (M := M) (fun e => hQne e.symm), mul_zero]
    · intro Q hQ hQne
      rw [partVal_ne (N := M) (M := Q), mul_zero]
      intro e
      apply hQne
      rw [← e, addAt_addAt ((mem_patSet hS).1 hQ).1]
  · rw [sum_eq_zero, sum_eq_zero]
    · intro Q hQ
      by_cases e1 : addAt N (m + 1) j 1 = Q
      · rw [partVal_ne (N := Q) (M := M), mul_zero]
        intro e2
        apply h
        rw [addAt_comm hM.1, e2, ← e1, addAt_addAt hN.1]
      · rw [partVal_ne e1, zero_mul]
    · intro Q hQ
      by_cases e1 : addAt Q (m + 1) j 1 = M
      · rw [partVal_ne (N := N) (M := Q), zero_mul]
        intro e2
        apply h
        rw [← e1, addAt_addAt ((mem_patSet hS).1 hQ).1, e2]
      · rw [partVal_ne e1, mul_zero]

theorem part_self {S : List ℤ} (hS : IsWeight S) {l k : ℕ} (hk : l + 1 + k < S.length)
    {M N : Pat} (hM : IsGT S M) (hN : IsGT S N) :
    ∑ Q ∈ patSet S, partVal S.length l k N Q * partVal S.length l k M Q -
      ∑ Q ∈ patSet S, partVal S.length l k Q N * partVal S.length l k Q M =
      if N = M then ((coefSq S.length M (l + 1) k (ent M (l + 1) k - 1) -
        coefSq S.length M (l + 1) k (ent M (l + 1) k) : ℚ) : ℝ) else 0 := by
  by_cases h : N = M
  · subst h
    rw [if_pos rfl]
    push_cast
    congr 1
    · by_cases v : IsGT S (addAt N (l + 1) k (-1))
      · have e0 : addAt (addAt N (l + 1) k (-1)) (l + 1) k 1 = N := by
          have := addAt_addAt hM.1 (l + 1) k (-1)
          rwa [neg_neg] at this
        rw [sum_eq_single_of_mem _ ((mem_patSet hS).2 v)]
        · rw [partVal_self e0, Real.mul_self_sqrt (by exact_mod_cast coefSq_nonneg v (by omega) hk)]
          unfold coefSq
          rw [numF_addAt hM.1 (by omega) hk, denF_addAt hM.1, ent_addAt hM.1 _ _ _ _ _ hk,
            if_pos ⟨rfl, rfl⟩]
          rfl
        · intro Q hQ hQne
          rw [partVal_ne (N := N) (M := Q), mul_zero]
          intro e
          apply hQne
          rw [← e, addAt_addAt ((mem_patSet hS).1 hQ).1]
      · rw [coefSq_down_zero hM (by omega) hk v, sum_eq_zero, Rat.cast_zero]
        intro Q hQ
        rw [partVal_ne (N := N) (M := Q), mul_zero]
        intro e
        apply v
        rw [← e, addAt_addAt ((mem_patSet hS).1 hQ).1]
        exact (mem_patSet hS).1 hQ
    · by_cases v : IsGT S (addAt N (l + 1) k 1)
      · rw [sum_eq_single_of_mem _ ((mem_patSet hS).2 v)]
        · rw [partVal_self rfl, Real.mul_self_sqrt (by exact_mod_cast coefSq_nonneg hN (by omega) hk)]
        · intro Q hQ hQne
          rw [partVal_ne (N := Q) (M := N) (fun e => hQne e.symm), mul_zero]
      · rw [coefSq_up_zero hM (by omega) hk v, sum_eq_zero, Rat.cast_zero]
        intro Q hQ
        rw [partVal_ne (N := Q) (M := N), mul_zero]
        intro e
        apply v
        rw [e]
        exact (mem_patSet hS).1 hQ
  · rw [if_neg h, sum_eq_zero, sum_eq_zero, sub_zero]
    · intro Q hQ
      by_cases e1 : addAt N (l + 1) k 1 = Q
      · rw [partVal_ne (N := Q) (M := M), mul_zero]
        intro e2
        apply h
        rw [← addAt_addAt hN.1 (l + 1) k 1, e1, ← e2, addAt_addAt hM.1]
      · rw [partVal_ne e1, zero_mul]
    · intro Q hQ
      by_cases e1 : addAt Q (l + 1) k 1 = M
      · rw [partVal_ne (N := N) (M := Q), zero_mul]
        intro e2
        exact h (e2.symm.trans e1)
      · rw [partVal_ne e1, mul_zero]

theorem ladder_comm {S : List ℤ} (hS : IsWeight S) {l m : ℕ} (hl : l + 1 < S.length)
    {M N : Pat} (hM : IsGT S M) (hN : IsGT S N) :
    ∑ Q ∈ patSet S, ladderVal S.length l N Q * ladderVal S.length m M Q -
      ∑ Q ∈ patSet S, ladderVal S.length m Q N * ladderVal S.length l Q M =
      if l = m ∧ N = M then 2 * (((mToZWeight M).getD l 0 : ℚ) : ℝ) else 0 := by
  have expand : ∑ Q ∈ patSet S, ladderVal S.length l N Q * ladderVal S.length m M Q -
      ∑ Q ∈ patSet S, ladderVal S.length m Q N * ladderVal S.length l Q M =
      ∑ k ∈ range (S.length - (l + 1)), ∑ j ∈ range (S.length - (m + 1)),
        (∑ Q ∈ patSet S, partVal S.length l k N Q * partVal S.length m j M Q -
          ∑ Q ∈ patSet S, partVal S.length m j Q N * partVal S.length l k Q M) := by
    simp only [ladderVal_eq, sum_sub_distrib, sum_mul_sum]
    congr 1
    · rw [sum_comm]
      exact sum_congr rfl fun k _ => sum_comm
    · rw [sum_congr rfl fun Q _ => sum_comm (s := range (S.length - (m + 1)))
        (t := range (S.length - (l + 1))), sum_comm]
      exact sum_congr rfl fun k _ => sum_comm
  rw [expand]
  by_cases h : l = m
  · subst h
    rw [sum_congr rfl (g := fun k => if N = M then
      ((coefSq S.length M (l + 1) k (ent M (l + 1) k - 1) -
        coefSq S.length M (l + 1) k (ent M (l + 1) k) : ℚ) : ℝ) else 0)]
    · by_cases hNM : N = M
      · simp only [hNM, if_true, true_and]
        rw [← Rat.cast_sum, sum_coefSq hM.1 hM.2.2 (by omega) hl, zWeight_getD hM.1 l hl]
        rw [Nat.add_sub_cancel]
        push_cast
        ring
      · simp [hNM]
    · intro k hk
      have := mem_range.1 hk
      rw [sum_eq_single_of_mem k hk, part_self hS (by omega) hM hN]
      intro j hj hjk
      have := mem_range.1 hj
      rw [part_comm hS (by omega) (by omega) (by simpa using fun e => hjk e.symm) hM hN, sub_self]
  · rw [if_neg (fun e => h e.1)]
    refine sum_eq_zero fun k hk => sum_eq_zero fun j hj => ?_
    have := mem_range.1 hk
    have := mem_range.1 hj
    rw [part_comm hS (by omega) (by omega) (by simp [h]) hM hN, sub_self]

theorem sum_pats {S : List ℤ} (hS : IsWeight S) (f : Pat → ℂ) :
    ∑ i : Fin (pats S).length, f (pats S)[i] = ∑ Q ∈ patSet S, f Q := by
  have hnd : (pats S).Nodup := (pats_sorted S hS).imp fun h => ne_of_lt h
  rw [patSet, List.sum_toFinset _ hnd]
  exact Fin.sum_univ_fun_getElem _ _

/-- `[J⁺_l, J⁻_m] = 2 Jz_l` if `l = m`, zero otherwise. -/
theorem Jp_Jm {S : List ℤ} (hS : IsWeight S) {l m : ℕ} (hl : l + 1 < S.length) :
    Jp S l * (Jp S m).transpose - (Jp S m).transpose * Jp S l = if l = m then (2 : ℂ) • Jz S l else 0 := by
  ext i j
  have hi := (mem_pats S hS _).1 ((pats S).getElem_mem i.2)
  have hj := (mem_pats S hS _).1 ((pats S).getElem_mem j.2)
  have h := ladder_comm hS (m := m) hl hj hi
  rw [Matrix.sub_apply, Matrix.mul_apply, Matrix.mul_apply]
  simp only [Jp, Matrix.of_apply, Matrix.transpose_apply]
  rw [sum_pats hS fun Q => ((ladderVal S.length l (pats S)[i] Q : ℝ) : ℂ) *
      ((ladderVal S.length m (pats S)[j] Q : ℝ) : ℂ),
    sum_pats hS fun Q => ((ladderVal S.length m Q (pats S)[i] : ℝ) : ℂ) *
      ((ladderVal S.length l Q (pats S)[j] : ℝ) : ℂ)]
  have h' := congrArg (fun x : ℝ => (x : ℂ)) h
  push_cast at h'
  refine Eq.trans h' ?_
  have hnd : (pats S).Nodup := (pats_sorted S hS).imp fun h => ne_of_lt h
  have hij : (pats S)[(i : ℕ)] = (pats S)[(j : ℕ)] ↔ i = j :=
    ⟨fun e => Fin.ext ((hnd.getElem_inj_iff).1 e), fun e => by rw [e]⟩
  by_cases hlm : l = m
  · subst hlm
    simp only [true_and, hij, if_true]
    by_cases e : i = j
    · subst e
      simp [Jz]
    · simp [e, Jz]
  · simp [hlm]

end LieNN.SUN
