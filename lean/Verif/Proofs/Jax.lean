import Verif.Model.Jax
import Verif.Proofs.Rep
import Verif.Proofs.Perm
import Mathlib.Tactic.Ring
import Mathlib.Tactic.Linarith
/-! # Lemmas on the model of `jax_utils.py` -/
namespace LieNN.Jax

open Matrix NormedSpace

variable {d : ℕ}

theorem scan_spec (empty : ℕ → Matrix (Fin d) (Fin d) ℂ) (F : Matrix (Fin d) (Fin d) ℂ) (n : ℤ) :
    ∀ k, (scan empty (n, F, 1) k).1 = n / 2 ^ k ∧
      (n / 2 ^ k ≠ 0 → (scan empty (n, F, 1) k).2.1 = F ^ 2 ^ k) ∧
      (scan empty (n, F, 1) k).2.2 = F ^ (n % 2 ^ k).toNat := by
  intro k
  induction k with
  | zero => simp [scan]
  | succ k ih =>
    obtain ⟨h1, h2, h3⟩ := ih
    rw [scan]
    generalize hs : scan empty (n, F, 1) k = s at *
    obtain ⟨m, z, r⟩ := s
    simp only at h1 h2 h3
    have hp : (0 : ℤ) < 2 ^ k := by positivity
    have hfd : m.fdiv 2 = n / 2 ^ (k + 1) := by
      rw [Int.fdiv_eq_ediv_of_nonneg _ (by norm_num), h1, Int.ediv_ediv_of_nonneg hp.le, pow_succ]
    have hfm : m.fmod 2 = m % 2 := Int.fmod_eq_emod_of_nonneg _ (by norm_num)
    have hmod : n % 2 ^ (k + 1) = n % 2 ^ k + 2 ^ k * (m % 2) := by
      rw [Int.emod_def, Int.emod_def n, Int.emod_def m, ← hfd, Int.fdiv_eq_ediv_of_nonneg _ (by norm_num), h1]
      ring
    have hz : m ≠ 0 → z = F ^ 2 ^ k := by rw [h1]; exact h2
    refine ⟨hfd, fun h0 => ?_, ?_⟩
    · have hm : m ≠ 0 := by
        rintro rfl
        rw [← hfd] at h0; simp at h0
      simp only [body, hfd, if_pos h0, hz hm]
      rw [← pow_add, pow_succ]; congr 1; ring
    · simp only [body, hfm]
      rcases Int.emod_two_eq_zero_or_one m with h | h
      · rw [hmod, h]; simp [h3]
      · have hm : m ≠ 0 := by rintro rfl; simp at h
        rw [if_pos (by rw [h]; norm_num), hz hm, h3, hmod, h, mul_one, ← pow_add]
        congr 1
        rw [Int.toNat_add (Int.emod_nonneg _ hp.ne') hp.le, add_comm]
        have : ((2 : ℤ) ^ k) = ((2 ^ k : ℕ) : ℤ) := by push_cast; rfl
        rw [this, Int.toNat_natCast]

theorem matrixPower_eq (empty : ℕ → Matrix (Fin d) (Fin d) ℂ) (F : Matrix (Fin d) (Fin d) ℂ)
    (n : ℤ) : matrixPower .float empty F n = .ok (F ^ (n % 2 ^ 32).toNat) := by
  unfold matrixPower
  rw [if_neg (by simp)]
  split_ifs with h
  · subst h; norm_num
  · rw [(scan_spec empty F n 32).2.2]

theorem expMap_eq {n h : ℕ} (empty : Fin h → ℕ → Matrix (Fin d) (Fin d) ℂ) (r : Rep n h d)
    (c : Fin n → ℂ) (k : Fin h → ℤ) : expMap .float empty r c k =
      .ok ((List.finRange h).foldr (fun i out => r.H i ^ (k i % 2 ^ 32).toNat * out)
        (exp (∑ a, c a • r.X a))) := by
  unfold expMap
  rw [Perm.mapM_ok _ _ (fun i => r.H i ^ (k i % 2 ^ 32).toNat) (fun i _ => matrixPower_eq _ _ _)]
  simp only [Except.bind, bind, pure, Except.pure, List.foldr_map]
  rw [if_neg (by simp)]

end LieNN.Jax
