import Verif.Spec.SUNGen
import Mathlib.NumberTheory.Zsqrtd.GaussianInt
import Mathlib.Analysis.Complex.Norm
import Mathlib.LinearAlgebra.Matrix.Trace
import Mathlib.Tactic.Module
import Mathlib.Data.Complex.BigOperators
import Mathlib.LinearAlgebra.Matrix.ConjTranspose
/-!
# The basis of the skew-Hermitian matrices of trace zero
-/
namespace LieNN.SUN

open Spec Matrix Finset

theorem sum_flatMap {α β : Type} {E : Type} [AddCommMonoid E] (L : List α) (g : α → List β) (f : β → E) :
    ((L.flatMap g).map f).sum = (L.map fun a => ((g a).map f).sum).sum := by
  induction L with
  | nil => simp
  | cons a L ih => simp [List.flatMap_cons, List.map_append, List.sum_append, ih]

theorem sum_range_list {E : Type} [AddCommMonoid E] (f : ℕ → E) (n : ℕ) :
    ((List.range n).map f).sum = ∑ i ∈ range n, f i := by
  rw [← List.sum_toFinset f List.nodup_range, List.toFinset_range]

theorem sum_range'_list {E : Type} [AddCommMonoid E] (f : ℕ → E) (a m : ℕ) :
    ((List.range' a m).map f).sum = ∑ i ∈ Ico a (a + m), f i := by
  rw [← List.sum_toFinset f List.nodup_range']
  congr 1
  ext x
  simp [List.mem_range'_1]

theorem sum_pairsLT {E : Type} [AddCommMonoid E] (f : ℕ × ℕ → E) (n : ℕ) :
    ((pairsLT n).map f).sum = ∑ k ∈ range n, ∑ l ∈ range n, if k < l then f (k, l) else 0 := by
  unfold pairsLT
  rw [sum_flatMap, sum_range_list]
  refine sum_congr rfl fun k hk => ?_
  have := mem_range.1 hk
  rw [List.map_map, sum_range'_list, ← sum_filter]
  refine sum_congr ?_ fun _ _ => rfl
  ext x
  simp only [mem_Ico, mem_filter, mem_range]
  omega

/-- The entry with natural numbers as indices. -/
noncomputable def ix {n : ℕ} (y : Matrix (Fin n) (Fin n) ℂ) (k l : ℕ) : ℂ :=
  if h : k < n ∧ l < n then y ⟨k, h.1⟩ ⟨l, h.2⟩ else 0

theorem ix_eq {n : ℕ} (y : Matrix (Fin n) (Fin n) ℂ) (i j : Fin n) : ix y i j = y i j := by
  unfold ix
  rw [dif_pos ⟨i.2, j.2⟩]

theorem ix_sum {n : ℕ} (y : Matrix (Fin n) (Fin n) ℂ) :
    y = ∑ k ∈ range n, ∑ l ∈ range n, ix y k l • unit n k l := by
  have h : y = ∑ i : Fin n, ∑ j : Fin n, ix y i j • unit n i j := by
    ext a b
    simp only [Matrix.sum_apply, Matrix.smul_apply, unit, Matrix.of_apply, smul_eq_mul, ix_eq]
    rw [Finset.sum_eq_single a, Finset.sum_eq_single b]
    · simp
    · intro j _ hj
      have : ¬ (b : ℕ) = j := fun e => hj (Fin.ext e).symm
      simp [this]
    · simp
    · intro i _ hi
      refine Finset.sum_eq_zero fun j _ => ?_
      have : ¬ (a : ℕ) = i := fun e => hi (Fin.ext e).symm
      simp [this]
    · simp
  rw [← Fin.sum_univ_eq_sum_range (fun k => ∑ l ∈ range n, ix y k l • unit n k l) n]
  refine h.trans (Finset.sum_congr rfl fun i _ => ?_)
  exact Fin.sum_univ_eq_sum_range (fun l => ix y i l • unit n i l) n

theorem sum_split {E : Type} [AddCommMonoid E] (g : ℕ → ℕ → E) (n : ℕ) :
    ∑ k ∈ range n, ∑ l ∈ range n, g k l =
      (∑ k ∈ range n, ∑ l ∈ range n, if k < l then g k l + g l k else 0) + ∑ k ∈ range n, g k k := by
  have h1 : ∀ k ∈ range n, ∑ l ∈ range n, g k l = (∑ l ∈ range n, if k < l then g k l else 0) +
      (∑ l ∈ range n, if l < k then g k l else 0) + g k k := by
    intro k hk
    have : g k k = ∑ l ∈ range n, if k = l then g k l else 0 := by
      rw [sum_ite_eq, if_pos hk]
    rw [this, ← sum_add_distrib, ← sum_add_distrib]
    refine sum_congr rfl fun l _ => ?_
    rcases lt_trichotomy k l with h | h | h
    · simp [h, h.not_gt, h.ne]
    · subst h; simp
    · simp [h, h.not_gt, h.ne']
  rw [sum_congr rfl h1, sum_add_distrib, sum_add_distrib]
  congr 1
  rw [sum_comm (f := fun k l => if l < k then g k l else 0), ← sum_add_distrib]
  refine sum_congr rfl fun k _ => ?_
  rw [← sum_add_distrib]
  refine sum_congr rfl fun l _ => ?_
  split_ifs <;> simp

/-- The coordinates in the basis. -/
noncomputable def coords (n : ℕ) (y : Matrix (Fin n) (Fin n) ℂ) : List ℝ :=
  (pairsLT n).map (fun p => (ix y p.1 p.2).im) ++ (pairsLT n).map (fun p => (ix y p.1 p.2).re) ++
    (List.range (n - 1)).map fun t => (∑ s ∈ range (t + 1), ix y s s).im

theorem length_suBasis (n : ℕ) : (suBasis n).length = (pairsLT n).length + (pairsLT n).length + (n - 1) := by
  simp [suBasis, add_assoc]

theorem length_coords (n : ℕ) (y : Matrix (Fin n) (Fin n) ℂ) : (coords n y).length = (suBasis n).length := by
  simp [suBasis, coords]

theorem length_pairsLT (n : ℕ) : 2 * (pairsLT n).length = n * (n - 1) := by
  have h : (pairsLT n).length = ∑ k ∈ range n, (n - (k + 1)) := by
    rw [← sum_range_list]
    simp [pairsLT, List.length_flatMap]
  rw [h, mul_comm, ← Finset.sum_range_reflect, ← Finset.sum_range_id_mul_two]
  congr 1
  refine sum_congr rfl fun k hk => ?_
  have := mem_range.1 hk
  omega

theorem length_suBasis' (n : ℕ) : (suBasis n).length = n ^ 2 - 1 := by
  have h1 := length_suBasis n
  have h2 := length_pairsLT n
  cases n with
  | zero => simp at h1 h2; simp [h1, h2]
  | succ m =>
    simp only [Nat.add_sub_cancel] at h1 h2
    have : (m + 1) ^ 2 = (m + 1) * m + (m + 1) := by ring
    omega

theorem ix_zipWith {E : Type} {α : Type} [AddCommMonoid E] [Module ℂ E] (L : List α) (f : α → ℝ) (g : α → E) :
    List.zipWith (fun (c : ℝ) x => (c : ℂ) • x) (L.map f) (L.map g) = L.map fun p => (f p : ℂ) • g p := by
  induction L with
  | nil => rfl
  | cons a L ih => simp [ih]

/-- Sum with the coordinates. -/
theorem zip_coords {n : ℕ} (y : Matrix (Fin n) (Fin n) ℂ) :
    (List.zipWith (fun (c : ℝ) x => (c : ℂ) • x) (coords n y) (suBasis n)).sum =
      (∑ k ∈ range n, ∑ l ∈ range n, if k < l then
        (((ix y k l).im : ℂ) • (Complex.I • (unit n k l + unit n l k)) +
          ((ix y k l).re : ℂ) • (unit n k l - unit n l k)) else 0) +
      ∑ t ∈ range (n - 1), (((∑ s ∈ range (t + 1), ix y s s).im : ℝ) : ℂ) •
        (Complex.I • (unit n t t - unit n (t + 1) (t + 1))) := by
  unfold coords suBasis
  rw [List.zipWith_append (by simp), List.zipWith_append (by simp), ix_zipWith, ix_zipWith, ix_zipWith,
    List.sum_append, List.sum_append, sum_pairsLT, sum_pairsLT, sum_range_list, ← sum_add_distrib]
  congr 1
  refine sum_congr rfl fun k _ => ?_
  rw [← sum_add_distrib]
  refine sum_congr rfl fun l _ => ?_
  split_ifs <;> simp

/-- Summation by parts. -/
theorem abel_sum {E : Type} [AddCommGroup E] [Module ℂ E] (c : ℕ → ℂ) (u : ℕ → E) (m : ℕ) :
    ∑ k ∈ range (m + 1), c k • u k = (∑ t ∈ range m, (∑ s ∈ range (t + 1), c s) • (u t - u (t + 1))) +
      (∑ s ∈ range (m + 1), c s) • u m := by
  induction m with
  | zero => simp
  | succ m ih =>
    have h1 := sum_range_succ (fun k => c k • u k) (m + 1)
    have h2 := sum_range_succ (fun t => (∑ s ∈ range (t + 1), c s) • (u t - u (t + 1))) m
    rw [h1, ih, h2, sum_range_succ c (m + 1), smul_sub, add_smul]
    abel

theorem expand_su {n : ℕ} {y : Matrix (Fin n) (Fin n) ℂ} (hy : yᴴ = -y) (ht : y.trace = 0) :
    (List.zipWith (fun (c : ℝ) x => (c : ℂ) • x) (coords n y) (suBasis n)).sum = y := by
  have hconj : ∀ k l, ix y l k = -star (ix y k l) := by
    intro k l
    unfold ix
    by_cases h : k < n ∧ l < n
    · rw [dif_pos h, dif_pos h.symm]
      have := congrFun (congrFun hy ⟨k, h.1⟩) ⟨l, h.2⟩
      rw [conjTranspose_apply, Matrix.neg_apply] at this
      rw [eq_neg_iff_add_eq_zero] at this ⊢
      have h2 := congrArg star this
      rw [star_add, star_star, star_zero] at h2
      exact h2
    · rw [dif_neg h, dif_neg (fun h' => h h'.symm), star_zero, neg_zero]
  have hre : ∀ k, (ix y k k).re = 0 := by
    intro k
    have := congrArg Complex.re (hconj k k)
    simp at this
    linarith
  rw [zip_coords]
  conv_rhs => rw [ix_sum y, sum_split]
  congr 1
  · refine sum_congr rfl fun k _ => sum_congr rfl fun l _ => ?_
    split_ifs with h
    · rw [hconj k l]
      have e : ix y k l = ((ix y k l).re : ℂ) + (ix y k l).im * Complex.I := (Complex.re_add_im _).symm
      generalize ix y k l = z at e ⊢
      have e' : -star z = -((z.re : ℂ) - z.im * Complex.I) := by
        apply Complex.ext <;> simp
      rw [e']
      nth_rewrite 3 [e]
      module
    · rfl
  · cases n with
    | zero => simp
    | succ m =>
      rw [abel_sum]
      have htr : ∑ s ∈ range (m + 1), ix y s s = 0 := by
        rw [← Fin.sum_univ_eq_sum_range (fun s => ix y s s)]
        rw [← ht]
        exact sum_congr rfl fun i _ => ix_eq y i i
      rw [htr, zero_smul, add_zero]
      simp only [Nat.add_sub_cancel]
      refine sum_congr rfl fun t _ => ?_
      rw [smul_smul]
      congr 1
      have : (∑ s ∈ range (t + 1), ix y s s).re = 0 := by
        rw [Complex.re_sum]
        exact sum_eq_zero fun s _ => hre s
      apply Complex.ext <;> simp [this]

end LieNN.SUN
