import Verif.Model.Roots
import Verif.Spec.Roots
import Mathlib.Data.List.GetD
import Mathlib.Tactic.Ring
import Mathlib.Tactic.Linarith
import Mathlib.Tactic.FieldSimp
import Mathlib.Algebra.Order.BigOperators.Ring.Finset
/-! # Lemmas on the model of `lie_algebra_utils.py` -/
namespace LieNN.Roots

open LieNN.Spec

variable {m : ℕ}

theorem foldl_vsum (l : List (Fin m → ℚ)) (a : Fin m → ℚ) :
    l.foldl (fun a v => a + v) a = a + l.sum := by
  induction l generalizing a with
  | nil => simp
  | cons v l ih => rw [List.foldl_cons, ih, List.sum_cons, add_assoc]

theorem vsum_eq (l : List (Fin m → ℚ)) : vsum l = l.sum := by
  rw [vsum, foldl_vsum, zero_add]

theorem sum_list_apply (l : List (Fin m → ℚ)) (k : Fin m) : l.sum k = (l.map fun v => v k).sum := by
  induction l with
  | nil => simp
  | cons v l ih => simp [ih]

theorem sum_map_range' (n : ℕ) (f : ℕ → ℚ) : ((List.range n).map f).sum = ∑ i ∈ Finset.range n, f i := by
  induction n with
  | zero => simp
  | succ n ih => rw [List.range_succ, Finset.sum_range_succ, List.map_append, List.sum_append, ih]; simp

theorem psum_apply (i : ℕ) (k : Fin m) : psum m i k = if k.1 < i then 1 else 0 := by
  rw [psum, vsum_eq, sum_list_apply, List.map_map]
  have : ((fun v : Fin m → ℚ => v k) ∘ e m) = fun i => if k.1 = i then 1 else 0 := rfl
  rw [this, sum_map_range', Finset.sum_ite_eq]
  simp

theorem dot_e (v : Fin m → ℚ) {b : ℕ} (hb : b < m) : v ⬝ᵥ e m b = v ⟨b, hb⟩ := by
  simp only [dotProduct, e]
  rw [Finset.sum_eq_single ⟨b, hb⟩]
  · simp
  · intro k _ hk
    rw [if_neg (fun h => hk (Fin.ext h)), mul_zero]
  · simp

theorem e_dot (v : Fin m → ℚ) {b : ℕ} (hb : b < m) : e m b ⬝ᵥ v = v ⟨b, hb⟩ := by
  rw [dotProduct_comm, dot_e v hb]

theorem ee (a : ℕ) {b : ℕ} (hb : b < m) : e m a ⬝ᵥ e m b = if b = a then 1 else 0 := dot_e _ hb

theorem pe (a : ℕ) {b : ℕ} (hb : b < m) : psum m a ⬝ᵥ e m b = if b < a then 1 else 0 := by
  rw [dot_e _ hb, psum_apply]

theorem getD_map_range {α : Type*} (n : ℕ) (f : ℕ → α) (d : α) {i : ℕ} (hi : i < n) :
    ((List.range n).map f).getD i d = f i := by
  rw [List.getD_eq_getElem _ _ (by simpa using hi)]; simp

/-! ## Simple roots as functions of the index -/

theorem range_append_last {α : Type*} (n : ℕ) (hn : 0 < n) (f : ℕ → α) (x : α) :
    (List.range (n - 1)).map f ++ [x] = (List.range n).map fun i => if i + 1 < n then f i else x := by
  obtain ⟨k, rfl⟩ : ∃ k, n = k + 1 := ⟨n - 1, by omega⟩
  rw [List.range_succ, List.map_append]
  simp
  intro a ha h; omega

theorem range'_one {α : Type*} (n : ℕ) (f : ℕ → α) :
    (List.range' 1 n).map f = (List.range n).map fun i => f (i + 1) := by
  rw [List.range'_eq_map_range, List.map_map]
  exact List.map_congr_left fun a _ => by simp [add_comm]

/-! ## Integral vectors of small length -/

theorem sq_le_dot (v : Fin m → ℚ) (i : Fin m) : v i * v i ≤ v ⬝ᵥ v := by
  simp only [dotProduct]
  exact Finset.single_le_sum (f := fun k => v k * v k) (fun k _ => mul_self_nonneg _) (Finset.mem_univ i)

theorem dot_sub_smul (v : Fin m → ℚ) (i : Fin m) (c : ℚ) :
    (v - c • e m i) ⬝ᵥ (v - c • e m i) = v ⬝ᵥ v - 2 * c * v i + c * c := by
  simp only [sub_dotProduct, dotProduct_sub, smul_dotProduct, dotProduct_smul, dot_e _ i.2, e_dot _ i.2, smul_eq_mul]
  simp [e]; ring

theorem dot_zero (v : Fin m → ℚ) (h : v ⬝ᵥ v = 0) : v = 0 := by
  ext i
  have := sq_le_dot v i
  rw [h] at this
  exact mul_self_eq_zero.1 (le_antisymm this (mul_self_nonneg _))

theorem one_of_sq_le {z : ℤ} (h : (z : ℚ) * z ≤ 2) (h0 : 0 < (z : ℚ)) : (z : ℚ) = 1 := by
  have h1 : z * z ≤ 2 := by exact_mod_cast h
  have h2 : 0 < z := by exact_mod_cast h0
  have : z = 1 := by nlinarith
  rw [this]; norm_num

theorem unit_vec (v : Fin m → ℚ) (hv : Integral v) (h : v ⬝ᵥ v = 1) :
    ∃ i : Fin m, v = e m i ∨ v = - e m i := by
  have hne : v ≠ 0 := by rintro rfl; simp at h
  obtain ⟨i, hi⟩ := Function.ne_iff.1 hne
  refine ⟨i, ?_⟩
  obtain ⟨z, hz⟩ := hv i
  have hle := sq_le_dot v i
  rw [h, hz] at hle
  rcases lt_or_gt_of_ne hi with h0 | h0
  · right
    have h1 : v i = -1 := by
      have := one_of_sq_le (z := -z) (by push_cast; linarith) (by push_cast; rw [← hz]; simpa using h0)
      push_cast at this; rw [hz]; linarith
    have := dot_zero (v - (-1 : ℚ) • e m i) (by rw [dot_sub_smul, h, h1]; norm_num)
    rw [sub_eq_zero] at this
    rw [this]; simp
  · left
    have h1 : v i = 1 := by
      rw [hz]; exact one_of_sq_le (by linarith) (by rw [← hz]; simpa using h0)
    have := dot_zero (v - (1 : ℚ) • e m i) (by rw [dot_sub_smul, h, h1]; norm_num)
    rw [sub_eq_zero] at this
    rw [this]; simp

theorem lexpos_one (v : Fin m → ℚ) (hv : Integral v) (h : v ⬝ᵥ v = 1) (hl : LexPos v) :
    ∃ i : Fin m, v = e m i := by
  obtain ⟨i, hi | hi⟩ := unit_vec v hv h
  · exact ⟨i, hi⟩
  · exfalso
    obtain ⟨k, hk, _⟩ := hl
    rw [hi] at hk
    simp only [e, Pi.neg_apply] at hk
    split_ifs at hk <;> linarith

theorem lexpos_two (v : Fin m → ℚ) (hv : Integral v) (h : v ⬝ᵥ v = 2) (hl : LexPos v) :
    ∃ j i : Fin m, j < i ∧ (v = e m j + e m i ∨ v = e m j - e m i) := by
  obtain ⟨j, hj, hj0⟩ := hl
  obtain ⟨z, hz⟩ := hv j
  have hle := sq_le_dot v j
  have h1 : v j = 1 := by
    rw [hz]; rw [h, hz] at hle; exact one_of_sq_le hle (by rw [← hz]; exact hj)
  obtain ⟨i, hi⟩ := unit_vec (v - (1 : ℚ) • e m j) (by
      intro k
      obtain ⟨y, hy⟩ := hv k
      refine ⟨y - (if k.1 = j.1 then 1 else 0), ?_⟩
      simp [e, hy]) (by rw [dot_sub_smul, h, h1]; norm_num)
  have hne : i ≠ j ∧ ¬ i < j := by
    constructor
    · rintro rfl
      rcases hi with hi | hi <;> have := congrFun hi i <;> simp [e, h1] at this
    · intro hlt
      have h2 := hj0 i hlt
      have h3 : i.1 ≠ j.1 := by have := hlt; omega
      rcases hi with hi | hi <;> have := congrFun hi i <;> simp [e, h2, h3] at this
  refine ⟨j, i, lt_of_le_of_ne (not_lt.1 hne.2) (Ne.symm hne.1), ?_⟩
  rcases hi with hi | hi
  · left; rw [← hi]; simp
  · right; rw [sub_eq_iff_eq_add] at hi; rw [hi]; simp; abel

theorem integral_e (i : ℕ) : Integral (e m i) := fun k => ⟨if k.1 = i then 1 else 0, by simp [e]⟩

theorem integral_add {v w : Fin m → ℚ} (hv : Integral v) (hw : Integral w) : Integral (v + w) := by
  intro k; obtain ⟨a, ha⟩ := hv k; obtain ⟨b, hb⟩ := hw k; exact ⟨a + b, by simp [ha, hb]⟩

theorem integral_sub {v w : Fin m → ℚ} (hv : Integral v) (hw : Integral w) : Integral (v - w) := by
  intro k; obtain ⟨a, ha⟩ := hv k; obtain ⟨b, hb⟩ := hw k; exact ⟨a - b, by simp [ha, hb]⟩

theorem lexpos_e {i : ℕ} (hi : i < m) : LexPos (e m i) := by
  refine ⟨⟨i, hi⟩, by simp [e], fun l hl => ?_⟩
  have : l.1 ≠ i := by have : l.1 < i := hl; omega
  simp [e, this]

theorem lexpos_pair {i j : ℕ} (hji : j < i) (hi : i < m) (c : ℚ) : LexPos (e m j + c • e m i) := by
  refine ⟨⟨j, by omega⟩, ?_, fun l hl => ?_⟩
  · have : j ≠ i := by omega
    simp [e, this]
  · have h1 : l.1 < j := hl
    have : l.1 ≠ j := by omega
    have : l.1 ≠ i := by omega
    simp [e, *]

theorem dot_pair {i j : ℕ} (hji : j < i) (hi : i < m) (c : ℚ) :
    (e m j + c • e m i) ⬝ᵥ (e m j + c • e m i) = 1 + c * c := by
  simp only [add_dotProduct, dotProduct_add, smul_dotProduct, dotProduct_smul, ee _ hi, ee _ (hji.trans hi), smul_eq_mul]
  have h1 : ¬ i = j := by omega
  have h2 : ¬ j = i := by omega
  simp [h1, h2]

/-! ## The lists of pairs -/

theorem mem_pairs {α : Type} (f : ℕ → ℕ → α) (x : α) :
    x ∈ pairs m f ↔ ∃ i j, j < i ∧ i < m ∧ x = f i j := by
  simp only [pairs, List.mem_flatMap, List.mem_map, List.mem_range, List.mem_range'_1]
  constructor
  · rintro ⟨i, hi, j, hj, rfl⟩; exact ⟨i, j, hj, by omega, rfl⟩
  · rintro ⟨i, j, hj, hi, rfl⟩; exact ⟨i, by omega, j, hj, rfl⟩

theorem map_pairs {α β : Type} (f : ℕ → ℕ → α) (g : α → β) :
    (pairs m f).map g = pairs m fun i j => g (f i j) := by
  simp [pairs, List.map_flatMap, List.map_map, Function.comp_def]

theorem sum_flatMap_map {α β : Type} (l : List α) (h : α → List β) (f : α → β → ℚ) :
    (l.flatMap fun a => (h a).map (f a)).sum = (l.map fun a => ((h a).map (f a)).sum).sum := by
  induction l with
  | nil => simp
  | cons a l ih => simp [ih]

theorem prod_flatMap_map {α β : Type} (l : List α) (h : α → List β) (f : α → β → ℚ) :
    (l.flatMap fun a => (h a).map (f a)).prod = (l.map fun a => ((h a).map (f a)).prod).prod := by
  induction l with
  | nil => simp
  | cons a l ih => simp [ih]

theorem prod_map_range' (n : ℕ) (f : ℕ → ℚ) : ((List.range n).map f).prod = ∏ i ∈ Finset.range n, f i := by
  induction n with
  | zero => simp
  | succ n ih => rw [List.range_succ, Finset.prod_range_succ, List.map_append, List.prod_append, ih]; simp

theorem sum_pairs (f : ℕ → ℕ → ℚ) :
    (pairs m f).sum = ∑ i ∈ Finset.range m, ∑ j ∈ Finset.range i, f i j := by
  rw [pairs, sum_flatMap_map]
  simp only [sum_map_range']
  rcases m with _ | m
  · simp
  · rw [range'_one, sum_map_range', Finset.sum_range_succ' _ m]; simp

theorem prod_pairs (f : ℕ → ℕ → ℚ) :
    (pairs m f).prod = ∏ i ∈ Finset.range m, ∏ j ∈ Finset.range i, f i j := by
  rw [pairs, prod_flatMap_map]
  simp only [prod_map_range']
  rcases m with _ | m
  · simp
  · rw [range'_one, prod_map_range', Finset.prod_range_succ' _ m]; simp

theorem length_pairs {α : Type} (f : ℕ → ℕ → α) : (pairs m f).length = m * (m - 1) / 2 := by
  have h : (((pairs m f).length : ℕ) : ℚ) = ((m * (m - 1) / 2 : ℕ) : ℚ) := by
    have h1 : ((pairs m f).map fun _ => (1 : ℚ)).sum = (pairs m f).length := by simp
    rw [← h1, map_pairs, sum_pairs, ← Finset.sum_range_id]
    push_cast; simp
  exact_mod_cast h

theorem sum_pairs_left (k : ℕ) (hk : k < m) :
    ∑ i ∈ Finset.range m, ∑ j ∈ Finset.range i, (if k = j then (1 : ℚ) else 0) = m - 1 - k := by
  simp only [Finset.sum_ite_eq, Finset.mem_range]
  induction m with
  | zero => omega
  | succ m ih =>
    rw [Finset.sum_range_succ]
    rcases Nat.lt_succ_iff_lt_or_eq.1 hk with h | h
    · rw [ih h, if_pos h]; push_cast; ring
    · subst h
      rw [Finset.sum_eq_zero fun i hi => if_neg (by simp at hi; omega)]
      simp

theorem sum_pairs_right (k : ℕ) (hk : k < m) :
    ∑ i ∈ Finset.range m, ∑ j ∈ Finset.range i, (if k = i then (1 : ℚ) else 0) = k := by
  rw [Finset.sum_eq_single k]
  · simp
  · intro b _ hb; simp [Ne.symm hb]
  · simp [hk]

end LieNN.Roots
