import Verif.Model.Structure
import Verif.Spec.Dynkin
import Mathlib.Tactic.Ring
import Mathlib.Data.List.GetD
import Mathlib.Tactic.NormNum
import Mathlib.Tactic.IntervalCases
/-! # Characters of the Dynkin diagrams -/
namespace LieNN.Roots

open LieNN.Spec

theorem nodeRow_one : nodeRow 1 = ['0'] := rfl

theorem nodeRow_succ (k : ℕ) : nodeRow (k + 2) = ['0', '-', '-', '-'] ++ nodeRow (k + 1) := by
  have h : ∀ a b, ((List.range' a (k + 1)).map fun _ => ['0']) = (List.range' b (k + 1)).map fun _ => ['0'] := by
    intro a b; simp
  unfold nodeRow
  rw [List.range'_succ, List.map_cons, h (1 + 1) 1, List.range'_succ, List.map_cons, pyJoin]
  rfl

theorem nodeRow_length : ∀ k, (nodeRow (k + 1)).length = 4 * k + 1
  | 0 => rfl
  | k + 1 => by rw [nodeRow_succ, List.length_append, nodeRow_length k]; simp; ring

theorem nodeRow_get : ∀ k x, (nodeRow (k + 1)).getD x ' ' =
    if x ≤ 4 * k then if x % 4 = 0 then '0' else '-' else ' '
  | 0, x => by
    rcases x with _ | x
    · rfl
    · simp [nodeRow_one]
  | k + 1, x => by
    rw [nodeRow_succ]
    by_cases hx : x < 4
    · interval_cases x <;> simp <;> omega
    · obtain ⟨y, rfl⟩ : ∃ y, x = y + 4 := ⟨x - 4, by omega⟩
      have h1 : (['0', '-', '-', '-'] ++ nodeRow (k + 1)).getD (y + 4) ' ' = (nodeRow (k + 1)).getD y ' ' := by
        simp
      rw [h1, nodeRow_get k y]
      rw [Nat.add_mod_right]
      exact if_congr (by omega) rfl rfl

theorem mem_pyJoin (sep : List Char) : ∀ (l : List (List Char)) (c : Char), c ∈ pyJoin sep l → c ∈ sep ∨ ∃ a ∈ l, c ∈ a
  | [], c, h => by simp [pyJoin] at h
  | [a], c, h => .inr ⟨a, by simp, h⟩
  | a :: b :: l, c, h => by
    rw [pyJoin, List.mem_append, List.mem_append] at h
    rcases h with (h | h) | h
    · exact .inr ⟨a, by simp, h⟩
    · exact .inl h
    · rcases mem_pyJoin sep (b :: l) c h with h | ⟨d, hd, h⟩
      · exact .inl h
      · exact .inr ⟨d, by simp [List.mem_cons] at hd ⊢; tauto, h⟩

theorem nodeRow_nl (k : ℕ) : '\n' ∉ nodeRow k := by
  intro h
  rcases mem_pyJoin _ _ _ h with h | ⟨a, ha, h⟩
  · simp at h
  · simp only [List.mem_map] at ha
    obtain ⟨-, -, rfl⟩ := ha
    simp at h

theorem pyStr_nl (n : ℕ) : '\n' ∉ pyStr n := by
  intro h
  have := Nat.isDigit_of_mem_toDigits (by norm_num) (by norm_num) h
  simp [Char.isDigit] at this

theorem pyStr_pos (n : ℕ) : 1 ≤ (pyStr n).length := Nat.length_toDigits_pos

theorem pyStr_small (n : ℕ) (h : n < 10) : (pyStr n).length = 1 := by
  have h1 : (pyStr n).length ≤ 1 := (Nat.length_toDigits_le_iff (by norm_num) (by norm_num)).2 (by simpa using h)
  have := pyStr_pos n
  omega

theorem labelRow_nl (k : ℕ) : '\n' ∉ labelRow k := by
  intro h
  rcases mem_pyJoin _ _ _ h with h | ⟨a, ha, h⟩
  · simp at h
  · simp only [List.mem_map] at ha
    obtain ⟨n, -, rfl⟩ := ha
    exact pyStr_nl n h

/-- The labels from `a` on, and where each begins. -/
theorem labels_at : ∀ (k a i : ℕ), i < k → ∃ p s, pyJoin [' ', ' ', ' '] ((List.range' a k).map pyStr) = p ++ pyStr (a + i) ++ s ∧
    p.length = ∑ j ∈ Finset.range i, ((pyStr (a + j)).length + 3)
  | 0, _, _, h => absurd h (by omega)
  | 1, a, 0, _ => ⟨[], [], by simp [pyJoin], by simp⟩
  | 1, _, _ + 1, h => absurd h (by omega)
  | k + 2, a, 0, _ => ⟨[], [' ', ' ', ' '] ++ pyJoin [' ', ' ', ' '] ((List.range' (a + 1) (k + 1)).map pyStr), by
      rw [List.range'_succ, List.map_cons, List.range'_succ, List.map_cons, pyJoin]; simp, by simp⟩
  | k + 2, a, i + 1, h => by
    obtain ⟨p, s, h1, h2⟩ := labels_at (k + 1) (a + 1) i (by omega)
    refine ⟨pyStr a ++ [' ', ' ', ' '] ++ p, s, ?_, ?_⟩
    · rw [List.range'_succ, List.map_cons, List.range'_succ, List.map_cons, pyJoin, ← List.map_cons, ← List.range'_succ, h1]
      simp [Nat.add_assoc, Nat.add_comm 1 i]
    · rw [List.length_append, h2, Finset.sum_range_succ']
      simp [Nat.add_assoc, Nat.add_comm 1]
      omega

theorem labels_length : ∀ (k a : ℕ), (pyJoin [' ', ' ', ' '] ((List.range' a (k + 1)).map pyStr)).length =
    3 * k + ∑ j ∈ Finset.range (k + 1), (pyStr (a + j)).length
  | 0, a => by simp [pyJoin]
  | k + 1, a => by
    have := labels_length k (a + 1)
    rw [List.range'_succ, List.map_cons, List.range'_succ, List.map_cons, pyJoin, ← List.map_cons, ← List.range'_succ,
      List.length_append, this, Finset.sum_range_succ' _ (k + 1)]
    simp [Nat.add_assoc, Nat.add_comm 1]
    omega

theorem at_of_append (p s t l : List Char) (x : ℕ) (h : l = p ++ s ++ t) (hx : p.length = x) : At l x s := by
  subst h hx
  simp [At]

theorem lines_two (a b : List Char) (ha : '\n' ∉ a) (hb : '\n' ∉ b) : Lines (a ++ ['\n'] ++ b) [a, b] := by
  refine ⟨by simp, ?_⟩
  intro l hl
  simp only [List.mem_cons, List.not_mem_nil, or_false] at hl
  rcases hl with rfl | rfl <;> assumption

theorem rowEnd_get (c : Char) (k x : ℕ) : (nodeRow (k + 1) ++ ['=', c, '=', '0']).getD x ' ' =
    if x ≤ 4 * k then if x % 4 = 0 then '0' else '-' else if x = 4 * k + 1 then '=' else
      if x = 4 * k + 2 then c else if x = 4 * k + 3 then '=' else if x = 4 * k + 4 then '0' else ' ' := by
  by_cases hx : x ≤ 4 * k
  · rw [List.getD_append _ _ _ _ (by rw [nodeRow_length]; omega), nodeRow_get, if_pos hx, if_pos hx]
  · rw [List.getD_append_right _ _ _ _ (by rw [nodeRow_length]; omega), nodeRow_length, if_neg hx]
    obtain ⟨y, rfl⟩ : ∃ y, x = 4 * k + 1 + y := ⟨x - (4 * k + 1), by omega⟩
    rw [Nat.add_sub_cancel_left]
    rcases y with _ | _ | _ | _ | y
    · simp
    · simp
    · simp
    · simp
    · rw [if_neg (by omega), if_neg (by omega), if_neg (by omega), if_neg (by omega)]; simp

theorem labelRow_at (r i : ℕ) (hi : i < r) : At (labelRow r) (labelColumn i) (Nat.toDigits 10 (i + 1)) := by
  obtain ⟨p, s, h1, h2⟩ := labels_at r 1 i hi
  rw [Nat.add_comm 1 i] at h1
  refine at_of_append p _ s _ _ h1 (h2.trans ?_)
  exact Finset.sum_congr rfl fun j _ => by rw [Nat.add_comm 1 j]; rfl

theorem labelColumn_eq_iff (i : ℕ) : labelColumn i = 4 * i ↔ i ≤ 9 := by
  have h4 : ∀ j, 4 ≤ (Nat.toDigits 10 (j + 1)).length + 3 := fun j => by
    have := pyStr_pos (j + 1); unfold pyStr at this; omega
  have h0 : ∀ i, i ≤ 9 → labelColumn i = 4 * i := by
    intro i hi
    rw [labelColumn, Finset.sum_congr rfl (g := fun _ => 4) fun j hj => by
      rw [Finset.mem_range] at hj
      have := pyStr_small (j + 1) (by omega)
      unfold pyStr at this
      omega]
    simp [Nat.mul_comm]
  refine ⟨fun h => ?_, h0 i⟩
  by_contra hi
  obtain ⟨k, rfl⟩ : ∃ k, i = 10 + k := ⟨i - 10, by omega⟩
  have h1 : ∀ k, 4 * (10 + k) + 1 ≤ labelColumn (10 + k) := by
    intro k
    induction k with
    | zero =>
      have h9 := h0 9 le_rfl
      have h10 : labelColumn 10 = labelColumn 9 + ((Nat.toDigits 10 10).length + 3) := Finset.sum_range_succ _ 9
      have h11 : (Nat.toDigits 10 10).length = 2 := by decide
      change 41 ≤ labelColumn 10
      omega
    | succ k ih =>
      have : labelColumn (10 + (k + 1)) = labelColumn (10 + k) + _ := Finset.sum_range_succ _ (10 + k)
      have := h4 (10 + k)
      omega
  have := h1 k
  omega

theorem lines_cons (a : List Char) (t : List Char) (ls : List (List Char)) (hls : ls ≠ []) (ha : '\n' ∉ a) (h : Lines t ls) :
    Lines (a ++ ['\n'] ++ t) (a :: ls) := by
  obtain ⟨h1, h2⟩ := h
  obtain ⟨b, l, rfl⟩ := List.exists_cons_of_ne_nil hls
  refine ⟨by rw [h1]; simp, ?_⟩
  intro x hx
  rcases List.mem_cons.1 hx with rfl | hx
  · exact ha
  · exact h2 x hx

/-- The lines of the drawing of type D. -/
theorem lines_D (r : ℕ) : Lines (dynkinD r)
    [List.replicate (4 * (r - 2)) ' ' ++ ['0'], List.replicate (4 * (r - 2)) ' ' ++ ['|'], nodeRow (r - 1),
      labelRow (r - 2) ++ [' ', ' ', ' '] ++ pyStr r ++ List.replicate (4 * (r - 2)) ' ',
      List.replicate (4 * (r - 2)) ' ' ++ ['|'], List.replicate (4 * (r - 2)) ' ' ++ ['0'], []] := by
  refine ⟨by simp [dynkinD], ?_⟩
  have h1 := nodeRow_nl (r - 1)
  have h2 := labelRow_nl (r - 2)
  have h3 := pyStr_nl r
  intro l hl
  simp only [List.mem_cons, List.not_mem_nil, or_false] at hl
  rcases hl with rfl | rfl | rfl | rfl | rfl | rfl | rfl <;> simp [h1, h2, h3]

theorem blank_get (n x : ℕ) (c : Char) : (List.replicate n ' ' ++ [c]).getD x ' ' = if x = n then c else ' ' := by
  by_cases h : x < n
  · rw [List.getD_append _ _ _ _ (by simpa using h), if_neg (by omega)]
    simp [List.getD_eq_getElem?_getD, List.getElem?_replicate, h]
  · rw [List.getD_append_right _ _ _ _ (by simp; omega)]
    split_ifs with h2
    · subst h2; simp
    · obtain ⟨y, rfl⟩ : ∃ y, x = n + (y + 1) := ⟨x - n - 1, by omega⟩
      simp

end LieNN.Roots
