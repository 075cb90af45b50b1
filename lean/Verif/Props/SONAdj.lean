import Verif.Proofs.SONAdj
import Mathlib.LinearAlgebra.LinearIndependent.Basic
/-!
# C68: the matrices of `SON_adjoint`
-/
namespace LieNN.Props

open Matrix Spec SONAdj

/-- C68: `n` below three is refused by the assertion, and three raises `ValueError`. -/
theorem C68_small {n : ℕ} (hn : n ≤ 3) :
    SONAdj.generators n = .error (if n = 3 then .valueError else .assertionError) := by
  unfold SONAdj.generators pyAssert
  rcases Nat.lt_or_ge n 3 with h | h
  · rw [if_neg (by omega), if_neg (show ¬ n = 3 by omega)]
    rfl
  · obtain rfl : n = 3 := by omega
    rw [if_pos (by omega), if_neg (by omega), if_pos rfl]
    have h1 : common 3 ((3 - 1) / 2) = .error .valueError := by
      unfold common
      have : stack ((List.range ((3 - 1) / 2)).map fun i => diff 3 i i (i + (3 - 1) / 2) (i + (3 - 1) / 2)) =
          .ok ((List.range 1).map fun i => U 3 i i - U 3 (i + 1) (i + 1)) :=
        stack_ok _ _ _ (fun i hi => by
          rw [List.mem_range] at hi
          exact diff_ok (by omega) (by omega) (by omega) (by omega)) (by decide)
      rw [this]
      rfl
    dsimp only
    rw [h1]
    rfl

/-- C68: for every even `n = 2 m ≥ 4` the matrices span the Lie algebra of the split form, which is symmetric
and invertible, so they are closed under the commutator. -/
theorem C68_even {m : ℕ} (hm : 2 ≤ m) : ∃ L, SONAdj.generators (2 * m) = .ok L ∧ L.length = m + 3 * (m * (m - 1)) ∧
    (∀ G, G ∈ Submodule.span ℝ {G | G ∈ L} ↔ PreservesForm (splitForm m) G) ∧
    (splitForm m)ᵀ = splitForm m ∧ splitForm m * splitForm m = 1 ∧ ClosedFamily fun i : Fin L.length => L.get i := by
  have hsym : (splitForm m)ᵀ = splitForm m := by
    ext a b
    rw [Matrix.transpose_apply, splitForm, Matrix.of_apply, Matrix.of_apply]
    exact if_congr or_comm rfl rfl
  refine ⟨_, generators_even hm, length_commonL _ _, span_even, hsym, ?_, ?_⟩
  · ext a b
    rw [Matrix.mul_apply]
    simp only [splitForm_apply a, splitForm_apply']
    simp only [ite_mul, one_mul, zero_mul, Finset.sum_ite_eq', Finset.mem_univ, if_true, Matrix.one_apply]
    refine if_congr ⟨fun h => ?_, fun h => by rw [h]⟩ rfl rfl
    rw [← fsw_fsw a, h, fsw_fsw]
  · rw [closed_iff]
    intro G hG H hH
    have h1 := (span_even G).1 (Submodule.subset_span hG)
    have h2 := (span_even H).1 (Submodule.subset_span hH)
    rw [span_even]
    unfold PreservesForm at *
    have e1 : Gᵀ * splitForm m = -(splitForm m * G) := eq_neg_of_add_eq_zero_left h1
    have e2 : Hᵀ * splitForm m = -(splitForm m * H) := eq_neg_of_add_eq_zero_left h2
    rw [Matrix.transpose_sub, Matrix.transpose_mul, Matrix.transpose_mul, Matrix.sub_mul, Matrix.mul_assoc Hᵀ,
      Matrix.mul_assoc Gᵀ, e1, e2, Matrix.mul_neg, Matrix.mul_neg, ← Matrix.mul_assoc, ← Matrix.mul_assoc, e1, e2,
      Matrix.neg_mul, Matrix.neg_mul, Matrix.mul_sub, Matrix.mul_assoc, Matrix.mul_assoc]
    abel

/-- C68, a case: `so(4)`. -/
example : ∃ L, SONAdj.generators 4 = .ok L ∧ L.length = 8 ∧ ClosedFamily fun i : Fin L.length => L.get i := by
  obtain ⟨L, h1, h2, -, -, -, h3⟩ := C68_even (m := 2) le_rfl
  exact ⟨L, h1, h2, h3⟩

/-- C68: for every `n ≥ 4` some generators occur twice up to the sign, so the generators are not
linearly independent. -/
theorem C68_dependent {n : ℕ} (hn : 4 ≤ n) {L : List (Matrix (Fin n) (Fin n) ℝ)} (hL : SONAdj.generators n = .ok L) :
    ¬ LinearIndependent ℝ fun i : Fin L.length => L.get i := by
  -- a generator and its negative
  obtain ⟨m, hm, hcommon⟩ : ∃ m, 2 ≤ m ∧ (2 * m ≤ n) ∧ ∀ G ∈ commonL n m, G ∈ L := by
    rcases Nat.even_or_odd' n with ⟨m, rfl | rfl⟩
    · rw [generators_even (by omega)] at hL
      cases hL
      exact ⟨m, by omega, le_rfl, fun G h => h⟩
    · rw [generators_odd (by omega)] at hL
      cases hL
      exact ⟨m, by omega, by omega, fun G h => List.mem_append_left _ (List.mem_append_left _ h)⟩
  have hY : ∀ i j, i < m → j < m → i ≠ j → U n i (m + j) - U n j (m + i) ∈ L := fun i j hi hj hij => hcommon.2 _ (by
    simp only [commonL, List.mem_append, List.mem_map]
    exact Or.inl (Or.inr ⟨(i, j), mem_offDiag.2 ⟨hi, hj, hij⟩, rfl⟩))
  obtain ⟨i, hi⟩ := List.mem_iff_get.1 (hY 0 1 (by omega) (by omega) (by omega))
  obtain ⟨j, hj⟩ := List.mem_iff_get.1 (hY 1 0 (by omega) (by omega) (by omega))
  intro hli
  have h0 := Fintype.linearIndependent_iff.1 hli (Pi.single i 1 + Pi.single j 1) (by
    simp only [Pi.add_apply, add_smul, Finset.sum_add_distrib, Pi.single_apply, ite_smul, one_smul, zero_smul,
      Finset.sum_ite_eq', Finset.mem_univ, if_true]
    rw [hi, hj]
    abel) i
  rw [Pi.add_apply, Pi.single_eq_same, Pi.single_apply] at h0
  split_ifs at h0 <;> norm_num at h0

/-- C68: for every odd `n = 2 m + 1 ≥ 5` the matrices are not closed under the commutator: there are no
structure constants, and the zero bilinear form is the only one that they all preserve. -/
theorem C68_odd {m : ℕ} (hm : 2 ≤ m) : ∃ L, SONAdj.generators (2 * m + 1) = .ok L ∧
    L.length = m + 3 * (m * (m - 1)) + (2 * m + 1) + m ∧ 0 ∈ L ∧
    (¬ ClosedFamily fun i : Fin L.length => L.get i) ∧
    ∀ B, (∀ G ∈ L, PreservesForm B G) → B = 0 := by
  have hU : ∀ i, i < 2 * m + 1 → U (2 * m + 1) i (2 * m) - U (2 * m + 1) (2 * m) i ∈ oddL m := fun i hi =>
    List.mem_append_left _ (List.mem_append_right _ (List.mem_map.2 ⟨i, List.mem_range.2 hi, rfl⟩))
  have hH : U (2 * m + 1) 0 0 - U (2 * m + 1) (0 + m) (0 + m) ∈ oddL m := by
    simp only [oddL, commonL, List.mem_append, List.mem_map, List.mem_range]
    exact Or.inl (Or.inl (Or.inl (Or.inl (Or.inl ⟨0, by omega, rfl⟩))))
  have hUa : ∀ i j (a b : Fin (2 * m + 1)), U (2 * m + 1) i j a b = if (a : ℕ) = i ∧ (b : ℕ) = j then 1 else 0 :=
    fun i j a b => rfl
  refine ⟨_, generators_odd hm, ?_, ?_, ?_, ?_⟩
  · unfold oddL
    simp only [List.length_append, List.length_map, List.length_range, length_commonL]
  · have := hU (2 * m) (by omega)
    rwa [sub_self] at this
  · rw [closed_iff]
    intro h
    have h1 := h _ hH _ (hU 0 (by omega))
    -- a linear functional that vanishes on the span
    let z : Fin (2 * m + 1) := ⟨0, by omega⟩
    let y : Fin (2 * m + 1) := ⟨m, by omega⟩
    let w : Fin (2 * m + 1) := ⟨2 * m, by omega⟩
    have hspan : ∀ G ∈ Submodule.span ℝ {G | G ∈ oddL m}, G z w + G y w + G w z + G w y = 0 := by
      intro G hG
      induction hG using Submodule.span_induction with
      | mem x hx =>
        simp only [Set.mem_ofPred_eq, oddL, List.mem_append, List.mem_map, List.mem_range] at hx
        rcases hx with (hx | ⟨i, hi, rfl⟩) | ⟨i, hi, rfl⟩
        · obtain ⟨a, b, ha, hb, rfl⟩ := common_form hx
          have ha' := sw_lt ha
          have hb' := sw_lt hb
          simp only [Matrix.sub_apply, hUa, z, y, w]
          rw [if_neg (by omega), if_neg (by omega), if_neg (by omega), if_neg (by omega), if_neg (by omega),
            if_neg (by omega), if_neg (by omega), if_neg (by omega)]
          ring
        · simp only [Matrix.sub_apply, hUa, z, y, w, and_true, true_and]
          have e1 : ((0 : ℕ) = 2 * m ∧ 2 * m = i) ↔ False := iff_false_intro (by omega)
          have e2 : (m = 2 * m ∧ 2 * m = i) ↔ False := iff_false_intro (by omega)
          have e3 : (2 * m = i ∧ 0 = 2 * m) ↔ False := iff_false_intro (by omega)
          have e4 : (2 * m = i ∧ m = 2 * m) ↔ False := iff_false_intro (by omega)
          simp only [e1, e2, e3, e4, if_false]
          ring
        · simp only [Matrix.sub_apply, hUa, z, y, w, and_true, true_and]
          have e0 : (0 : ℕ) = m + i ↔ False := iff_false_intro (by omega)
          have e1 : ((0 : ℕ) = 2 * m ∧ 2 * m = i) ↔ False := iff_false_intro (by omega)
          have e2 : (m = 2 * m ∧ 2 * m = i) ↔ False := iff_false_intro (by omega)
          have e3 : (2 * m = m + i ∧ 0 = 2 * m) ↔ False := iff_false_intro (by omega)
          have e4 : (2 * m = m + i ∧ m = 2 * m) ↔ False := iff_false_intro (by omega)
          have e5 : (m = m + i) ↔ 0 = i := by omega
          have e6 : m = i ↔ False := iff_false_intro (by omega)
          simp only [e0, e1, e2, e3, e4, e5, e6, if_false]
          ring
      | zero => simp
      | add x y _ _ hx hy =>
        simp only [Matrix.add_apply]
        linarith
      | smul c x _ hx =>
        simp only [Matrix.smul_apply, smul_eq_mul]
        rw [← mul_add, ← mul_add, ← mul_add, hx, mul_zero]
    have h2 := hspan _ h1
    have u1 : ∀ i j, ∀ hi : i < 2 * m + 1, ∀ hj : j < 2 * m + 1, U (2 * m + 1) i j =
        Matrix.single (⟨i, hi⟩ : Fin (2 * m + 1)) ⟨j, hj⟩ 1 := fun i j hi hj => U_fin ⟨i, hi⟩ ⟨j, hj⟩
    have hzw : z ≠ w := fun e => by have := Fin.ext_iff.1 e; simp only [z, w] at this; omega
    have hyw : y ≠ w := fun e => by have := Fin.ext_iff.1 e; simp only [y, w] at this; omega
    have hzy : z ≠ y := fun e => by have := Fin.ext_iff.1 e; simp only [z, y] at this; omega
    have e : (U (2 * m + 1) 0 0 - U (2 * m + 1) (0 + m) (0 + m)) * (U (2 * m + 1) 0 (2 * m) - U (2 * m + 1) (2 * m) 0) -
        (U (2 * m + 1) 0 (2 * m) - U (2 * m + 1) (2 * m) 0) * (U (2 * m + 1) 0 0 - U (2 * m + 1) (0 + m) (0 + m)) =
        Matrix.single z w 1 + Matrix.single w z 1 := by
      rw [u1 0 0 (by omega) (by omega), u1 (0 + m) (0 + m) (by omega) (by omega), u1 0 (2 * m) (by omega) (by omega),
        u1 (2 * m) 0 (by omega) (by omega)]
      have hy : (⟨0 + m, by omega⟩ : Fin (2 * m + 1)) = y := Fin.ext (Nat.zero_add m)
      rw [hy]
      change (Matrix.single z z 1 - Matrix.single y y 1) * (Matrix.single z w 1 - Matrix.single w z 1) -
        (Matrix.single z w 1 - Matrix.single w z 1) * (Matrix.single z z 1 - Matrix.single y y 1) = _
      simp only [Matrix.sub_mul, Matrix.mul_sub, Matrix.single_mul_single_same, mul_one]
      rw [Matrix.single_mul_single_of_ne _ _ _ _ hzw, Matrix.single_mul_single_of_ne _ _ _ _ hzy.symm,
        Matrix.single_mul_single_of_ne _ _ _ _ hyw, Matrix.single_mul_single_of_ne _ _ _ _ hzw.symm,
        Matrix.single_mul_single_of_ne _ _ _ _ hyw.symm, Matrix.single_mul_single_of_ne _ _ _ _ hzy]
      abel
    rw [e] at h2
    simp [hzw, hzy, hzw.symm, hyw.symm] at h2
  · intro B hB
    let w : Fin (2 * m + 1) := ⟨2 * m, by omega⟩
    have hent : ∀ i a b : Fin (2 * m + 1), (if a = w then B i b else 0) - (if a = i then B w b else 0) +
        ((if b = w then B a i else 0) - (if b = i then B a w else 0)) = 0 := by
      intro i a b
      have h1 : (Matrix.single i w (1 : ℝ) - Matrix.single w i 1)ᵀ * B + B * (Matrix.single i w (1 : ℝ) - Matrix.single w i 1) = 0 := by
        have := hB _ (hU i i.2)
        have e1 : U (2 * m + 1) i (2 * m) = Matrix.single i w 1 := U_fin i w
        have e2 : U (2 * m + 1) (2 * m) i = Matrix.single w i 1 := U_fin w i
        rw [e1, e2] at this
        exact this
      have h2 := congrFun₂ h1 a b
      rw [Matrix.add_apply, Matrix.transpose_sub, Matrix.transpose_single, Matrix.transpose_single, Matrix.sub_mul,
        Matrix.mul_sub, Matrix.sub_apply, Matrix.sub_apply] at h2
      have k1 : ∀ x y : Fin (2 * m + 1), (Matrix.single x y (1 : ℝ) * B) a b = if a = x then B y b else 0 := by
        intro x y
        by_cases e : a = x
        · subst e
          rw [Matrix.single_mul_apply_same, one_mul, if_pos rfl]
        · rw [Matrix.single_mul_apply_of_ne _ _ _ _ _ e, if_neg e]
      have k2 : ∀ x y : Fin (2 * m + 1), (B * Matrix.single x y (1 : ℝ)) a b = if b = y then B a x else 0 := by
        intro x y
        by_cases e : b = y
        · subst e
          rw [Matrix.mul_single_apply_same, mul_one, if_pos rfl]
        · rw [Matrix.mul_single_apply_of_ne _ _ _ _ _ e, if_neg e]
      rw [k1, k1, k2, k2] at h2
      exact h2
    -- the entries outside the diagonal
    have hoff : ∀ i b, i ≠ w → b ≠ w → b ≠ i → B i b = 0 := by
      intro i b hi hb hbi
      have := hent i w b
      rw [if_pos rfl, if_neg hi.symm, if_neg hb, if_neg hbi] at this
      linarith
    have hother : ∀ b : Fin (2 * m + 1), b ≠ w → ∃ i : Fin (2 * m + 1), i ≠ w ∧ i ≠ b := by
      intro b hb
      by_cases h0 : (b : ℕ) = 0
      · exact ⟨⟨1, by omega⟩, fun e => by have := Fin.ext_iff.1 e; simp only [w] at this; omega,
          fun e => by have := Fin.ext_iff.1 e; simp only at this; omega⟩
      · exact ⟨⟨0, by omega⟩, fun e => by have := Fin.ext_iff.1 e; simp only [w] at this; omega,
          fun e => by have := Fin.ext_iff.1 e; simp only at this; omega⟩
    have hrow : ∀ b, b ≠ w → B w b = 0 := by
      intro b hb
      obtain ⟨i, hi, hib⟩ := hother b hb
      have := hent i i b
      rw [if_neg hi, if_pos rfl, if_neg hb, if_neg hib.symm] at this
      linarith
    have hcol : ∀ a, a ≠ w → B a w = 0 := by
      intro a ha
      obtain ⟨i, hi, hia⟩ := hother a ha
      have := hent i a i
      rw [if_neg ha, if_neg hia.symm, if_neg hi, if_pos rfl] at this
      linarith
    have hdiag : ∀ i, i ≠ w → B i i = B w w := by
      intro i hi
      have := hent i w i
      rw [if_pos rfl, if_neg hi.symm, if_neg hi, if_pos rfl] at this
      linarith
    -- the diagonal
    have hw : B w w = 0 := by
      let z : Fin (2 * m + 1) := ⟨0, by omega⟩
      have hz : z ≠ w := fun e => by have := Fin.ext_iff.1 e; simp only [z, w] at this; omega
      have h1 := hB _ hH
      let y : Fin (2 * m + 1) := ⟨0 + m, by omega⟩
      have hzy : z ≠ y := fun e => by have := Fin.ext_iff.1 e; simp only [z, y] at this; omega
      have e1 : U (2 * m + 1) 0 0 - U (2 * m + 1) (0 + m) (0 + m) = Matrix.single z z 1 - Matrix.single y y 1 := by
        rw [← U_fin, ← U_fin]
      rw [e1] at h1
      have h2 := congrFun₂ h1 z z
      rw [Matrix.add_apply, Matrix.transpose_sub, Matrix.transpose_single, Matrix.transpose_single, Matrix.sub_mul,
        Matrix.mul_sub, Matrix.sub_apply, Matrix.sub_apply, Matrix.single_mul_apply_same,
        Matrix.single_mul_apply_of_ne _ _ _ _ _ hzy, Matrix.mul_single_apply_same,
        Matrix.mul_single_apply_of_ne _ _ _ _ _ hzy, hdiag z hz, Matrix.zero_apply] at h2
      linarith
    ext a b
    rw [Matrix.zero_apply]
    by_cases ha : a = w
    · subst ha
      by_cases hb : b = w
      · rw [hb, hw]
      · exact hrow b hb
    · by_cases hb : b = w
      · rw [hb]
        exact hcol a ha
      · by_cases hab : b = a
        · rw [hab, hdiag a ha, hw]
        · exact hoff a b ha hb hab

end LieNN.Props
