import Verif.Proofs.SUNRep
/-!
# The representation of a label that is not constant is faithful on the matrices of trace zero
-/
namespace LieNN.SUN

open Spec Matrix Finset

/-! ## The highest pattern -/

/-- The pattern whose row `i` is the first part of `S`. -/
def topPat (S : List ℤ) : Pat := (List.range S.length).map fun i => S.take (S.length - i)

theorem topPat_row (S : List ℤ) {i : ℕ} (hi : i < S.length) : (topPat S).getD i [] = S.take (S.length - i) := by
  unfold topPat
  rw [List.getD_eq_getElem _ _ (by simpa using hi)]
  simp

theorem topPat_ent (S : List ℤ) {i j : ℕ} (h : i + j < S.length) : ent (topPat S) i j = S.getD j 0 := by
  unfold ent
  rw [topPat_row S (by omega), List.getD_eq_getElem _ _ (by rw [List.length_take]; omega),
    List.getD_eq_getElem _ _ (by omega), List.getElem_take]

theorem topPat_tri (S : List ℤ) : Triangular S.length (topPat S) := by
  refine ⟨by simp [topPat], fun i hi => ?_⟩
  rw [topPat_row S hi, List.length_take]
  omega

theorem topPat_isGT {S : List ℤ} (hS : IsWeight S) : IsGT S (topPat S) := by
  refine ⟨topPat_tri S, ?_, ?_⟩
  · have h : 0 < S.length := List.length_pos_iff.2 hS.1
    rw [List.head?_eq_getElem?, List.getElem?_eq_getElem (by rw [(topPat_tri S).1]; exact h)]
    simp [topPat]
  · intro i j h
    rw [(topPat_tri S).1] at h
    rw [topPat_ent S (by omega), topPat_ent S (by omega), topPat_ent S (by omega)]
    refine ⟨?_, le_rfl⟩
    rw [List.getD_eq_getElem _ _ (by omega), List.getD_eq_getElem _ _ (by omega)]
    exact List.pairwise_iff_getElem.1 hS.2 j (j + 1) _ _ (by omega)

theorem sig_topPat (S : List ℤ) (i : ℕ) :
    sig S.length (topPat S) i = ∑ j ∈ range (S.length - i), S.getD j 0 := by
  unfold sig
  refine sum_congr rfl fun j hj => ?_
  exact topPat_ent S (by have := mem_range.1 hj; omega)

/-! ## No matrix unit is sent to zero -/

theorem unit_mul_unit (n i j k l : ℕ) (hj : j < n) : unit n i j * unit n k l = if j = k then unit n i l else 0 := by
  ext a b
  rw [Matrix.mul_apply]
  by_cases h : j = k
  · subst h
    rw [if_pos rfl, Finset.sum_eq_single (⟨j, hj⟩ : Fin n)]
    · simp only [unit, Matrix.of_apply, and_true, true_and]
      split_ifs <;> simp_all
    · intro c _ hc
      simp [unit, Fin.ext_iff] at hc ⊢
      simp [hc]
    · simp
  · rw [if_neg h]
    refine Finset.sum_eq_zero fun c _ => ?_
    simp only [unit, Matrix.of_apply]
    by_cases e : (c : ℕ) = j
    · simp [e, h]
    · simp [e]

theorem GG_all_zero {S : List ℤ} (hS : IsWeight S) {p q : ℕ} (hp : p < S.length) (hq : q < S.length)
    (h : GG S p q = 0) {r s : ℕ} (hr : r < S.length) (hs : s < S.length) (hrs : r ≠ s) :
    GG S r s = 0 := by
  have h1 : ∀ r < S.length, r ≠ q → GG S r q = 0 := by
    intro r hr hrq
    have := GG_rel hS hr hp hp hq
    rw [h, if_pos rfl, if_neg hrq.symm, sub_zero, mul_zero, zero_mul, sub_zero] at this
    exact this.symm
  have h2 : ∀ r < S.length, r ≠ q → ∀ s < S.length, s ≠ r → GG S r s = 0 := by
    intro r hr hrq s hs hsr
    have := GG_rel hS hr hq hq hs
    rw [h1 r hr hrq, if_pos rfl, if_neg hsr, sub_zero, mul_zero, zero_mul, sub_zero] at this
    exact this.symm
  by_cases hrq : r = q
  · rw [← GG_tr hS hs hr, h2 s hs (by omega) r hr (by omega), transpose_zero]
  · exact h2 r hr hrq s hs (Ne.symm hrs)

theorem GG_ne_zero {S : List ℤ} (hS : IsWeight S) (hc : S.getD 0 0 ≠ S.getD (S.length - 1) 0) {p q : ℕ}
    (hp : p < S.length) (hq : q < S.length) : GG S p q ≠ 0 := by
  intro h
  have hpos : 0 < S.length := by omega
  have h2 : S.length - 1 ≠ 0 := by
    intro e
    rw [e] at hc
    exact hc rfl
  have h0 := GG_all_zero hS hp hq h (r := 0) (s := S.length - 1) hpos (by omega) (by omega)
  have hrel := GG_rel hS hpos (show S.length - 1 < S.length by omega) (show S.length - 1 < S.length by omega) hpos
  rw [h0, if_pos rfl, if_pos rfl, zero_mul, mul_zero, sub_zero] at hrel
  have hD : Dw S 0 = Dw S (S.length - 1) := by
    have := sub_eq_zero.1 hrel.symm
    simpa [GG, GL.G_diag] using this
  obtain ⟨a, ha, hM⟩ := List.mem_iff_getElem.1 ((mem_pats S hS (topPat S)).2 (topPat_isGT hS))
  have hE := congrFun (congrFun hD ⟨a, ha⟩) ⟨a, ha⟩
  unfold Dw at hE
  rw [Matrix.diagonal_apply_eq, Matrix.diagonal_apply_eq] at hE
  have hE : sig S.length (pats S)[a] (0 + 1) - sig S.length (pats S)[a] 0 =
      sig S.length (pats S)[a] (S.length - 1 + 1) - sig S.length (pats S)[a] (S.length - 1) := by
    exact_mod_cast hE
  rw [hM, sig_topPat, sig_topPat, sig_topPat, sig_topPat] at hE
  obtain ⟨m, hm⟩ : ∃ m, S.length = m + 1 := ⟨S.length - 1, by omega⟩
  rw [hm] at hE hc
  simp only [zero_add, Nat.add_sub_cancel, Nat.sub_zero, Nat.sub_self, sum_range_succ, range_zero,
    sum_empty, Nat.add_sub_cancel_left] at hE hc
  apply hc
  linarith

/-! ## Faithfulness -/

theorem Phi_faithful {S : List ℤ} (hS : IsWeight S) (hc : S.getD 0 0 ≠ S.getD (S.length - 1) 0)
    {x : Matrix (Fin S.length) (Fin S.length) ℂ} (ht : x.trace = 0) (h : Phi S x = 0) : x = 0 := by
  have hoff : ∀ p q : Fin S.length, p ≠ q → x p q = 0 := by
    intro p q hpq
    have hne : (p : ℕ) ≠ q := fun e => hpq (Fin.ext e)
    let E := unit S.length q p
    have hEE : E * E = 0 := by
      rw [unit_mul_unit _ _ _ _ _ p.2, if_neg hne]
    have hExE : E * x * E = x p q • E := by
      ext a b
      simp only [E, Matrix.mul_apply, unit, Matrix.of_apply, Matrix.smul_apply, smul_eq_mul]
      rw [Finset.sum_eq_single q, Finset.sum_eq_single p]
      · by_cases ha : (a : ℕ) = q <;> by_cases hb : (b : ℕ) = p <;> simp [ha, hb]
      · intro c _ hcp
        have : ¬ (c : ℕ) = p := fun e => hcp (Fin.ext e)
        simp [this]
      · simp
      · intro c _ hcq
        have : ¬ (c : ℕ) = q := fun e => hcq (Fin.ext e)
        simp [this]
      · simp
    have e1 : E * (x * E - E * x) - (x * E - E * x) * E = (2 * x p q) • E := by
      calc E * (x * E - E * x) - (x * E - E * x) * E
          = 2 • (E * x * E) - (E * E) * x - x * (E * E) := by noncomm_ring
        _ = _ := by rw [hEE, hExE, zero_mul, mul_zero, sub_zero, sub_zero, two_nsmul, two_mul, add_smul]
    have e2 := congrArg (Phi S) e1
    rw [Phi_lie hS, Phi_lie hS, h, map_smul, Phi_unit S q.2 p.2] at e2
    simp only [zero_mul, mul_zero, sub_zero] at e2
    have := (smul_eq_zero.1 e2.symm).resolve_right (GG_ne_zero hS hc q.2 p.2)
    exact (mul_eq_zero.1 this).resolve_left (by norm_num)
  have hdiag : ∀ p q : Fin S.length, x p p = x q q := by
    intro p q
    by_cases hpq : p = q
    · rw [hpq]
    have hne : (p : ℕ) ≠ q := fun e => hpq (Fin.ext e)
    let E := unit S.length p q
    have e1 : x * E - E * x = (x p p - x q q) • E := by
      ext a b
      simp only [E, Matrix.sub_apply, Matrix.mul_apply, unit, Matrix.of_apply, Matrix.smul_apply, smul_eq_mul]
      rw [Finset.sum_eq_single p, Finset.sum_eq_single q]
      · by_cases ha : a = p
        · subst ha
          by_cases hb : b = q
          · subst hb; simp
          · have hb' : ¬ (b : ℕ) = q := fun e => hb (Fin.ext e)
            rw [hoff q b (Ne.symm hb)]
            simp [hb']
        · have ha' : ¬ (a : ℕ) = p := fun e => ha (Fin.ext e)
          rw [hoff a p ha]
          simp [ha']
      · intro c _ hcq
        have : ¬ (c : ℕ) = q := fun e => hcq (Fin.ext e)
        simp [this]
      · simp
      · intro c _ hcp
        have : ¬ (c : ℕ) = p := fun e => hcp (Fin.ext e)
        simp [this]
      · simp
    have e2 := congrArg (Phi S) e1
    rw [Phi_lie hS, h, map_smul, Phi_unit S p.2 q.2] at e2
    simp only [zero_mul, mul_zero, sub_zero] at e2
    exact sub_eq_zero.1 ((smul_eq_zero.1 e2.symm).resolve_right (GG_ne_zero hS hc p.2 q.2))
  have hpos : 0 < S.length := List.length_pos_iff.2 hS.1
  have hz : ∀ p, x p p = 0 := by
    intro p
    have : (S.length : ℂ) * x p p = 0 := by
      have e : x.trace = ∑ _q : Fin S.length, x p p := Finset.sum_congr rfl fun q _ => hdiag q p
      rw [← ht, e]
      simp
    refine (mul_eq_zero.1 this).resolve_left ?_
    exact_mod_cast hpos.ne'
  ext p q
  by_cases hpq : p = q
  · subst hpq; exact hz p
  · exact hoff p q hpq

end LieNN.SUN
