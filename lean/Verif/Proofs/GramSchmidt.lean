import Verif.Spec.LinAlg
/-!
# Gram-Schmidt
-/
namespace LieNN

open Matrix Spec

section general

variable {E : Type*} [NormedAddCommGroup E] [InnerProductSpace ℂ E]

/-- Working form of orthonormality of a list. -/
structure OList (Q : List E) : Prop where
  norm : ∀ q ∈ Q, ‖q‖ = 1
  pw : Q.Pairwise fun a b => inner ℂ a b = 0

theorem OList.orthonormal {Q : List E} (h : OList Q) : OrthonormalList Q := by
  refine ⟨fun i => h.norm _ (List.get_mem Q i), ?_⟩
  intro i j hij
  rcases lt_or_gt_of_ne hij with hlt | hlt
  · exact List.pairwise_iff_get.1 h.pw i j hlt
  · exact inner_eq_zero_symm.1 (List.pairwise_iff_get.1 h.pw j i hlt)

theorem oList_of_orthonormal {Q : List E} (h : OrthonormalList Q) : OList Q := by
  refine ⟨?_, ?_⟩
  · intro q hq
    obtain ⟨i, rfl⟩ := List.get_of_mem hq
    exact h.1 i
  · rw [List.pairwise_iff_get]
    intro i j hij
    exact h.2 hij.ne

theorem lspan_append (Q R : List E) : lspan (Q ++ R) = lspan Q ⊔ lspan R := by
  unfold lspan
  rw [← Submodule.span_union]
  congr 1
  ext x; simp

theorem lspan_mono {Q R : List E} (h : ∀ x ∈ Q, x ∈ R) : lspan Q ≤ lspan R :=
  Submodule.span_mono h

theorem mem_lspan {Q : List E} {x : E} (h : x ∈ Q) : x ∈ lspan Q := Submodule.subset_span h

theorem lspan_le {Q : List E} {K : Submodule ℂ E} : lspan Q ≤ K ↔ ∀ x ∈ Q, x ∈ K :=
  Submodule.span_le

theorem lspan_nil : lspan ([] : List E) = ⊥ := by simp [lspan]

/-- A vector orthogonal to the list is orthogonal to its span. -/
theorem inner_lspan {Q : List E} {u : E} (h : ∀ q ∈ Q, inner ℂ u q = 0) {x : E}
    (hx : x ∈ lspan Q) : inner ℂ u x = 0 := by
  induction hx using Submodule.span_induction with
  | mem x hx => exact h x hx
  | zero => simp
  | add x y _ _ hx hy => rw [inner_add_right, hx, hy, add_zero]
  | smul c x _ hx => rw [inner_smul_right, hx, mul_zero]

theorem gsReduce_cons (w : E) (Q : List E) (v : E) :
    gsReduce (w :: Q) v = gsReduce Q (v - inner ℂ w v • w) := rfl

theorem gsReduce_inner {Q : List E} {u : E} (h : ∀ q ∈ Q, inner ℂ u q = 0) (v : E) :
    inner ℂ u (gsReduce Q v) = inner ℂ u v := by
  induction Q generalizing v with
  | nil => rfl
  | cons w Q ih =>
    rw [gsReduce_cons, ih (fun q hq => h q (by simp [hq])), inner_sub_right, inner_smul_right,
      h w (by simp), mul_zero, sub_zero]

theorem gsReduce_orth {Q : List E} (hQ : OList Q) (v : E) :
    ∀ q ∈ Q, inner ℂ q (gsReduce Q v) = 0 := by
  induction Q generalizing v with
  | nil => simp
  | cons w Q ih =>
    have hpw := List.pairwise_cons.1 hQ.pw
    have hQ' : OList Q := ⟨fun q hq => hQ.norm q (by simp [hq]), hpw.2⟩
    intro q hq
    rw [gsReduce_cons]
    rcases List.mem_cons.1 hq with rfl | hq
    · rw [gsReduce_inner hpw.1, inner_sub_right, inner_smul_right,
        inner_self_eq_norm_sq_to_K, hQ.norm q (by simp)]
      simp
    · exact ih hQ' _ q hq

theorem gsReduce_sub_mem (Q : List E) (v : E) : v - gsReduce Q v ∈ lspan Q := by
  induction Q generalizing v with
  | nil => simp [gsReduce]
  | cons w Q ih =>
    rw [gsReduce_cons]
    have h1 := lspan_mono (Q := Q) (R := w :: Q) (fun x hx => by simp [hx])
      (ih (v - inner ℂ w v • w))
    have h2 : inner ℂ w v • w ∈ lspan (w :: Q) := Submodule.smul_mem _ _ (mem_lspan (by simp))
    have := Submodule.add_mem _ h1 h2
    convert this using 1
    abel

theorem gsReduce_mem {Q : List E} {K : Submodule ℂ E} (hQ : ∀ q ∈ Q, q ∈ K) {v : E} (hv : v ∈ K) :
    gsReduce Q v ∈ K := by
  have := lspan_le.2 hQ (gsReduce_sub_mem Q v)
  have h2 := K.sub_mem hv this
  simpa using h2

theorem gsLoop_cons (eps : ℝ) (a : E) (A Q : List E) :
    gsLoop eps (a :: A) Q = if eps < ‖gsReduce Q a‖ then
      gsLoop eps A (Q ++ [((‖gsReduce Q a‖⁻¹ : ℝ) : ℂ) • gsReduce Q a]) else gsLoop eps A Q := by
  simp only [gsLoop]

theorem oList_append {Q : List E} (hQ : OList Q) {eps : ℝ} (heps : 0 ≤ eps) {a : E}
    (ha : eps < ‖gsReduce Q a‖) :
    OList (Q ++ [((‖gsReduce Q a‖⁻¹ : ℝ) : ℂ) • gsReduce Q a]) := by
  have hpos : 0 < ‖gsReduce Q a‖ := heps.trans_lt ha
  refine ⟨?_, ?_⟩
  · intro q hq
    rcases List.mem_append.1 hq with hq | hq
    · exact hQ.norm q hq
    · rw [List.mem_singleton] at hq
      subst hq
      rw [norm_smul, Complex.norm_real, Real.norm_eq_abs, abs_of_pos (inv_pos.2 hpos)]
      exact inv_mul_cancel₀ hpos.ne'
  · rw [List.pairwise_append]
    refine ⟨hQ.pw, List.pairwise_singleton _ _, ?_⟩
    intro q hq b hb
    rw [List.mem_singleton] at hb
    subst hb
    rw [inner_smul_right, gsReduce_orth hQ a q hq, mul_zero]

theorem gsLoop_oList {eps : ℝ} (heps : 0 ≤ eps) (A Q : List E) (hQ : OList Q) :
    OList (gsLoop eps A Q) := by
  induction A generalizing Q with
  | nil => exact hQ
  | cons a A ih =>
    rw [gsLoop_cons]
    split_ifs with h
    · exact ih _ (oList_append hQ heps h)
    · exact ih _ hQ

theorem gsLoop_eq_append (eps : ℝ) (A Q : List E) : gsLoop eps A Q = Q ++ gsAdded eps A Q := by
  induction A generalizing Q with
  | nil => simp [gsLoop, gsAdded]
  | cons a A ih =>
    rw [gsLoop_cons]
    simp only [gsAdded]
    split_ifs with h
    · rw [ih]; simp
    · rw [ih]

theorem gsLoop_mem {eps : ℝ} {K : Submodule ℂ E} (A Q : List E) (hA : ∀ a ∈ A, a ∈ K)
    (hQ : ∀ q ∈ Q, q ∈ K) : ∀ q ∈ gsLoop eps A Q, q ∈ K := by
  induction A generalizing Q with
  | nil => exact hQ
  | cons a A ih =>
    rw [gsLoop_cons]
    have ha : a ∈ K := hA a (by simp)
    split_ifs with h
    · apply ih _ (fun a ha => hA a (by simp [ha]))
      intro q hq
      rcases List.mem_append.1 hq with hq | hq
      · exact hQ q hq
      · rw [List.mem_singleton] at hq
        subst hq
        exact K.smul_mem _ (gsReduce_mem hQ ha)
    · exact ih _ (fun a ha => hA a (by simp [ha])) hQ

theorem gsLoop_length_le (eps : ℝ) (A Q : List E) :
    (gsLoop eps A Q).length ≤ Q.length + A.length := by
  induction A generalizing Q with
  | nil => simp [gsLoop]
  | cons a A ih =>
    rw [gsLoop_cons]
    split_ifs with h
    · refine (ih _).trans ?_
      simp; omega
    · refine (ih _).trans ?_
      simp

theorem gsLoop_sub (eps : ℝ) (A Q : List E) : ∀ q ∈ Q, q ∈ gsLoop eps A Q := by
  intro q hq
  rw [gsLoop_eq_append]
  simp [hq]

/-- Every input vector is within `eps` of the span of the result. -/
theorem gsLoop_close {eps : ℝ} (heps : 0 ≤ eps) (A Q : List E) :
    ∀ a ∈ A, ∃ y ∈ lspan (gsLoop eps A Q), ‖a - y‖ ≤ eps := by
  induction A generalizing Q with
  | nil => simp
  | cons b A ih =>
    intro a ha
    rw [gsLoop_cons]
    rcases List.mem_cons.1 ha with rfl | ha
    · split_ifs with h
      · have hpos : 0 < ‖gsReduce Q a‖ := heps.trans_lt h
        refine ⟨a, ?_, by simpa using heps⟩
        have hsub := lspan_mono (gsLoop_sub eps A
          (Q ++ [((‖gsReduce Q a‖⁻¹ : ℝ) : ℂ) • gsReduce Q a]))
        apply hsub
        have h1 : a - gsReduce Q a ∈
            lspan (Q ++ [((‖gsReduce Q a‖⁻¹ : ℝ) : ℂ) • gsReduce Q a]) :=
          lspan_mono (fun x hx => by simp [hx]) (gsReduce_sub_mem Q a)
        have h2 : gsReduce Q a ∈ lspan (Q ++ [((‖gsReduce Q a‖⁻¹ : ℝ) : ℂ) • gsReduce Q a]) := by
          have := Submodule.smul_mem _ ((‖gsReduce Q a‖ : ℝ) : ℂ)
            (mem_lspan (Q := Q ++ [((‖gsReduce Q a‖⁻¹ : ℝ) : ℂ) • gsReduce Q a])
            (x := ((‖gsReduce Q a‖⁻¹ : ℝ) : ℂ) • gsReduce Q a) (by simp))
          rwa [smul_smul, ← Complex.ofReal_mul, mul_inv_cancel₀ hpos.ne', Complex.ofReal_one,
            one_smul] at this
        have := Submodule.add_mem _ h1 h2
        simpa using this
      · refine ⟨a - gsReduce Q a, ?_, ?_⟩
        · exact lspan_mono (gsLoop_sub eps A Q) (gsReduce_sub_mem Q a)
        · simpa using h
    · split_ifs with h
      · exact ih _ a ha
      · exact ih _ a ha

/-- If the inputs are the projections of an orthonormal-basis-like family `e` on `K`, the result
spans `K` as soon as `n eps² < 1`. -/
theorem gsLoop_full {eps : ℝ} (heps : 0 ≤ eps) {n : ℕ} (hn : n * eps ^ 2 < 1)
    (K : Submodule ℂ E) [FiniteDimensional ℂ E] (e p : Fin n → E)
    (hpars : ∀ u : E, ‖u‖ ^ 2 = ∑ i, ‖inner ℂ u (e i)‖ ^ 2)
    (hp : ∀ i, ∀ u ∈ K, inner ℂ u (e i) = inner ℂ u (p i)) (A Q : List E)
    (hA : ∀ a ∈ A, a ∈ K) (hpA : ∀ i, p i ∈ A) (hQK : ∀ q ∈ Q, q ∈ K) :
    lspan (gsLoop eps A Q) = K := by
  apply le_antisymm (lspan_le.2 (gsLoop_mem A Q hA hQK))
  set L := lspan (gsLoop eps A Q) with hL
  have hLK : L ≤ K := lspan_le.2 (gsLoop_mem A Q hA hQK)
  by_contra hne
  obtain ⟨x, hxK, hxL⟩ := Set.not_subset.1 hne
  -- the component of `x` orthogonal to `L`
  set y : E := x - L.starProjection x with hy
  have hyK : y ∈ K := K.sub_mem hxK (hLK (Submodule.starProjection_apply_mem _ _))
  have hy0 : y ≠ 0 := by
    intro h0
    apply hxL
    have : x = L.starProjection x := sub_eq_zero.1 h0
    show x ∈ L
    rw [this]; exact Submodule.starProjection_apply_mem _ _
  have hyL : ∀ z ∈ L, inner ℂ y z = 0 := by
    intro z hz
    exact inner_eq_zero_symm.1 (Submodule.starProjection_inner_eq_zero (K := L) x z hz |> fun h => by
      rw [inner_eq_zero_symm]; exact h)
  have hbound : ∀ i, ‖inner ℂ y (e i)‖ ≤ eps * ‖y‖ := by
    intro i
    rw [hp i y hyK]
    obtain ⟨z, hz, hze⟩ := gsLoop_close heps A Q (p i) (hpA i)
    have : inner ℂ y (p i) = inner ℂ y (p i - z) := by rw [inner_sub_right, hyL z hz, sub_zero]
    rw [this]
    calc ‖inner ℂ y (p i - z)‖ ≤ ‖y‖ * ‖p i - z‖ := norm_inner_le_norm _ _
      _ ≤ ‖y‖ * eps := by gcongr
      _ = eps * ‖y‖ := mul_comm _ _
  have hsum := hpars y
  have hypos : 0 < ‖y‖ := norm_pos_iff.2 hy0
  have : ‖y‖ ^ 2 ≤ ∑ _i : Fin n, (eps * ‖y‖) ^ 2 := by
    rw [hsum]
    apply Finset.sum_le_sum
    intro i _
    gcongr
    exact hbound i
  rw [Finset.sum_const, Finset.card_univ, Fintype.card_fin, nsmul_eq_mul, mul_pow] at this
  nlinarith [pow_pos hypos 2]

theorem oList_linearIndependent {Q : List E} (h : OList Q) :
    LinearIndependent ℂ fun i : Fin Q.length => Q.get i :=
  h.orthonormal.linearIndependent

theorem lspan_eq_range (Q : List E) : lspan Q = Submodule.span ℂ (Set.range fun i : Fin Q.length => Q.get i) := by
  unfold lspan
  congr 1
  ext x
  simp [List.mem_iff_get]

theorem oList_length {Q : List E} (h : OList Q) : Q.length = Module.finrank ℂ (lspan Q) := by
  rw [lspan_eq_range, finrank_span_eq_card (oList_linearIndependent h), Fintype.card_fin]

end general

theorem pars_single {n : ℕ} (u : Vec n) :
    ‖u‖ ^ 2 = ∑ i, ‖inner ℂ u (EuclideanSpace.single i (1 : ℂ))‖ ^ 2 := by
  rw [EuclideanSpace.norm_sq_eq]
  refine Finset.sum_congr rfl fun i _ => ?_
  rw [EuclideanSpace.inner_single_right]
  simp

end LieNN
