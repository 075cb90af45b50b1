import Verif.Proofs.SUNGT
import Mathlib.Order.Interval.Finset.Fin
import Mathlib.Algebra.BigOperators.Fin
import Mathlib.Algebra.BigOperators.Intervals
/-!
# The dimension formula counts the patterns, and the index of a pattern
-/
namespace LieNN.SUN

open Spec Matrix

theorem prod_range_list (f : ℕ → ℚ) (n : ℕ) : ((List.range n).map f).prod = ∏ i ∈ Finset.range n, f i := by
  rw [← List.prod_toFinset f List.nodup_range, List.toFinset_range]

theorem prod_range'_list (f : ℕ → ℚ) (a b : ℕ) :
    ((List.range' a (b - a)).map f).prod = ∏ i ∈ Finset.Ico a b, f i := by
  rw [← List.prod_toFinset f (List.nodup_range' )]
  refine Finset.prod_congr ?_ fun _ _ => rfl
  ext x
  simp [List.mem_range']
  constructor
  · rintro ⟨i, hi, rfl⟩; omega
  · intro h; exact ⟨x - a, by omega, by omega⟩

theorem dimProd_prod (S : List ℤ) : dimProd S = ∏ i ∈ Finset.range S.length,
    ∏ j ∈ Finset.Ico (i + 1) S.length,
      (1 + ((S.getD i 0 - S.getD j 0 : ℤ) : ℚ) / (((j : ℤ) - i : ℤ) : ℚ)) := by
  unfold dimProd dimPairs
  rw [← List.foldl_map (f := fun p : ℕ × ℕ =>
    (1 + ((S.getD p.1 0 - S.getD p.2 0 : ℤ) : ℚ) / (((p.2 : ℤ) - p.1 : ℤ) : ℚ))) (g := (· * ·)),
    ← List.prod_eq_foldl, List.map_flatMap, List.flatMap_def, List.prod_flatten, List.map_map,
    prod_range_list]
  refine Finset.prod_congr rfl fun i _ => ?_
  rw [← prod_range'_list]
  simp [Function.comp_def]

/-- The points of the Vandermonde determinant. -/
def pts (n : ℕ) (S : List ℤ) (i : Fin n) : ℤ := (i : ℤ) - S.getD i 0

theorem prod_pairs_fin (n : ℕ) (f : ℕ → ℕ → ℚ) : ∏ i ∈ Finset.range n, ∏ j ∈ Finset.Ico (i + 1) n, f i j =
    ∏ i : Fin n, ∏ j ∈ Finset.Ioi i, f i j := by
  rw [Finset.prod_range]
  refine Finset.prod_congr rfl fun i _ => ?_
  have : Finset.Ico ((i : ℕ) + 1) n = (Finset.Ioi i).map Fin.valEmbedding := by
    rw [Fin.map_valEmbedding_Ioi]
    ext x
    simp
  rw [this, Finset.prod_map]
  rfl

theorem dimProd_det (S : List ℤ) : dimProd S =
    (vandermonde fun i => (pts S.length S i : ℚ)).det /
      (vandermonde fun i : Fin S.length => ((i : ℕ) : ℚ)).det := by
  rw [dimProd_prod, prod_pairs_fin, det_vandermonde, det_vandermonde, ← Finset.prod_div_distrib]
  refine Finset.prod_congr rfl fun i _ => ?_
  rw [← Finset.prod_div_distrib]
  refine Finset.prod_congr rfl fun j hj => ?_
  have hij : (i : ℕ) < j := by simpa using hj
  have h : ((j : ℕ) : ℚ) - (i : ℕ) ≠ 0 := by
    rw [sub_ne_zero]
    exact_mod_cast hij.ne'
  unfold pts
  push_cast
  field_simp
  ring

/-- A sum over the interlacing rows as a sum over a box. -/
theorem sum_nextsL {n : ℕ} {S : List ℤ} (hS : IsWeight S) (hn : S.length = n + 1) (f : List ℤ → ℚ) :
    ((nextsL S).map f).sum = ∑ r ∈ Fintype.piFinset
      (fun j : Fin n => Finset.Icc (S.getD ((j : ℕ) + 1) 0) (S.getD j 0)), f (List.ofFn r) := by
  have hnd : (nextsL S).Nodup := (nextsL_sorted S).imp fun h => h.ne
  rw [← List.sum_toFinset f hnd]
  refine Finset.sum_nbij' (fun T (j : Fin n) => T.getD j 0) (fun r => List.ofFn r) ?_ ?_ ?_ ?_ ?_
  · intro T hT
    have hI := (mem_nextsL S hS T).1 (List.mem_toFinset.1 hT)
    rw [Fintype.mem_piFinset]
    intro j
    rw [Finset.mem_Icc]
    exact hI.2 j (by have := hI.1; omega)
  · intro r hr
    rw [Fintype.mem_piFinset] at hr
    rw [List.mem_toFinset, mem_nextsL S hS]
    refine ⟨by simp [hn], fun j hj => ?_⟩
    have hj' : j < n := by simpa using hj
    have := hr ⟨j, hj'⟩
    rw [Finset.mem_Icc] at this
    rw [List.getD_eq_getElem _ _ hj, List.getElem_ofFn]
    exact this
  · intro T hT
    have hI := (mem_nextsL S hS T).1 (List.mem_toFinset.1 hT)
    have := hI.1
    apply List.ext_getElem
    · simp; omega
    · intro i h1 h2
      rw [List.getElem_ofFn, List.getD_eq_getElem _ _ h2]
  · intro r hr
    funext j
    rw [List.getD_eq_getElem _ _ (by simp), List.getElem_ofFn]
  · intro T hT
    have hI := (mem_nextsL S hS T).1 (List.mem_toFinset.1 hT)
    have := hI.1
    congr 1
    apply List.ext_getElem
    · simp; omega
    · intro i h1 h2
      rw [List.getElem_ofFn, List.getD_eq_getElem _ _ h1]

theorem dimProd_det' {S : List ℤ} {m : ℕ} (h : S.length = m + 1) : dimProd S =
    (vandermonde fun i => (pts (m + 1) S i : ℚ)).det / m.superFactorial := by
  rw [dimProd_det]
  obtain ⟨n, hn⟩ : ∃ n, n = S.length := ⟨_, rfl⟩
  rw [← hn] at h ⊢
  subst h
  rw [det_vandermonde_id_eq_superFactorial]

theorem sum_dimProd {S : List ℤ} (hS : IsWeight S) (h2 : 2 ≤ S.length) :
    ((nextsL S).map dimProd).sum = dimProd S := by
  obtain ⟨n, hn⟩ : ∃ n, S.length = n + 1 := ⟨S.length - 1, by omega⟩
  obtain ⟨m, rfl⟩ : ∃ m, n = m + 1 := ⟨n - 1, by omega⟩
  rw [sum_nextsL hS hn, dimProd_det' hn, ← sum_det_vandermonde]
  · have h1 : ∀ r : Fin (m + 1) → ℤ, dimProd (List.ofFn r) =
        (vandermonde fun i => ((((i : ℕ) : ℤ) - r i : ℤ) : ℚ)).det / m.superFactorial := by
      intro r
      rw [dimProd_det' (m := m) (by simp)]
      congr 3
      funext i
      unfold pts
      rw [List.getD_eq_getElem _ _ (by simp; omega), List.getElem_ofFn]
    simp only [h1]
    rw [← Finset.sum_div, Nat.superFactorial_succ]
    push_cast
    have h3 : (((m + 1).factorial : ℕ) : ℚ) ≠ 0 := by exact_mod_cast (m + 1).factorial_ne_zero
    rw [mul_div_mul_left _ _ h3]
    congr 1
    refine Finset.sum_nbij' (fun r (i : Fin (m + 1)) => ((i : ℕ) : ℤ) - r i)
      (fun r (i : Fin (m + 1)) => ((i : ℕ) : ℤ) - r i) ?_ ?_ ?_ ?_ ?_
    · intro r hr
      rw [Fintype.mem_piFinset] at hr ⊢
      intro j
      have := hr j
      rw [Finset.mem_Icc] at this
      simp only [pts, Fin.val_castSucc, Fin.val_succ, Finset.mem_Ico]
      push_cast
      omega
    · intro r hr
      rw [Fintype.mem_piFinset] at hr ⊢
      intro j
      have := hr j
      simp only [pts, Fin.val_castSucc, Fin.val_succ, Finset.mem_Ico] at this
      push_cast at this
      rw [Finset.mem_Icc]
      omega
    · intro r _; funext i; simp
    · intro r _; funext i; simp
    · intro r _; push_cast; rfl
  · intro j
    have h3 := List.pairwise_iff_getElem.1 hS.2 j (j + 1) (by omega) (by omega) (by omega)
    simp only [pts, Fin.val_castSucc, Fin.val_succ]
    rw [List.getD_eq_getElem _ _ (by omega), List.getD_eq_getElem _ _ (by omega)]
    push_cast
    omega

/-- The product of the code is the number of patterns. -/
theorem dimProd_eq (S : List ℤ) (hS : IsWeight S) : dimProd S = (pats S).length := by
  revert hS
  revert S
  refine length_induction ?_ ?_
  · intro a
    rw [pats_single]
    simp [dimProd, dimPairs, List.range_succ]
  · intro S hS h2 ih
    rw [← sum_dimProd hS h2, pats_cons hS h2, List.length_flatMap]
    push_cast
    rw [List.map_map]
    congr 1
    refine List.map_congr_left fun T hT => ?_
    rw [ih T hT (inter_weight hS ((mem_nextsL S hS T).1 hT) h2)]
    simp

theorem dim_eq (S : List ℤ) (hS : IsWeight S) : dim S = .ok ((pats S).length : ℤ) := by
  unfold dim
  rw [pyAssert_of ((isWeight_iff S).2 hS), pyAssert_of (by rw [dimProd_eq S hS]; simp)]
  rw [SU2Real.trunc_nat (dimProd_eq S hS)]
  rfl

/-! ## Indices -/

theorem idxLoop_eq (rec : List ℤ → ℤ → Py Pat) (S : List ℤ) (L : List (List ℤ))
    (hw : ∀ T ∈ L, IsWeight T)
    (hrec : ∀ T ∈ L, ∀ i : ℕ, ∀ h : i < (pats T).length, rec T i = .ok (pats T)[i]) (i : ℕ)
    (hi : i < (L.flatMap fun T => (pats T).map fun M => S :: M).length) :
    idxLoop rec S L i = .ok (L.flatMap fun T => (pats T).map fun M => S :: M)[i] := by
  induction L generalizing i with
  | nil => simp at hi
  | cons T Ts ih =>
    rw [idxLoop, dim_eq T (hw T (by simp))]
    simp only [SU2.ok_bind']
    by_cases h : i < (pats T).length
    · rw [if_pos (by exact_mod_cast h), hrec T (by simp) i h]
      simp only [SU2.ok_bind', List.flatMap_cons]
      rw [List.getElem_append_left (by simpa using h)]
      simp
      rfl
    · rw [if_neg (by exact_mod_cast h)]
      rw [show (i : ℤ) - ((pats T).length : ℤ) = ((i - (pats T).length : ℕ) : ℤ) by omega]
      simp only [List.flatMap_cons, List.length_append, List.length_map] at hi ⊢
      rw [ih (fun T' h => hw T' (by simp [h])) (fun T' h => hrec T' (by simp [h])) _ (by omega)]
      rw [List.getElem_append_right (by simpa using h)]
      simp

theorem indexToM_eq (S : List ℤ) (hS : IsWeight S) : ∀ i : ℕ, ∀ h : i < (pats S).length,
    indexToM S i = .ok (pats S)[i] := by
  revert hS
  revert S
  refine length_induction ?_ ?_
  · intro a i hi
    have hw : IsWeight [a] := ⟨by simp, by simp⟩
    rw [pats_single] at hi
    have : i = 0 := by simpa using hi
    subst this
    rw [indexToM]
    simp only [List.length_singleton, indexToMAux]
    rw [pyAssert_of ((isWeight_iff _).2 hw), dim_eq _ hw]
    simp only [pats_single]
    rfl
  · intro S hS h2 ih i hi
    obtain ⟨n, hn⟩ : ∃ n, S.length = n + 1 := ⟨S.length - 1, by omega⟩
    have hw : ∀ T ∈ nextsL S, IsWeight T := fun T hT =>
      inter_weight hS ((mem_nextsL S hS T).1 hT) h2
    rw [indexToM, hn, indexToMAux, pyAssert_of ((isWeight_iff _).2 hS), dim_eq S hS]
    simp only [SU2.ok_bind']
    rw [pyAssert_of (by exact_mod_cast hi), if_neg (by omega), sToSs_eq hS, if_neg (by omega)]
    simp only [SU2.ok_bind']
    have hp := pats_cons hS h2
    rw [idxLoop_eq _ S (nextsL S) hw (fun T hT i hi => ?_) i (by rw [← hp]; exact hi)]
    · simp only [hp]
    · have := ih T hT (hw T hT) i hi
      have hl := ((mem_nextsL S hS T).1 hT).1
      rwa [indexToM, show T.length = n by omega] at this

theorem idxOf_flatMap (S : List ℤ) (L : List (List ℤ)) (hw : ∀ T ∈ L, IsWeight T) (T : List ℤ) (M : Pat)
    (hT : T ∈ L) (hM : M ∈ pats T) (rec : Py ℤ) (hrec : rec = .ok ((pats T).idxOf M : ℤ)) (k : ℕ) :
    mLoop T rec L k =
      .ok ((k + (L.flatMap fun T => (pats T).map fun M => S :: M).idxOf (S :: M) : ℕ) : ℤ) := by
  induction L generalizing k with
  | nil => simp at hT
  | cons T' Ts ih =>
    rw [mLoop, List.flatMap_cons]
    have hinj : ∀ l : List Pat, (l.map fun M => S :: M).idxOf (S :: M) = l.idxOf M := by
      intro l
      induction l with
      | nil => simp
      | cons x l ih => simp [List.idxOf_cons, ih]
    by_cases h : T = T'
    · subst h
      rw [if_pos rfl, hrec, List.idxOf_append_of_mem (List.mem_map.2 ⟨M, hM, rfl⟩), hinj]
      simp [SU2.ok_bind', pure, Except.pure]
    · rw [if_neg h, dim_eq T' (hw T' (by simp))]
      simp only [SU2.ok_bind']
      have hnot : S :: M ∉ (pats T').map fun M => S :: M := by
        intro hmem
        obtain ⟨M', hM', he⟩ := List.mem_map.1 hmem
        obtain ⟨_, e1⟩ := pats_head T' (hw T' (by simp)) hM'
        obtain ⟨_, e2⟩ := pats_head T (hw T hT) hM
        rw [List.cons.injEq] at he
        rw [e1, e2] at he
        exact h (List.cons.injEq _ _ _ _ ▸ he.2).1.symm
      rw [List.idxOf_append_of_notMem hnot]
      have hmem : T ∈ Ts := by
        rcases List.mem_cons.1 hT with e | e
        · exact absurd e h
        · exact e
      have := ih (fun T h => hw T (by simp [h])) hmem (k + (pats T').length)
      push_cast at this ⊢
      rw [this]
      simp
      ring

theorem mToIndex_eq (S : List ℤ) (hS : IsWeight S) : ∀ M ∈ pats S,
    mToIndex M = .ok ((pats S).idxOf M : ℤ) := by
  revert hS
  revert S
  refine length_induction ?_ ?_
  · intro a M hM
    rw [pats_single] at hM ⊢
    have hw : IsWeight [a] := ⟨by simp, by simp⟩
    simp at hM
    subst hM
    rw [mToIndex, pyAssert_of ((isWeight_iff _).2 hw)]
    simp [SU2.ok_bind', pure, Except.pure]
  · intro S hS h2 ih M hM
    have hp := pats_cons hS h2
    have hw : ∀ T ∈ nextsL S, IsWeight T := fun T hT =>
      inter_weight hS ((mem_nextsL S hS T).1 hT) h2
    rw [hp] at hM ⊢
    obtain ⟨T, hT, hM⟩ := List.mem_flatMap.1 hM
    obtain ⟨M', hM', rfl⟩ := List.mem_map.1 hM
    obtain ⟨M'', rfl⟩ := pats_head T (hw T hT) hM'
    rw [mToIndex, pyAssert_of ((isWeight_iff _).2 hS)]
    simp only [SU2.ok_bind']
    rw [if_neg (by omega), sToSs_eq hS, if_neg (by omega)]
    simp only [SU2.ok_bind']
    have := idxOf_flatMap S (nextsL S) hw T (T :: M'') hT hM' _ (ih T hT (hw T hT) _ hM') 0
    simpa using this

end LieNN.SUN
