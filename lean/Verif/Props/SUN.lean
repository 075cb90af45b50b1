import Verif.Proofs.SUNMats
import Mathlib.Data.Set.Card
/-!
# Properties of the combinatorics of `SUN`: C43 - C48
-/
namespace LieNN.Props

open Spec SUN Matrix

/-- C43: for every non-increasing `S`, `dim(S)` passes its assertion about the denominator and is the
number of patterns `S_to_Ms` produces. -/
theorem C43_dim_length {S : List ℤ} (hS : IsWeight S) :
    ∃ L, sToMs S = .ok L ∧ dim S = .ok (L.length : ℤ) :=
  ⟨pats S, sToMs_eq S hS, dim_eq S hS⟩

/-- C43: `dim(S)` is the number of Gelfand-Tsetlin patterns of first row `S`. -/
theorem C43_dim_card {S : List ℤ} (hS : IsWeight S) :
    {M | IsGT S M}.Finite ∧ dim S = .ok ({M | IsGT S M}.ncard : ℤ) := by
  have h : {M | IsGT S M} = ((pats S).toFinset : Set Pat) := by
    ext M
    simp [mem_pats S hS M]
  rw [h]
  refine ⟨Finset.finite_toSet _, ?_⟩
  rw [Set.ncard_coe_finset, List.toFinset_card_of_nodup ((pats_sorted S hS).imp fun h => h.ne),
    dim_eq S hS]

/-- C43: tuples that are empty or increase somewhere are refused. -/
theorem C43_invalid {S : List ℤ} (hS : ¬ IsWeight S) :
    dim S = .error .assertionError ∧ sToMs S = .error .assertionError := by
  rw [← isWeight_iff] at hS
  constructor
  · simp [dim, pyAssert, hS, bind, Except.bind]
  · unfold sToMs
    cases S.length with
    | zero => rfl
    | succ n => simp [sToMsAux, pyAssert, hS, bind, Except.bind]

example : IsWeight [3, 3, 1, 0] := by decide +kernel
example : dim [3, 3, 1, 0] = .ok 60 := by
  rw [dim_eq _ (by decide)]
  decide +kernel
example : dim [2, 3] = .error .assertionError := by decide +kernel
/-- Negative entries are allowed. -/
example : dim [1, 0, -1] = .ok 8 := by
  rw [dim_eq _ (by decide)]
  decide +kernel

/-- C44: `index_to_M(S, i)` is the `i`-th pattern, and `M_to_index` gives `i` back. -/
theorem C44_index {S : List ℤ} (hS : IsWeight S) {d : ℤ} (hd : dim S = .ok d) (i : ℕ) (hi : (i : ℤ) < d) :
    ∃ L M, sToMs S = .ok L ∧ L[i]? = some M ∧ indexToM S i = .ok M ∧ mToIndex M = .ok (i : ℤ) := by
  rw [dim_eq S hS] at hd
  cases hd
  have hi' : i < (pats S).length := by exact_mod_cast hi
  refine ⟨pats S, (pats S)[i], sToMs_eq S hS, List.getElem?_eq_getElem hi', indexToM_eq S hS i hi', ?_⟩
  rw [mToIndex_eq S hS _ (List.getElem_mem _)]
  have hn : (pats S).Nodup := (pats_sorted S hS).imp fun h => h.ne
  rw [hn.idxOf_getElem]

/-- C44: every pattern of first row `S` has an index smaller than `dim(S)`, which `index_to_M` maps
back to the pattern. -/
theorem C44_pattern {S : List ℤ} (hS : IsWeight S) {d : ℤ} (hd : dim S = .ok d) {M : List (List ℤ)}
    (hM : IsGT S M) : ∃ i : ℕ, (i : ℤ) < d ∧ mToIndex M = .ok (i : ℤ) ∧ indexToM S i = .ok M := by
  rw [dim_eq S hS] at hd
  cases hd
  have hm := (mem_pats S hS M).2 hM
  have hi := List.idxOf_lt_length_of_mem hm
  refine ⟨(pats S).idxOf M, by exact_mod_cast hi, mToIndex_eq S hS M hm, ?_⟩
  rw [indexToM_eq S hS _ hi, List.getElem_idxOf]

/-- C44: an index that is too large trips the assertion. -/
theorem C44_too_large {S : List ℤ} (hS : IsWeight S) {d : ℤ} (hd : dim S = .ok d) {i : ℤ} (hi : d ≤ i) :
    indexToM S i = .error .assertionError := by
  unfold indexToM
  obtain ⟨n, hn⟩ : ∃ n, S.length = n + 1 :=
    ⟨S.length - 1, by have := List.length_pos_iff.2 hS.1; omega⟩
  rw [hn, indexToMAux, pyAssert_of ((isWeight_iff S).2 hS), hd]
  simp [pyAssert, not_lt.2 hi, bind, Except.bind]

example : indexToM [2, 1, 0] (5 : ℕ) = .ok [[2, 1, 0], [2, 0], [2]] := by
  rw [indexToM_eq _ (by decide) 5 (by decide +kernel)]
  decide +kernel
example : mToIndex [[2, 1, 0], [2, 0], [2]] = .ok 5 := by
  rw [mToIndex_eq [2, 1, 0] (by decide) _ (by decide +kernel)]
  decide +kernel
example : IsGT [2, 1, 0] [[2, 1, 0], [2, 0], [2]] := by
  rw [← mem_pats _ (by decide +kernel)]
  decide +kernel

/-- C45: `S_to_Ms(S)` produces exactly the Gelfand-Tsetlin patterns of first row `S`, in strictly
increasing order. -/
theorem C45_patterns {S : List ℤ} (hS : IsWeight S) :
    ∃ L, sToMs S = .ok L ∧ L.Pairwise (· < ·) ∧ ∀ M, M ∈ L ↔ IsGT S M :=
  ⟨pats S, sToMs_eq S hS, pats_sorted S hS, mem_pats S hS⟩

/-- C45: `S_to_Ss(S)` produces exactly the rows that interlace with `S`, in strictly increasing
order. -/
theorem C45_rows {S : List ℤ} (hS : IsWeight S) (h2 : 2 ≤ S.length) :
    ∃ L, sToSs S = .ok L ∧ L.Pairwise (· < ·) ∧ ∀ T, T ∈ L ↔ T.length + 1 = S.length ∧
      ∀ j < T.length, S.getD (j + 1) 0 ≤ T.getD j 0 ∧ T.getD j 0 ≤ S.getD j 0 := by
  refine ⟨nextsL S, ?_, nextsL_sorted S, mem_nextsL S hS⟩
  rw [sToSs_eq hS, if_neg (by omega)]

/-- C45: on triangular arrays with at least two rows `is_valid_M` does not raise, and accepts exactly
those that interlace and have no negative entry. -/
theorem C45_is_valid {n : ℕ} (h2 : 2 ≤ n) {M : List (List ℤ)} (hM : Triangular n M) :
    ∃ b, isValidM M = .ok b ∧
      (b = true ↔ Interlacing M ∧ ∀ i j, i + j < n → 0 ≤ ent M i j) := by
  obtain ⟨b, h1, h3⟩ := isValidM_eq hM
  exact ⟨b, h1, h3.trans (good_iff hM h2)⟩

/-- C45: with a single row everything is accepted, negative entries too. -/
theorem C45_single (a : ℤ) : isValidM [[a]] = .ok true := rfl

example : Triangular 2 [[2, 0], [1]] := by
  refine ⟨rfl, fun i hi => ?_⟩
  match i, hi with
  | 0, _ => rfl
  | 1, _ => rfl
example : isValidM [[2, 0], [3]] = .ok false := by decide +kernel
example : isValidM [[2, -1], [1]] = .ok false := by decide +kernel
example : sToSs [3, 3, 1, 0] =
    .ok [[3, 1, 0], [3, 1, 1], [3, 2, 0], [3, 2, 1], [3, 3, 0], [3, 3, 1]] := by decide +kernel

/-- C46: if `N` is `M` with one more at the place `(k, l)`, `1 ≤ k`, both patterns, then the raising
coefficient of `M` and the lowering coefficient of `N` are computed without error, positive, and
equal. -/
theorem C46_coefficients {S : List ℤ} {M N : List (List ℤ)} (hM : IsGT S M) (hN : IsGT S N)
    {k l : ℕ} (hk : 1 ≤ k) (hkl : k + l < S.length)
    (h : ∀ i j, i + j < S.length → ent N i j = ent M i j + if i = k ∧ j = l then 1 else 0) :
    ∃ c, 0 < c ∧ coeffUpper M k l = .ok c ∧ coeffLower N k l = .ok c := by
  have e : addAt M k l 1 = N := tri_ext (tri_addAt hM.1 k l 1) hN.1 fun i j hij => by
    rw [ent_addAt hM.1 _ _ _ _ _ hij, h i j hij]
  have hI : Interlacing (addAt M k l 1) := e ▸ hN.2.2
  refine ⟨Real.sqrt (coefSq S.length M k l (ent M k l)), ?_, ?_, ?_⟩
  · rw [Real.sqrt_pos]
    exact_mod_cast coefSq_pos hkl (canMove_of hM.1 hM.2.2 hI hk hkl rfl)
  · exact coeffUpper_ok hM.1 hM.2.2 hI hk hkl
  · rw [← e]
    exact coeffLower_ok hM.1 hM.2.2 hI hk hkl

/-- C46: for every non-increasing `S` without negative entries the two functions that build the
matrices do not raise, and the lowering matrices are the transposes of the raising ones. -/
theorem C46_adjoint {S : List ℤ} (hS : IsWeight S) (h0 : ∀ s ∈ S, 0 ≤ s) :
    ∃ Lp Lm, ladderMats upperLadder S = .ok Lp ∧ ladderMats lowerLadder S = .ok Lm ∧
      Lp.length = S.length - 1 ∧ Lm.length = S.length - 1 ∧
      ∀ d : ℕ, dim S = .ok (d : ℤ) → ∀ l, l + 1 < S.length →
        toMat d (Lm.getD l []) = (toMat d (Lp.getD l []))ᵀ := by
  obtain ⟨Lp, hp, hpl, hpv⟩ := upperMats_eq hS h0
  obtain ⟨Lm, hm, hml, hmv⟩ := lowerMats_eq hS h0
  refine ⟨Lp, Lm, hp, hm, hpl, hml, fun d hd l hl => ?_⟩
  rw [dim_eq S hS] at hd
  have : (pats S).length = d := by
    have := Except.ok.inj hd
    exact_mod_cast this
  subst this
  rw [hpv l hl, hmv l hl]

/-- C46: entry by entry, `<N|J(l)-|M> = <M|J(l)+|N>`. -/
theorem C46_entries {S : List ℤ} (hS : IsWeight S) (h0 : ∀ s ∈ S, 0 ≤ s) {M N : List (List ℤ)}
    (hM : IsGT S M) (hN : IsGT S N) {l : ℕ} (hl : l + 1 < S.length) :
    ∃ x, lowerLadder l N M = .ok x ∧ upperLadder l M N = .ok x :=
  have gM := goodPat_of_mem hS h0 (by omega) ((mem_pats S hS M).2 hM)
  have gN := goodPat_of_mem hS h0 (by omega) ((mem_pats S hS N).2 hN)
  ⟨_, lowerLadder_eq gN gM hl, upperLadder_eq gN gM hl⟩

example : IsWeight [2, 1, 0] ∧ (∀ s ∈ ([2, 1, 0] : List ℤ), 0 ≤ s) := by decide +kernel

/-- C47: `[Jz_l, Jp_l] = Jp_l` and `[Jz_l, Jm_l] = -Jm_l`; more generally `Jz_i` multiplies `Jp_l` by
half the Cartan integer. -/
theorem C47_weights {S : List ℤ} (hS : IsWeight S) (h0 : ∀ s ∈ S, 0 ≤ s) :
    ∃ Lp Lm Lz, ladderMats upperLadder S = .ok Lp ∧ ladderMats lowerLadder S = .ok Lm ∧
      jzDiag S = .ok Lz ∧ ∀ d : ℕ, dim S = .ok (d : ℤ) → ∀ i l, i + 1 < S.length → l + 1 < S.length →
        ∀ c : ℂ, c = (if i = l then 1 else if i = l + 1 ∨ i + 1 = l then -1 / 2 else 0) →
        toDiag d (Lz.getD i []) * toMat d (Lp.getD l []) - toMat d (Lp.getD l []) *
            toDiag d (Lz.getD i []) = c • toMat d (Lp.getD l []) ∧
        toDiag d (Lz.getD i []) * toMat d (Lm.getD l []) - toMat d (Lm.getD l []) *
            toDiag d (Lz.getD i []) = -c • toMat d (Lm.getD l []) := by
  obtain ⟨Lp, hp, hpl, hpv⟩ := upperMats_eq hS h0
  obtain ⟨Lm, hm, hml, hmv⟩ := lowerMats_eq hS h0
  obtain ⟨Lz, hz, hzl, hzv⟩ := jzDiag_eq hS
  refine ⟨Lp, Lm, Lz, hp, hm, hz, fun d hd i l hi hl c hc => ?_⟩
  rw [dim_eq S hS] at hd
  have : (pats S).length = d := by
    have := Except.ok.inj hd
    exact_mod_cast this
  subst this hc
  rw [hpv l hl, hmv l hl, hzv i hi]
  have h := Jz_Jp hS i l hi
  refine ⟨h, ?_⟩
  have h' := congrArg Matrix.transpose h
  rw [Matrix.transpose_sub, Matrix.transpose_mul, Matrix.transpose_mul, Matrix.transpose_smul] at h'
  have hzt : (Jz S i)ᵀ = Jz S i := by simp [Jz]
  rw [hzt] at h'
  rw [neg_smul, ← h']
  abel

/-- C47: the entries of the pattern weight add up to those of `S`. -/
theorem C47_pweight {S : List ℤ} {M : List (List ℤ)} (hM : IsGT S M) :
    (mToPWeight M).length = S.length ∧ (mToPWeight M).sum = S.sum := by
  refine ⟨length_pWeight hM.1, ?_⟩
  rw [pWeight_sum hM.1, sum_getD]
  unfold sig
  refine Finset.sum_congr rfl fun j _ => ?_
  have := hM.2.1
  match M, this with
  | R :: M', h => simp at h; rw [h]; rfl

example : mToZWeight [[2, 1, 0], [2, 0], [2]] = [-1 / 2, 1] := by decide +kernel
example : mToPWeight [[2, 1, 0], [2, 0], [2]] = [1, 0, 2] := by decide +kernel

/-- C48: for labels of the same length `rep1 * rep2` does not raise: its elements are those
`mul_rep` yields, each of the length of the factors, non-increasing and ending with zero; they are
sorted without repetition. -/
theorem C48_mul {n : ℕ} {S₁ S₂ : List ℤ} (h1 : make S₁ = .ok S₁) (h2 : make S₂ = .ok S₂)
    (l1 : S₁.length = n) (l2 : S₂.length = n) :
    ∃ L R, mulRep S₁ S₂ = .ok L ∧ mul S₁ S₂ = .ok R ∧ R.Pairwise (· < ·) ∧ (∀ S, S ∈ R ↔ S ∈ L) ∧
      ∀ S ∈ R, S.length = n ∧ S.Pairwise (· ≥ ·) ∧ S.getLast? = some 0 := by
  subst l1
  obtain ⟨-, hv⟩ := (make_ok_iff _ _).1 h1
  have hne : S₁ ≠ [] := by rintro rfl; simp at hv; exact absurd hv.2.2 (by simp)
  have h0 : ∀ s ∈ S₁, 0 ≤ s := by
    intro s hs
    have hlast : S₁.getLast hne = 0 := by
      have := hv.2.2
      rw [List.getLast?_eq_some_getLast hne] at this
      simpa using this
    have := hv.2.1.rel_getLast (a := s) hs
    rw [hlast] at this
    exact this
  obtain ⟨L, R, a, b, c, d, e⟩ := mul_ok ⟨hne, hv.2.1⟩ h0 l2
  exact ⟨L, R, a, b, c, d, e⟩

/-- C48: the second factor may be any tuple of the same length, the first any non-increasing tuple
without negative entry. -/
theorem C48_mul_rep {S₁ S₂ : List ℤ} (h1 : IsWeight S₁) (h0 : ∀ s ∈ S₁, 0 ≤ s)
    (hl : S₂.length = S₁.length) : ∃ L, mulRep S₁ S₂ = .ok L ∧
      ∀ S ∈ L, S.length = S₁.length ∧ S.Pairwise (· ≥ ·) ∧ S.getLast? = some 0 :=
  mulRep_ok h1 h0 hl

example : mulRep [2, 1, 0] [2, 1, 0] =
    .ok [[0, 0, 0], [2, 1, 0], [2, 1, 0], [3, 0, 0], [3, 3, 0], [4, 2, 0]] := by
  decide +kernel
example : make [2, 1, 0] = .ok [2, 1, 0] := by decide +kernel

end LieNN.Props
