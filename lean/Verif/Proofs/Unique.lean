import Mathlib.Data.List.FinRange
import Verif.Model.Decompose
import Verif.Spec.Cluster
/-!
# `unique_with_tol`
-/
namespace LieNN

open Spec

variable {E : Type*} [NormedAddCommGroup E] {n : ℕ} {tol : ℝ} {a : Fin n → E}

/-- Loop invariant: `first` lists the first elements of the clusters found so far. -/
structure UwtInv (tol : ℝ) (a : Fin n → E) (inv : Fin n → Option ℕ) (index : ℕ)
    (first : Fin index → Fin n) : Prop where
  lt : ∀ j c, inv j = some c → c < index
  mem_iff : ∀ j (c : Fin index), inv j = some (c : ℕ) ↔ ‖a (first c) - a j‖ < tol
  mono : StrictMono first
  first_le : ∀ j (c : Fin index), inv j = some (c : ℕ) → first c ≤ j
  before : ∀ c j, j ≤ first c → inv j ≠ none

open Classical in
/-- The number of elements without a cluster. -/
noncomputable def unassigned (inv : Fin n → Option ℕ) : ℕ :=
  (Finset.univ.filter fun j => inv j = none).card

theorem find_none {inv : Fin n → Option ℕ} {p : Fin n → Bool}
    (hp : ∀ i, p i = true ↔ inv i = none) :
    (List.finRange n).find? p = none ↔ ∀ j, inv j ≠ none := by
  rw [List.find?_eq_none]
  constructor
  · intro h j hj
    exact h j (List.mem_finRange j) ((hp j).2 hj)
  · intro h j _ hj
    exact h j ((hp j).1 hj)

theorem find_some {inv : Fin n → Option ℕ} {p : Fin n → Bool}
    (hp : ∀ i, p i = true ↔ inv i = none) {i : Fin n}
    (h : (List.finRange n).find? p = some i) : inv i = none ∧ ∀ j < i, inv j ≠ none := by
  rw [List.find?_eq_some_iff_getElem] at h
  obtain ⟨h1, k, hk, hki, hbefore⟩ := h
  refine ⟨(hp i).1 h1, ?_⟩
  intro j hj hnone
  have hki' : (i : ℕ) = k := by rw [← hki]; simp
  have := hbefore j (by rw [← hki']; exact hj)
  simp only [List.getElem_finRange, Bool.not_eq_true', Fin.cast_mk, Fin.eta] at this
  have h2 := (hp j).2 hnone
  rw [h2] at this
  exact absurd this (by simp)

theorem uwtLoop_succ (fuel : ℕ) (inv : Fin n → Option ℕ) (index : ℕ) :
    ((∀ j, inv j ≠ none) ∧ uwtLoop tol a (fuel + 1) inv index = some (.ok inv)) ∨
    ∃ i, inv i = none ∧ (∀ j < i, inv j ≠ none) ∧
      (((∃ j, ‖a i - a j‖ < tol ∧ inv j ≠ none) ∧
        uwtLoop tol a (fuel + 1) inv index = some (.error .valueError)) ∨
      ((∀ j, ‖a i - a j‖ < tol → inv j = none) ∧
        ∃ inv' : Fin n → Option ℕ, (∀ j, ‖a i - a j‖ < tol → inv' j = some index) ∧
          (∀ j, ¬ ‖a i - a j‖ < tol → inv' j = inv j) ∧
          uwtLoop tol a (fuel + 1) inv index = uwtLoop tol a fuel inv' (index + 1))) := by
  classical
  have hunf : uwtLoop tol a (fuel + 1) inv index =
    match (List.finRange n).find? (fun i => decide (inv i = none)) with
    | none => some (.ok inv)
    | some i =>
      if ∃ j, ‖a i - a j‖ < tol ∧ inv j ≠ none then some (.error .valueError)
      else uwtLoop tol a fuel (fun j => if ‖a i - a j‖ < tol then some index else inv j) (index + 1) := by
    rw [uwtLoop]
    congr
  cases hf : (List.finRange n).find? (fun i => decide (inv i = none)) with
  | none =>
    left
    rw [hf] at hunf
    exact ⟨(find_none (by simp)).1 hf, hunf⟩
  | some i =>
    right
    rw [hf] at hunf
    obtain ⟨h1, h2⟩ := find_some (inv := inv) (by simp) hf
    refine ⟨i, h1, h2, ?_⟩
    by_cases hex : ∃ j, ‖a i - a j‖ < tol ∧ inv j ≠ none
    · left
      refine ⟨hex, ?_⟩
      rw [hunf]
      simp only [if_pos hex]
    · right
      refine ⟨?_, fun j => if ‖a i - a j‖ < tol then some index else inv j, ?_, ?_,
        by rw [hunf]; simp only [if_neg hex]⟩
      · intro j hj
        by_contra hne
        exact hex ⟨j, hj, hne⟩
      · intro j hj; simp only [if_pos hj]
      · intro j hj; simp only [if_neg hj]

theorem unassigned_lt {inv inv' : Fin n → Option ℕ} {i : Fin n} (hi : inv i = none)
    (hi' : inv' i ≠ none) (hle : ∀ j, inv' j = none → inv j = none) :
    unassigned inv' < unassigned inv := by
  classical
  unfold unassigned
  apply Finset.card_lt_card
  rw [Finset.ssubset_iff_of_subset]
  · exact ⟨i, by simp [hi], by simp [hi']⟩
  · intro j hj
    simp only [Finset.mem_filter, Finset.mem_univ, true_and] at hj ⊢
    exact hle j hj

/-- One step preserves the invariant. -/
theorem uwtInv_step (htol : 0 < tol) {inv inv' : Fin n → Option ℕ} {index : ℕ}
    {first : Fin index → Fin n} (h : UwtInv tol a inv index first) {i : Fin n} (hi : inv i = none)
    (hmin : ∀ j < i, inv j ≠ none) (hfree : ∀ j, ‖a i - a j‖ < tol → inv j = none)
    (h1 : ∀ j, ‖a i - a j‖ < tol → inv' j = some index)
    (h2 : ∀ j, ¬ ‖a i - a j‖ < tol → inv' j = inv j) :
    UwtInv tol a inv' (index + 1) (Fin.snoc first i) := by
  have hlt : ∀ c, first c < i := by
    intro c
    by_contra hge
    exact h.before c i (not_lt.1 hge) hi
  refine ⟨?_, ?_, ?_, ?_, ?_⟩
  · intro j c hc
    by_cases hj : ‖a i - a j‖ < tol
    · rw [h1 j hj] at hc; cases hc; omega
    · rw [h2 j hj] at hc; have := h.lt j c hc; omega
  · intro j c
    refine Fin.lastCases ?_ (fun c => ?_) c
    · rw [Fin.snoc_last, Fin.val_last]
      constructor
      · intro hc
        by_contra hj
        rw [h2 j hj] at hc
        exact absurd (h.lt j _ hc) (lt_irrefl _)
      · exact h1 j
    · rw [Fin.snoc_castSucc, Fin.val_castSucc, ← h.mem_iff j c]
      by_cases hj : ‖a i - a j‖ < tol
      · rw [h1 j hj, hfree j hj]
        constructor
        · intro hc; exact absurd (Option.some.inj hc).symm (ne_of_lt c.2)
        · intro hc; cases hc
      · rw [h2 j hj]
  · intro c c' hcc
    revert hcc
    refine Fin.lastCases ?_ (fun c' => ?_) c'
    · refine Fin.lastCases ?_ (fun c => ?_) c
      · intro hcc; exact absurd hcc (lt_irrefl _)
      · intro _; rw [Fin.snoc_last, Fin.snoc_castSucc]; exact hlt c
    · refine Fin.lastCases ?_ (fun c => ?_) c
      · intro hcc
        exact absurd (Fin.castSucc_lt_last c') (not_lt.2 hcc.le)
      · intro hcc
        rw [Fin.snoc_castSucc, Fin.snoc_castSucc]
        exact h.mono (by simpa using hcc)
  · intro j c
    refine Fin.lastCases ?_ (fun c => ?_) c
    · rw [Fin.snoc_last, Fin.val_last]
      intro hc
      by_cases hj : ‖a i - a j‖ < tol
      · by_contra hlt'
        exact hmin j (not_le.1 hlt') (hfree j hj)
      · rw [h2 j hj] at hc
        exact absurd (h.lt j _ hc) (lt_irrefl _)
    · rw [Fin.snoc_castSucc, Fin.val_castSucc]
      intro hc
      by_cases hj : ‖a i - a j‖ < tol
      · rw [h1 j hj] at hc; exact absurd (Option.some.inj hc).symm (ne_of_lt c.2)
      · rw [h2 j hj] at hc; exact h.first_le j c hc
  · intro c j hj
    have hkeep : inv j ≠ none → inv' j ≠ none := by
      intro hne
      by_cases hj' : ‖a i - a j‖ < tol
      · rw [h1 j hj']; simp
      · rw [h2 j hj']; exact hne
    revert hj
    refine Fin.lastCases ?_ (fun c => ?_) c
    · rw [Fin.snoc_last]
      intro hj
      rcases hj.eq_or_lt with rfl | hj
      · rw [h1 j (by simpa using htol)]; simp
      · exact hkeep (hmin j hj)
    · rw [Fin.snoc_castSucc]
      intro hj
      exact hkeep (h.before c j hj)

/-- A run of the loop from a state satisfying the invariant. -/
theorem uwtLoop_spec (htol : 0 < tol) : ∀ (fuel : ℕ) (inv : Fin n → Option ℕ) (index : ℕ)
    (first : Fin index → Fin n), UwtInv tol a inv index first → unassigned inv < fuel →
    (∃ inv' k first', uwtLoop tol a fuel inv index = some (.ok inv') ∧ UwtInv tol a inv' k first' ∧
      ∀ j, inv' j ≠ none) ∨ uwtLoop tol a fuel inv index = some (.error .valueError) := by
  intro fuel
  induction fuel with
  | zero => intro inv index first _ hf; omega
  | succ fuel ih =>
    intro inv index first h hf
    rcases uwtLoop_succ (tol := tol) (a := a) fuel inv index with
      ⟨hall, hrun⟩ | ⟨i, hi, hmin, ⟨_, hrun⟩ | ⟨hfree, inv', h1, h2, hrun⟩⟩
    · exact Or.inl ⟨inv, index, first, hrun, h, hall⟩
    · exact Or.inr hrun
    · have hstep := uwtInv_step htol h hi hmin hfree h1 h2
      have hii : ‖a i - a i‖ < tol := by simpa using htol
      have hlt := unassigned_lt (inv' := inv') hi (by rw [h1 i hii]; simp) (by
        intro j hj
        by_cases hj' : ‖a i - a j‖ < tol
        · rw [h1 j hj'] at hj; cases hj
        · rw [h2 j hj'] at hj; exact hj)
      rw [hrun]
      exact ih inv' _ _ hstep (by omega)

/-- If a clustering exists, the loop finds it. -/
theorem uwtLoop_complete {k : ℕ} {inv₀ : Fin n → ℕ} {first₀ : Fin k → Fin n}
    (h₀ : IsClustering tol a k inv₀ first₀) : ∀ (fuel : ℕ) (inv : Fin n → Option ℕ) (index : ℕ),
    (∀ j, inv j = if inv₀ j < index then some (inv₀ j) else none) → k < index + fuel →
    uwtLoop tol a fuel inv index = some (.ok fun j => some (inv₀ j)) ∨ k < index := by
  intro fuel
  induction fuel with
  | zero => intro inv index _ hf; right; omega
  | succ fuel ih =>
    intro inv index hinv hf
    have hself : ∀ c : Fin k, inv₀ (first₀ c) = c := by
      intro c
      have hpos : 0 < tol := by
        have h0 := (h₀.mem_iff (first₀ c) ⟨inv₀ (first₀ c), h₀.lt _⟩).1 rfl
        exact (norm_nonneg _).trans_lt h0
      exact (h₀.mem_iff _ c).2 (by simpa using hpos)
    rcases uwtLoop_succ (tol := tol) (a := a) fuel inv index with
      ⟨hall, hrun⟩ | ⟨i, hi, hmin, hrest⟩
    · left
      rw [hrun]
      congr 2
      funext j
      have := hall j
      rw [hinv j] at this ⊢
      split_ifs at this ⊢ with hj
      · rfl
      · exact absurd rfl this
    · have hik : ¬ inv₀ i < index := by
        intro hlt
        rw [hinv i, if_pos hlt] at hi
        cases hi
      have hindex : index < k := lt_of_le_of_lt (not_lt.1 hik) (h₀.lt i)
      have hfi : i = first₀ ⟨index, hindex⟩ := by
        apply le_antisymm
        · by_contra hlt
          refine hmin _ (not_le.1 hlt) ?_
          rw [hinv, hself, if_neg (lt_irrefl _)]
        · have h1 := h₀.first_le i ⟨inv₀ i, h₀.lt i⟩ rfl
          have h2 : first₀ ⟨index, hindex⟩ ≤ first₀ ⟨inv₀ i, h₀.lt i⟩ :=
            h₀.mono.monotone (not_lt.1 hik)
          exact h2.trans h1
      have hnear : ∀ j, ‖a i - a j‖ < tol ↔ inv₀ j = index := by
        intro j
        rw [hfi, ← h₀.mem_iff j ⟨index, hindex⟩]
      rcases hrest with ⟨⟨j, hj, hne⟩, _⟩ | ⟨_, inv', h1, h2, hrun⟩
      · rw [hinv j, (hnear j).1 hj, if_neg (lt_irrefl _)] at hne
        exact absurd rfl hne
      · rw [hrun]
        rcases ih inv' (index + 1) (by
          intro j
          by_cases hj : inv₀ j = index
          · rw [h1 j ((hnear j).2 hj), hj, if_pos (by omega)]
          · rw [h2 j (fun hc => hj ((hnear j).1 hc)), hinv j]
            by_cases hlt : inv₀ j < index
            · rw [if_pos hlt, if_pos (by omega)]
            · rw [if_neg hlt, if_neg (by omega)]) (by omega) with h | h
        · exact Or.inl h
        · omega

theorem isClustering_of_inv {inv : Fin n → Option ℕ} {k : ℕ} {first : Fin k → Fin n}
    (h : UwtInv tol a inv k first) (hall : ∀ j, inv j ≠ none) :
    IsClustering tol a k (fun j => (inv j).getD 0) first := by
  have hs : ∀ j, inv j = some ((inv j).getD 0) := by
    intro j
    cases hj : inv j with
    | none => exact absurd hj (hall j)
    | some c => rfl
  refine ⟨fun j => h.lt j _ (hs j), ?_, h.mono, ?_⟩
  · intro j c
    rw [← h.mem_iff j c]
    constructor
    · intro hc; rw [hs j, hc]
    · intro hc; rw [hc]; rfl
  · intro j c hc
    exact h.first_le j c (by rw [hs j, hc])

theorem clustering_nonempty {k : ℕ} {inv : Fin n → ℕ} {first : Fin k → Fin n}
    (h : IsClustering tol a k inv first) (hn : n ≠ 0) (htol : 0 < tol) :
    Finset.univ.sup inv + 1 = k := by
  have hk : 0 < k := (Nat.zero_le _).trans_lt (h.lt ⟨0, Nat.pos_of_ne_zero hn⟩)
  apply le_antisymm
  · have : Finset.univ.sup inv < k := by
      rw [Finset.sup_lt_iff hk]
      intro j _; exact h.lt j
    omega
  · have h1 : inv (first ⟨k - 1, by omega⟩) = k - 1 :=
      (h.mem_iff (first ⟨k - 1, by omega⟩) ⟨k - 1, by omega⟩).2 (by simpa using htol)
    have h2 := Finset.le_sup (f := inv) (Finset.mem_univ (first ⟨k - 1, by omega⟩))
    rw [h1] at h2
    omega

/-- `unique_with_tol` on a non-empty array. -/
theorem uniqueWithTol_spec [NormedSpace ℝ E] (htol : 0 < tol) (hn : n ≠ 0) (fuel : ℕ) (hf : n < fuel) :
    (∃ k inv first, IsClustering tol a k inv first ∧
      uniqueWithTol tol a fuel =
        some (.ok ⟨(List.range k).map (clusterCenter a inv), inv⟩)) ∨
    (uniqueWithTol tol a fuel = some (.error .valueError) ∧
      ¬ ∃ k inv, ∃ first : Fin k → Fin n, IsClustering tol a k inv first) := by
  have hinit : UwtInv tol a (fun _ => none) 0 (fun c => c.elim0) := by
    refine ⟨?_, fun _ c => c.elim0, fun c => c.elim0, fun _ c => c.elim0, fun c => c.elim0⟩
    intro j c hc; cases hc
  have hun : unassigned (fun _ : Fin n => (none : Option ℕ)) < fuel := by
    unfold unassigned
    simpa using hf
  rcases uwtLoop_spec htol fuel _ 0 _ hinit hun with ⟨inv', k, first', hrun, hinv, hall⟩ | hrun
  · left
    have hcl := isClustering_of_inv hinv hall
    refine ⟨k, _, first', hcl, ?_⟩
    unfold uniqueWithTol
    rw [hrun]
    simp only [if_neg hn]
    rw [clustering_nonempty hcl hn htol]
  · right
    refine ⟨by unfold uniqueWithTol; rw [hrun], ?_⟩
    rintro ⟨k, inv₀, first₀, hcl⟩
    have hkn : k ≤ n := by
      have := Fintype.card_le_of_injective first₀ hcl.mono.injective
      simpa using this
    rcases uwtLoop_complete hcl fuel (fun _ => none) 0 (by intro j; simp) (by omega) with h | h
    · rw [h] at hrun
      cases hrun
    · omega

end LieNN
