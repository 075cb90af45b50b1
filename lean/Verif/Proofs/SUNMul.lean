import Verif.Proofs.SUNAdj
import Mathlib.Data.List.Sort
/-!
# The labels yielded by `mul_rep`
-/
namespace LieNN.SUN

open Spec

theorem mulIncr_ok {n : ℕ} {M : Pat} (hM : Triangular n M) (hI : Interlacing M)
    (h0 : ∀ i j, i + j < n → 0 ≤ ent M i j) {l k : ℕ} (h : k + l < n) :
    ∃ c, 0 ≤ c ∧ mulIncr M l k = .ok c := by
  unfold mulIncr
  rw [get2_ok hM h]
  by_cases h' : k + 1 + l < n
  · rw [get2_ok hM h']
    have := (hI k l (by rw [hM.1]; omega)).2
    exact ⟨_, by omega, rfl⟩
  · rw [get2_error hM (by omega)]
    exact ⟨_, h0 _ _ h, rfl⟩

theorem mulLoop_spec {n : ℕ} {M : Pat} (hM : Triangular n M) (hI : Interlacing M)
    (h0 : ∀ i j, i + j < n → 0 ≤ ent M i j) (ps : List (ℕ × ℕ)) (hp : ∀ p ∈ ps, p.2 + p.1 < n)
    (t : List ℤ) (ht : t.length = n) : ∃ t', mulLoop n M ps t = .ok t' ∧ (t' = [] ∨ (t'.length = n ∧
      ∀ q, 1 ≤ q → q < n → (t.getD q 0 ≤ t.getD (q - 1) 0 ∨ ∃ p ∈ ps, n - p.2 - 1 = q) →
        t'.getD q 0 ≤ t'.getD (q - 1) 0)) := by
  induction ps generalizing t with
  | nil => exact ⟨t, rfl, Or.inr ⟨ht, fun q _ _ h => by simpa using h⟩⟩
  | cons p ps ih =>
    obtain ⟨l, k⟩ := p
    have hkl : k + l < n := hp (l, k) (by simp)
    obtain ⟨c, hc, he⟩ := mulIncr_ok hM hI h0 hkl
    have hq : n - k - 1 < t.length := by omega
    rw [mulLoop, List.getElem?_eq_getElem hq]
    simp only [he, SU2.ok_bind']
    set t1 := t.set (n - k - 1) (t[n - k - 1] + c) with ht1
    have hl1 : t1.length = n := by simp [ht1, ht]
    have g : ∀ i, i < n → t1.getD i 0 = t.getD i 0 + if i = n - k - 1 then c else 0 := by
      intro i hi
      rw [List.getD_eq_getElem _ _ (by omega), List.getD_eq_getElem _ _ (by omega)]
      simp only [ht1, List.getElem_set]
      by_cases e : n - k - 1 = i
      · subst e; simp
      · rw [if_neg e, if_neg (Ne.symm e), add_zero]
    by_cases hb : n - k - 1 ≥ 1 ∧ t1.getD (n - k - 1) 0 > t1.getD (n - k - 2) 0
    · rw [if_pos hb]
      exact ⟨[], rfl, Or.inl rfl⟩
    · rw [if_neg hb]
      obtain ⟨t', h1, h2⟩ := ih (fun p hp' => hp p (by simp [hp'])) t1 hl1
      refine ⟨t', h1, h2.imp id fun h2 => ⟨h2.1, fun q q1 qn hh => h2.2 q q1 qn ?_⟩⟩
      by_cases hqe : q = n - k - 1
      · left
        rw [not_and] at hb
        have := hb (by omega)
        rw [hqe, show n - k - 1 - 1 = n - k - 2 by omega]
        omega
      · rcases hh with hh | ⟨p, hp', e⟩
        · left
          rw [g q qn, g (q - 1) (by omega), if_neg hqe]
          split_ifs <;> omega
        · rcases List.mem_cons.1 hp' with e' | e'
          · subst e'
            exact absurd e.symm hqe
          · exact Or.inr ⟨p, e', e⟩

theorem mem_uniquePairs {n : ℕ} {p : ℕ × ℕ} : p ∈ uniquePairs n ↔ p.2 + p.1 < n := by
  obtain ⟨l, k⟩ := p
  simp only [uniquePairs, List.mem_flatMap, List.mem_range, List.mem_map, Prod.mk.injEq]
  constructor
  · rintro ⟨i, hi, j, hj, rfl, rfl⟩; omega
  · intro h; exact ⟨l, by omega, k, by omega, rfl, rfl⟩

/-- What one pattern contributes. -/
theorem mulLoop_ok {n : ℕ} {M : Pat} (hM : Triangular n M) (hI : Interlacing M)
    (h0 : ∀ i j, i + j < n → 0 ≤ ent M i j) (t : List ℤ) (ht : t.length = n) :
    ∃ t', mulLoop n M (uniquePairs n) t = .ok t' ∧
      (t' = [] ∨ (t'.length = n ∧ t'.Pairwise (· ≥ ·))) := by
  obtain ⟨t', h1, h2⟩ := mulLoop_spec hM hI h0 (uniquePairs n) (fun p hp => mem_uniquePairs.1 hp) t ht
  refine ⟨t', h1, h2.imp id fun h2 => ⟨h2.1, ?_⟩⟩
  rw [← List.isChain_iff_pairwise, List.isChain_iff_getElem]
  intro i hi
  have := h2.2 (i + 1) (by omega) (by omega) (Or.inr ⟨(0, n - 1 - (i + 1)),
    mem_uniquePairs.2 (by dsimp only; omega), by dsimp only; omega⟩)
  rwa [List.getD_eq_getElem _ _ hi, List.getD_eq_getElem _ _ (by omega)] at this

theorem sub_last_valid {t : List ℤ} {n : ℕ} {z : ℤ} (h1 : t.length = n) (h2 : t.Pairwise (· ≥ ·))
    (hz : t.getLast? = some z) : valid n (t.map fun x => x - z) := by
  refine ⟨by simp [h1], ?_, ?_⟩
  · rw [List.pairwise_map]
    exact h2.imp fun {a b} h => by omega
  · rw [List.getLast?_map, hz]
    simp

theorem mulRep_ok {S₁ S₂ : List ℤ} (h1 : IsWeight S₁) (h0 : ∀ s ∈ S₁, 0 ≤ s)
    (hl : S₂.length = S₁.length) :
    ∃ L, mulRep S₁ S₂ = .ok L ∧ ∀ S ∈ L, valid S₁.length S := by
  have hstep : ∀ M ∈ pats S₁, ∃ t', mulLoop S₁.length M (uniquePairs S₁.length) S₂ = .ok t' ∧
      (t' = [] ∨ (t'.length = S₁.length ∧ t'.Pairwise (· ≥ ·))) := by
    intro M hM
    obtain ⟨hT, hh, hI⟩ := (mem_pats S₁ h1 M).1 hM
    refine mulLoop_ok hT hI ?_ S₂ hl
    rw [← hT.1]
    refine nonneg_of_last hI ?_
    match M, hh with
    | R :: M', hh =>
      simp at hh
      subst hh
      have hpos := List.length_pos_iff.2 h1.1
      have : ent (R :: M') 0 ((R :: M').length - 1) = R.getD (R.length - 1) 0 := by
        unfold ent
        rw [hT.1]
        rfl
      rw [this, List.getD_eq_getElem _ _ (by omega)]
      exact h0 _ (List.getElem_mem _)
  classical
  let g : Pat → List ℤ := fun M => if h : M ∈ pats S₁ then (hstep M h).choose else []
  have hg : ∀ M ∈ pats S₁, mulLoop S₁.length M (uniquePairs S₁.length) S₂ = .ok (g M) ∧
      (g M = [] ∨ ((g M).length = S₁.length ∧ (g M).Pairwise (· ≥ ·))) := by
    intro M hM
    simp only [g, dif_pos hM]
    exact (hstep M hM).choose_spec
  unfold mulRep
  rw [sToMs_eq S₁ h1]
  simp only [SU2.ok_bind']
  rw [LieNN.mapM_ok (g := g) (fun M hM => (hg M hM).1)]
  refine ⟨_, rfl, fun S hS => ?_⟩
  obtain ⟨t, ht, he⟩ := List.mem_filterMap.1 hS
  obtain ⟨M, hM, rfl⟩ := List.mem_map.1 ht
  obtain ⟨z, hz, rfl⟩ := Option.map_eq_some_iff.1 he
  rcases (hg M hM).2 with h | ⟨ha, hb⟩
  · rw [h] at hz; simp at hz
  · exact sub_last_valid ha hb hz

theorem mul_ok {S₁ S₂ : List ℤ} (h1 : IsWeight S₁) (h0 : ∀ s ∈ S₁, 0 ≤ s)
    (hl : S₂.length = S₁.length) :
    ∃ L R, mulRep S₁ S₂ = .ok L ∧ mul S₁ S₂ = .ok R ∧ R.Pairwise (· < ·) ∧ (∀ S, S ∈ R ↔ S ∈ L) ∧
      ∀ S ∈ R, valid S₁.length S := by
  obtain ⟨L, hL, hv⟩ := mulRep_ok h1 h0 hl
  have hperm := List.mergeSort_perm L.dedup fun a b => decide (a ≤ b)
  have hmem : ∀ S, S ∈ L.dedup.mergeSort (fun a b => decide (a ≤ b)) ↔ S ∈ L := fun S => by
    rw [hperm.mem_iff, List.mem_dedup]
  refine ⟨L, L.dedup.mergeSort fun a b => decide (a ≤ b), hL, ?_, ?_, hmem, ?_⟩
  · unfold mul
    rw [hL]
    simp only [SU2.ok_bind']
    rw [LieNN.mapM_ok (g := id)]
    · simp
    · intro S hS
      have h := hv S ((hmem S).1 hS)
      rw [make_ok_iff]
      exact ⟨rfl, by rw [h.1]; exact h⟩
  · have hs : (L.dedup.mergeSort fun a b => decide (a ≤ b)).Pairwise (· ≤ ·) := by
      have := List.pairwise_mergeSort (le := fun a b : List ℤ => decide (a ≤ b))
        (fun a b c hab hbc => by simp at *; exact le_trans hab hbc)
        (fun a b => by simp; exact le_total a b) L.dedup
      exact this.imp fun h => by simpa using h
    have hn : (L.dedup.mergeSort fun a b => decide (a ≤ b)).Nodup := hperm.nodup_iff.2 L.nodup_dedup
    exact (hs.and hn).imp fun h => lt_of_le_of_ne h.1 h.2
  · exact fun S hS => hv S ((hmem S).1 hS)

end LieNN.SUN
