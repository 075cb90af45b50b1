import Verif.Proofs.SU2UnderMain
/-!
# The highest column of the result of `clebsch_gordan_matrix` is a row of the null space
-/
namespace LieNN.SUN

open Spec Finset Matrix

theorem searchMp_mem {ML : List Pat} {n : ℕ} {Mc Mp : Pat} {l : ℕ} : ∀ {Ms : List Pat},
    searchMp ML n Mc Ms = .ok (some (Mp, l)) → Mp ∈ Ms ∧ Mp ∉ ML
  | [], h => by cases h
  | M :: Ms, h => by
    rw [searchMp] at h
    split_ifs at h with hM
    · obtain ⟨h1, h2⟩ := searchMp_mem h
      exact ⟨List.mem_cons_of_mem _ h1, h2⟩
    · cases hL : searchL Mc M (List.range (n - 1)) with
      | error e => rw [hL] at h; cases h
      | ok o =>
        rw [hL] at h
        cases o with
        | none =>
          obtain ⟨h1, h2⟩ := searchMp_mem (show searchMp ML n Mc Ms = _ from h)
          exact ⟨List.mem_cons_of_mem _ h1, h2⟩
        | some l' =>
          cases h
          exact ⟨List.mem_cons_self, hM⟩

theorem searchMc_mem {ML : List Pat} {n : ℕ} {Ms : List Pat} {Mc Mp : Pat} {l : ℕ} : ∀ {Mcs : List Pat},
    searchMc ML n Ms Mcs = .ok (Mc, Mp, l) → Mp ∈ Ms ∧ Mp ∉ ML
  | [], h => by cases h
  | M :: Mcs, h => by
    rw [searchMc] at h
    cases hL : searchMp ML n M Ms with
    | error e => rw [hL] at h; cases h
    | ok o =>
      rw [hL] at h
      cases o with
      | none => exact searchMc_mem (show searchMc ML n Ms Mcs = _ from h)
      | some x =>
        cases h
        exact searchMp_mem hL

theorem searchState_mem {S : List ℤ} (hS : IsWeight S) {ML : List Pat} {Mc Mp : Pat} {l : ℕ}
    (h : searchState (topPat S :: ML) = .ok (Mc, Mp, l)) : Mp ∈ pats S ∧ Mp ≠ topPat S := by
  obtain ⟨M, hM⟩ : ∃ M, topPat S = S :: M := by
    obtain ⟨k, hk⟩ : ∃ k, S.length = k + 1 := ⟨S.length - 1, by
      have := List.length_pos_iff.2 hS.1
      omega⟩
    unfold topPat
    conv => enter [1, M, 1]; rw [hk, List.range_succ_eq_map]
    refine ⟨_, by rw [List.map_cons, Nat.sub_zero, ← hk, List.take_length]⟩
  rw [hM] at h
  have h' : (do let Ms ← sToMs S; searchMc ((S :: M) :: ML) (S :: M).length Ms ((S :: M) :: ML)) = .ok (Mc, Mp, l) := h
  rw [sToMs_eq S hS] at h'
  obtain ⟨h1, h2⟩ := searchMc_mem (show searchMc _ _ _ _ = _ from h')
  refine ⟨h1, fun e => h2 ?_⟩
  rw [e, hM]
  exact List.mem_cons_self

theorem arrIdx_val {d : ℕ} {i : ℤ} {k : Fin d} (h : arrIdx d i = .ok k) : ((k : ℕ) : ℤ) = i := by
  unfold arrIdx at h
  split_ifs at h with hi
  cases h
  simp only
  omega

/-- The `while` loop does not write into the last column. -/
theorem cgWhile_top {d₁ d₂ : ℕ} {S₁ S₂ S₃ : List ℤ} (hS : IsWeight S₃) : ∀ (fuel : ℕ)
    {C C' : Fin d₁ → Fin d₂ → Fin (pats S₃).length → ℝ} {ML ML' : List Pat},
    cgWhile S₁ S₂ S₃ fuel C (topPat S₃ :: ML) = some (.ok (C', ML')) →
    (∀ i j, C' i j (topIdx hS) = C i j (topIdx hS)) ∧ ∃ ML'', ML' = topPat S₃ :: ML''
  | 0, C, C', ML, ML', h => by
    rw [cgWhile] at h
    split_ifs at h
    cases h
    exact ⟨fun _ _ => rfl, ML, rfl⟩
  | fuel + 1, C, C', ML, ML', h => by
    rw [cgWhile] at h
    split_ifs at h
    · cases hs : searchState (topPat S₃ :: ML) with
      | error e => rw [hs] at h; cases h
      | ok x =>
        obtain ⟨Mc, Mp, l⟩ := x
        rw [hs] at h
        obtain ⟨h1, h2⟩ := searchState_mem hS hs
        have hi := mToIndex_eq S₃ hS Mp h1
        simp only [SU2.ok_bind', hi] at h
        cases ha : arrIdx (pats S₃).length ((pats S₃).idxOf Mp : ℤ) with
        | error e => rw [ha] at h; cases h
        | ok mp =>
          rw [ha] at h
          simp only [SU2.ok_bind'] at h
          have hne : topIdx hS ≠ mp := by
            intro e
            have a := arrIdx_val ha
            have b : (mp : ℕ) = (pats S₃).idxOf Mp := by exact_mod_cast a
            apply h2
            subst e
            rw [← topIdx_spec hS]
            exact (List.getElem_idxOf (List.idxOf_lt_length_of_mem h1)).symm.trans (getElem_congr_idx b.symm)
          cases hc : constructLowerCG S₁ S₂ S₃ Mp Mc l C with
          | error e => rw [hc] at h; cases h
          | ok CG =>
            rw [hc] at h
            obtain ⟨g1, g2⟩ := cgWhile_top hS fuel (show cgWhile S₁ S₂ S₃ fuel _ (topPat S₃ :: (ML ++ [Mp])) = _ from h)
            refine ⟨fun i j => ?_, g2⟩
            rw [g1 i j]
            exact if_neg hne
    · cases h
      exact ⟨fun _ _ => rfl, ML, rfl⟩

theorem cgLoop_top {d₁ d₂ : ℕ} {S₁ S₂ S₃ : List ℤ} (hS : IsWeight S₃) (fuel : ℕ) :
    ∀ (L : List (Fin d₁ → Fin d₂ → Fin (pats S₃).length → ℝ)) {Cs} {ML : List Pat},
    cgLoop S₁ S₂ S₃ fuel L (topPat S₃ :: ML) = some (.ok Cs) →
    ∀ C ∈ Cs, ∃ D ∈ L, ∀ i j, C i j (topIdx hS) = D i j (topIdx hS)
  | [], Cs, ML, h => by
    cases h
    simp
  | D :: L, Cs, ML, h => by
    rw [cgLoop] at h
    cases hw : cgWhile S₁ S₂ S₃ fuel D (topPat S₃ :: ML) with
    | none => rw [hw] at h; cases h
    | some y =>
      cases y with
      | error e => rw [hw] at h; cases h
      | ok x =>
        obtain ⟨C', ML'⟩ := x
        rw [hw] at h
        simp only at h
        obtain ⟨h1, ML'', rfl⟩ := cgWhile_top hS fuel hw
        cases hl : cgLoop S₁ S₂ S₃ fuel L (topPat S₃ :: ML'') with
        | none => rw [hl] at h; cases h
        | some z =>
          cases z with
          | error e => rw [hl] at h; cases h
          | ok Cs' =>
            rw [hl] at h
            cases h
            intro C hC
            rcases List.mem_cons.1 hC with rfl | hC
            · exact ⟨D, List.mem_cons_self, h1⟩
            · obtain ⟨D', hD', e⟩ := cgLoop_top hS fuel L hl C hC
              exact ⟨D', List.mem_cons_of_mem _ hD', e⟩

/-- The last columns of the arrays are rows of the null space. -/
theorem top_of_null {S₁ S₂ S₃ : List ℤ} (hS : IsWeight S₃) {rnd : ℝ → ℝ}
    {null : ∀ m n : ℕ, Matrix (Fin m) (Fin n) ℝ → List (Fin n → ℝ)} {fuel d₁ d₂ : ℕ}
    {Cs : List (Fin d₁ → Fin d₂ → Fin (pats S₃).length → ℝ)}
    (h : clebschGordanMatrix rnd null fuel d₁ d₂ (pats S₃).length S₁ S₂ S₃ = some (.ok Cs)) :
    ∀ C ∈ Cs, ∃ (m : ℕ) (A : Matrix (Fin m) (Fin (d₁ * d₂)) ℝ), ∃ v ∈ null m (d₁ * d₂) A,
      ∀ i j, C i j (topIdx hS) = v (finProdFinEquiv (i, j)).rev := by
  unfold clebschGordanMatrix at h
  rw [sToMs_eq _ hS] at h
  simp only [SU2.ok_bind', (pats_last hS).1] at h
  unfold eldest at h
  cases hr : constraintRows (d₁ := d₁) (d₂ := d₂) rnd S₁ S₂ (topPat S₃) with
  | error e => rw [hr] at h; cases h
  | ok rows =>
    rw [hr] at h
    intro C hC
    obtain ⟨D, hD, e⟩ := cgLoop_top hS fuel _ (show cgLoop S₁ S₂ S₃ fuel _ (topPat S₃ :: []) = _ from h) C hC
    obtain ⟨w, hw, rfl⟩ := List.mem_map.1 hD
    obtain ⟨v, hv, rfl⟩ := List.mem_map.1 hw
    refine ⟨_, _, v, hv, fun i j => ?_⟩
    rw [e i j]
    exact if_pos (pats_last hS).2

end LieNN.SUN
