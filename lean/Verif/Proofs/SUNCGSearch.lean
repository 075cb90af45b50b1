import Verif.Proofs.SUNCGRow
/-!
# `search_state` and `construct_lower_cg`
-/
namespace LieNN.SUN

open Spec Finset Matrix

/-! ## The search -/

section
variable {S : List ℤ}

theorem lowerLadder_gt (hS : IsWeight S) (h0 : ∀ s ∈ S, 0 ≤ s) {M N : Pat} (hM : IsGT S M) (hN : IsGT S N)
    {l : ℕ} (hl : l + 1 < S.length) : lowerLadder l M N = .ok (ladderVal S.length l N M) :=
  lowerLadder_eq (goodPat_of_mem hS h0 (by omega) ((mem_pats S hS _).2 hM))
    (goodPat_of_mem hS h0 (by omega) ((mem_pats S hS _).2 hN)) hl

theorem searchL_spec (hS : IsWeight S) (h0 : ∀ s ∈ S, 0 ≤ s) {Mc Mp : Pat} (hc : IsGT S Mc) (hp : IsGT S Mp) :
    ∀ ls : List ℕ, (∀ l ∈ ls, l + 1 < S.length) →
      (∃ l ∈ ls, searchL Mc Mp ls = .ok (some l) ∧ ladderVal S.length l Mc Mp ≠ 0) ∨
      (searchL Mc Mp ls = .ok none ∧ ∀ l ∈ ls, ladderVal S.length l Mc Mp = 0) := by
  intro ls
  induction ls with
  | nil => intro _; exact .inr ⟨rfl, by simp⟩
  | cons l ls ih =>
    intro hl
    unfold searchL
    rw [lowerLadder_gt hS h0 hp hc (hl l (by simp))]
    simp only [SU2.ok_bind']
    by_cases h : ladderVal S.length l Mc Mp = 0
    · rw [if_neg (not_not.2 h)]
      rcases ih (fun x hx => hl x (by simp [hx])) with ⟨x, hx, h1, h2⟩ | ⟨h1, h2⟩
      · exact .inl ⟨x, by simp [hx], h1, h2⟩
      · refine .inr ⟨h1, fun x hx => ?_⟩
        rcases List.mem_cons.1 hx with rfl | hx
        · exact h
        · exact h2 x hx
    · rw [if_pos h]
      exact .inl ⟨l, by simp, rfl, h⟩

theorem searchMp_spec (hS : IsWeight S) (h0 : ∀ s ∈ S, 0 ≤ s) {ML : List Pat} {Mc : Pat} (hc : IsGT S Mc) :
    ∀ Ms : List Pat, (∀ M ∈ Ms, IsGT S M) →
      (∃ Mp l, searchMp ML S.length Mc Ms = .ok (some (Mp, l)) ∧ Mp ∈ Ms ∧ Mp ∉ ML ∧ l + 1 < S.length ∧
        ladderVal S.length l Mc Mp ≠ 0) ∨
      (searchMp ML S.length Mc Ms = .ok none ∧ ∀ Mp ∈ Ms, Mp ∉ ML → ∀ l, l + 1 < S.length →
        ladderVal S.length l Mc Mp = 0) := by
  intro Ms
  induction Ms with
  | nil => intro _; exact .inr ⟨rfl, by simp⟩
  | cons Mp Ms ih =>
    intro hM
    have ih := ih fun M hm => hM M (by simp [hm])
    unfold searchMp
    by_cases hin : Mp ∈ ML
    · rw [if_pos hin]
      rcases ih with ⟨M, l, h1, h2, h3⟩ | ⟨h1, h2⟩
      · exact .inl ⟨M, l, h1, by simp [h2], h3⟩
      · refine .inr ⟨h1, fun M hm hn => ?_⟩
        rcases List.mem_cons.1 hm with rfl | hm
        · exact absurd hin hn
        · exact h2 M hm hn
    · rw [if_neg hin]
      rcases searchL_spec hS h0 hc (hM Mp (by simp)) (List.range (S.length - 1)) (fun l hl => by
        rw [List.mem_range] at hl; omega) with ⟨l, hl, h1, h2⟩ | ⟨h1, h2⟩
      · rw [h1]
        rw [List.mem_range] at hl
        exact .inl ⟨Mp, l, rfl, by simp, hin, by omega, h2⟩
      · rw [h1]
        simp only [SU2.ok_bind']
        rcases ih with ⟨M, l, h3, h4, h5⟩ | ⟨h3, h4⟩
        · exact .inl ⟨M, l, h3, by simp [h4], h5⟩
        · refine .inr ⟨h3, fun M hm hn l hl => ?_⟩
          rcases List.mem_cons.1 hm with rfl | hm
          · exact h2 l (List.mem_range.2 (by omega))
          · exact h4 M hm hn l hl

theorem searchMc_spec (hS : IsWeight S) (h0 : ∀ s ∈ S, 0 ≤ s) {ML : List Pat} :
    ∀ Mcs : List Pat, (∀ M ∈ Mcs, IsGT S M) →
      (∃ Mc Mp l, searchMc ML S.length (pats S) Mcs = .ok (Mc, Mp, l) ∧ Mc ∈ Mcs ∧ IsGT S Mp ∧ Mp ∉ ML ∧
        l + 1 < S.length ∧ ladderVal S.length l Mc Mp ≠ 0) ∨
      (∀ Mc ∈ Mcs, ∀ Mp, IsGT S Mp → Mp ∉ ML → ∀ l, l + 1 < S.length → ladderVal S.length l Mc Mp = 0) := by
  intro Mcs
  induction Mcs with
  | nil => intro _; exact .inr (by simp)
  | cons Mc Mcs ih =>
    intro hM
    have ih := ih fun M hm => hM M (by simp [hm])
    unfold searchMc
    rcases searchMp_spec (ML := ML) hS h0 (hM Mc (by simp)) (pats S) (fun M hm => (mem_pats S hS M).1 hm) with
      ⟨Mp, l, h1, h2, h3, h4, h5⟩ | ⟨h1, h2⟩
    · rw [h1]
      exact .inl ⟨Mc, Mp, l, rfl, by simp, (mem_pats S hS _).1 h2, h3, h4, h5⟩
    · rw [h1]
      simp only [SU2.ok_bind']
      rcases ih with ⟨M, Mp, l, h3, h4, h5⟩ | h3
      · exact .inl ⟨M, Mp, l, h3, by simp [h4], h5⟩
      · refine .inr fun M hm Mp hp hn l hl => ?_
        rcases List.mem_cons.1 hm with rfl | hm
        · exact h2 Mp ((mem_pats S hS _).2 hp) hn l hl
        · exact h3 M hm Mp hp hn l hl

/-- A pattern that is not the highest one can be raised. -/
theorem exists_raise (hS : IsWeight S) {p : Fin (pats S).length} (hp : p ≠ topIdx hS) :
    ∃ l a, l + 1 < S.length ∧ JR S l a p ≠ 0 := by
  by_contra hno
  push Not at hno
  have hk : Ladder.Killed (S.length - 1) (Jp S) (Pi.single p 1) := by
    intro l hl
    funext a
    rw [mulVec_single_one, col_apply, Jp_JR, hno l a (by omega)]
    simp
  obtain ⟨a, ha⟩ := (top_Jp hS).only _ hk
  have h1 := congrFun ha p
  rw [Pi.single_eq_same, Pi.smul_apply, Pi.single_eq_of_ne hp, smul_zero] at h1
  exact one_ne_zero h1

/-- As long as a pattern is missing, the search finds one. -/
theorem searchState_ok (hS : IsWeight S) (h0 : ∀ s ∈ S, 0 ≤ s) {ML : List Pat} (hML : ∀ M ∈ ML, IsGT S M)
    (htop : topPat S ∈ ML) {Q : Pat} (hQ : IsGT S Q) (hQn : Q ∉ ML) :
    ∃ Mc Mp l, searchState ML = .ok (Mc, Mp, l) ∧ Mc ∈ ML ∧ IsGT S Mp ∧ Mp ∉ ML ∧ l + 1 < S.length ∧
      ladderVal S.length l Mc Mp ≠ 0 := by
  have hst : searchState ML = searchMc ML S.length (pats S) ML := by
    cases ML with
    | nil => simp at htop
    | cons M0 ML' =>
      have hg := hML M0 (by simp)
      cases M0 with
      | nil => exact absurd hg.2.1 (by simp)
      | cons S₃ M =>
        have e : S₃ = S := by simpa using hg.2.1
        subst e
        simp only [searchState]
        rw [sToMs_eq _ hS]
        simp only [SU2.ok_bind']
        have := hg.1.1
        rw [this]
  rw [hst]
  rcases searchMc_spec (ML := ML) hS h0 ML hML with h | h
  · exact h
  exfalso
  classical
  obtain ⟨q, hq⟩ := exists_idx hS hQ
  have hne : (univ.filter fun a : Fin (pats S).length => (pats S)[a] ∉ ML).Nonempty :=
    ⟨q, by rw [mem_filter]; exact ⟨mem_univ _, by rw [hq]; exact hQn⟩⟩
  obtain ⟨p, hp, hmax⟩ := exists_max_image _ (height S) hne
  rw [mem_filter] at hp
  have hpt : p ≠ topIdx hS := by
    intro e
    rw [e, topIdx_spec] at hp
    exact hp.2 htop
  obtain ⟨l, a, hl, hla⟩ := exists_raise hS hpt
  have hup := (sys_Jp hS).up l (by omega) a p (by rw [Jp_JR]; exact_mod_cast hla)
  have ha : (pats S)[a] ∈ ML := by
    by_contra hn
    have := hmax a (by rw [mem_filter]; exact ⟨mem_univ _, hn⟩)
    omega
  exact hla (h _ ha _ (idx_gt hS p) hp.2 l hl)

end

/-! ## One lowering step -/

theorem foldlM_acc {α A : Type} [AddCommMonoid A] (f : A → α → Py A) (g : α → A) (hf : ∀ a x, f a x = .ok (a + g x)) :
    ∀ (L : List α) (a : A), L.foldlM f a = .ok (a + (L.map g).sum) := by
  intro L
  induction L with
  | nil => intro a; simp; rfl
  | cons x L ih =>
    intro a
    rw [List.foldlM_cons, hf]
    simp only [SU2.ok_bind']
    rw [ih, List.map_cons, List.sum_cons, add_assoc]

theorem sum_flatMap' {α A : Type} [AddCommMonoid A] (g : α → List A) (L : List α) :
    (L.flatMap g).sum = (L.map fun a => (g a).sum).sum := by
  induction L with
  | nil => rfl
  | cons a L ih => rw [List.flatMap_cons, List.sum_append, ih, List.map_cons, List.sum_cons]

theorem addTo_eq {d₁ d₂ : ℕ} (CG : Matrix (Fin d₁) (Fin d₂) ℝ) (n₁ : Fin d₁) (n₂ : Fin d₂) (x : ℝ) :
    addTo CG n₁ n₂ x = CG + Matrix.single n₁ n₂ x := by
  ext i j
  simp only [addTo, Matrix.of_apply, Matrix.add_apply, Matrix.single_apply]
  by_cases h : i = n₁ ∧ j = n₂
  · rw [if_pos h, if_pos ⟨h.1.symm, h.2.symm⟩]
  · rw [if_neg h, if_neg (fun e => h ⟨e.1.symm, e.2.symm⟩), add_zero]

section
variable {S₁ S₂ S₃ : List ℤ}

/-- The entry of the lowering operator on the tensor product. -/
noncomputable def lowVal (S₁ S₂ : List ℤ) (l : ℕ) (m q : Fin (pats S₁).length × Fin (pats S₂).length) : ℝ :=
  (if q.2 = m.2 then JR S₁ l m.1 q.1 else 0) + if q.1 = m.1 then JR S₂ l m.2 q.2 else 0

/-- The array before the division by the norm. -/
noncomputable def lowSum (S₁ S₂ : List ℤ) (l : ℕ) (w : Matrix (Fin (pats S₁).length) (Fin (pats S₂).length) ℝ) :
    Matrix (Fin (pats S₁).length) (Fin (pats S₂).length) ℝ :=
  Matrix.of fun i j => ∑ a, ∑ b, lowVal S₁ S₂ l (a, b) (i, j) * w a b

theorem lowerBody_eq (hS₁ : IsWeight S₁) (hS₂ : IsWeight S₂) (hS₃ : IsWeight S₃) (h₁ : ∀ s ∈ S₁, 0 ≤ s)
    (h₂ : ∀ s ∈ S₂, 0 ≤ s) (h₃ : ∀ s ∈ S₃, 0 ≤ s) {l : ℕ} (hl₁ : l + 1 < S₁.length) (hl₂ : l + 1 < S₂.length)
    (hl₃ : l + 1 < S₃.length)
    (C : Fin (pats S₁).length → Fin (pats S₂).length → Fin (pats S₃).length → ℝ) (mc mp : Fin (pats S₃).length)
    (CG : Matrix (Fin (pats S₁).length) (Fin (pats S₂).length) ℝ)
    (q : (Fin (pats S₁).length × Fin (pats S₂).length) × (Fin (pats S₁).length × Fin (pats S₂).length)) :
    lowerBody S₁ S₂ S₃ l C mc mp CG q =
      .ok (CG + Matrix.single q.2.1 q.2.2 (JR S₃ l mc mp * (lowVal S₁ S₂ l q.1 q.2 * C q.1.1 q.1.2 mc))) := by
  unfold lowerBody lowVal
  rw [ladderAt_lower hS₁ h₁ hl₁, ladderAt_lower hS₂ h₂ hl₂, ladderAt_upper hS₃ h₃ hl₃]
  simp only [SU2.ok_bind', addTo_eq]
  by_cases e1 : q.2.2 = q.1.2 <;> by_cases e2 : q.2.1 = q.1.1 <;> simp only [e1, e2, if_true, if_false]
  · refine congrArg Except.ok ?_
    rw [add_assoc, ← Matrix.single_add]
    congr 2
    ring
  · refine congrArg Except.ok ?_
    congr 2
    ring
  · refine congrArg Except.ok ?_
    congr 2
    ring
  · refine congrArg Except.ok ?_
    rw [add_zero, zero_mul, mul_zero, Matrix.single_zero, add_zero]

theorem arrIdx_ok {d : ℕ} (a : Fin d) : arrIdx d ((a : ℕ) : ℤ) = .ok a := by
  unfold arrIdx
  rw [dif_pos ⟨by omega, by exact_mod_cast a.2⟩]
  rfl

theorem mToIndex_idx {S : List ℤ} (hS : IsWeight S) (a : Fin (pats S).length) :
    mToIndex (pats S)[a] = .ok ((a : ℕ) : ℤ) := by
  refine (mToIndex_eq S hS (pats S)[a] (List.getElem_mem _)).trans ?_
  have hnd : (pats S).Nodup := (pats_sorted S hS).imp fun h => ne_of_lt h
  have := hnd.idxOf_getElem a a.2
  exact congrArg Except.ok (by exact_mod_cast this)

theorem sum_single {d₁ d₂ : ℕ} (f : Fin d₁ × Fin d₂ → ℝ) :
    ((pairs d₁ d₂).map fun q => Matrix.single q.1 q.2 (f q)).sum = Matrix.of fun i j => f (i, j) := by
  rw [sum_pairs]
  exact (Matrix.matrix_eq_sum_single (Matrix.of fun i j => f (i, j))).symm

open Classical in
/-- `construct_lower_cg` lowers the column of `Mc`. -/
theorem constructLowerCG_eq (hS₁ : IsWeight S₁) (hS₂ : IsWeight S₂) (hS₃ : IsWeight S₃) (h₁ : ∀ s ∈ S₁, 0 ≤ s)
    (h₂ : ∀ s ∈ S₂, 0 ≤ s) (h₃ : ∀ s ∈ S₃, 0 ≤ s) {l : ℕ} (hl₁ : l + 1 < S₁.length) (hl₂ : l + 1 < S₂.length)
    (hl₃ : l + 1 < S₃.length)
    (C : Fin (pats S₁).length → Fin (pats S₂).length → Fin (pats S₃).length → ℝ) (mc mp : Fin (pats S₃).length) :
    constructLowerCG S₁ S₂ S₃ (pats S₃)[mp] (pats S₃)[mc] l C =
      let CG := JR S₃ l mc mp • lowSum S₁ S₂ l (Matrix.of fun i j => C i j mc)
      if frob CG = 0 then .error .zeroDivision else .ok ((frob CG)⁻¹ • CG) := by
  unfold constructLowerCG
  rw [mToIndex_idx hS₃, mToIndex_idx hS₃]
  simp only [SU2.ok_bind', arrIdx_ok]
  rw [foldlM_acc _ _ (fun a x => lowerBody_eq hS₁ hS₂ hS₃ h₁ h₂ h₃ hl₁ hl₂ hl₃ C mc mp a x)]
  simp only [SU2.ok_bind']
  have e : (0 + (((pairs (pats S₁).length (pats S₂).length).flatMap fun m =>
      (pairs (pats S₁).length (pats S₂).length).map fun q => (m, q)).map fun q =>
        Matrix.single q.2.1 q.2.2 (JR S₃ l mc mp * (lowVal S₁ S₂ l q.1 q.2 * C q.1.1 q.1.2 mc))).sum) =
      JR S₃ l mc mp • lowSum S₁ S₂ l (Matrix.of fun i j => C i j mc) := by
    rw [zero_add, List.map_flatMap, sum_flatMap']
    simp only [List.map_map, Function.comp_def]
    simp only [sum_single (fun q => JR S₃ l mc mp * (lowVal S₁ S₂ l _ q * C _ _ mc))]
    rw [sum_pairs]
    ext i j
    simp only [Matrix.sum_apply, Matrix.of_apply, Matrix.smul_apply, smul_eq_mul, lowSum, Finset.mul_sum]
  rw [e]
  rfl

/-- The lowered column as a vector. -/
theorem tvec_lowSum (l : ℕ) (w : Matrix (Fin (pats S₁).length) (Fin (pats S₂).length) ℝ) :
    tvec (lowSum S₁ S₂ l w) = (Ladder.tens (Jp S₁ l) (Jp S₂ l))ᴴ *ᵥ tvec w := by
  funext x
  rw [mulVec, dotProduct, Fintype.sum_prod_type, tvec, lowSum, Matrix.of_apply]
  push_cast
  refine sum_congr rfl fun a _ => sum_congr rfl fun b _ => ?_
  rw [Ladder.tens_conj, Ladder.tens_apply, lowVal, tvec, Jp_adj, Jp_adj]
  simp only [transpose_apply, Jp_JR]
  split_ifs <;> simp

end

end LieNN.SUN
