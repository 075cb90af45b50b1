import Verif.Model.SUNCG
import Verif.Proofs.SUNIrr
import Verif.Proofs.LadderTensor
/-!
# The constraint matrix of `clebsch_gordan_eldest`
-/
namespace LieNN.SUN

open Spec Finset Matrix

theorem list_le_of_forall₂ {α : Type} [LinearOrder α] {X Y : List α} (h : List.Forall₂ (· ≤ ·) X Y) : X ≤ Y := by
  induction h with
  | nil => exact le_rfl
  | @cons a b X Y h1 _ ih =>
    rcases lt_or_eq_of_le h1 with h2 | h2
    · exact le_of_lt (List.Lex.rel h2)
    · subst h2
      exact List.cons_le_cons a ih

theorem gt_le_row0 {S : List ℤ} {M : Pat} (hM : IsGT S M) : ∀ i j, i + j < S.length → ent M i j ≤ S.getD j 0 := by
  intro i
  induction i with
  | zero => intro j _; exact (gt_row0 hM j).le
  | succ i ih =>
    intro j hj
    exact ((hM.2.2 i j (by rw [hM.1.1]; omega)).2).trans (ih j (by omega))

theorem le_topPat {S : List ℤ} {M : Pat} (hM : IsGT S M) : M ≤ topPat S := by
  have hT := topPat_tri S
  refine list_le_of_forall₂ (List.forall₂_iff_get.2 ⟨by rw [hM.1.1, hT.1], fun i h1 h2 => ?_⟩)
  have hi : i < S.length := by rw [← hT.1]; exact h2
  have r1 : M.getD i [] = M[i] := List.getD_eq_getElem _ _ h1
  have r2 : (topPat S).getD i [] = (topPat S)[i] := List.getD_eq_getElem _ _ h2
  have l1 := hM.1.2 i hi
  have l2 := hT.2 i hi
  rw [r1] at l1
  rw [r2] at l2
  simp only [List.get_eq_getElem]
  refine list_le_of_forall₂ (List.forall₂_iff_get.2 ⟨by rw [l1, l2], fun j h3 h4 => ?_⟩)
  have hj : i + j < S.length := by omega
  have e1 : ent M i j = M[i][j] := by
    unfold ent
    rw [r1, List.getD_eq_getElem _ _ h3]
  have e2 : ent (topPat S) i j = (topPat S)[i][j] := by
    unfold ent
    rw [r2, List.getD_eq_getElem _ _ h4]
  simp only [List.get_eq_getElem]
  rw [← e1, ← e2, topPat_ent S hj]
  exact gt_le_row0 hM i j hj

/-- The last pattern is the highest one. -/
theorem pats_last {S : List ℤ} (hS : IsWeight S) :
    (pats S).getLast? = some (topPat S) ∧ (topIdx hS : ℕ) + 1 = (pats S).length := by
  have hpos : 0 < (pats S).length := (topIdx hS).pos
  have e : (topIdx hS : ℕ) + 1 = (pats S).length := by
    by_contra hne
    have h1 := (topIdx hS).2
    have h2 : (pats S).length - 1 < (pats S).length := by omega
    have h3 := List.pairwise_iff_getElem.1 (pats_sorted S hS) (topIdx hS) ((pats S).length - 1) h1 h2 (by omega)
    have h4 := topIdx_spec hS
    have h5 := le_topPat ((mem_pats S hS _).1 (List.getElem_mem h2))
    have h6 : (pats S)[(topIdx hS : ℕ)] = topPat S := h4
    rw [h6] at h3
    exact absurd h3 (not_lt.2 h5)
  refine ⟨?_, e⟩
  rw [List.getLast?_eq_getElem?, ← e, Nat.add_sub_cancel]
  rw [List.getElem?_eq_getElem (topIdx hS).2]
  exact congrArg some (topIdx_spec hS)

/-- The real matrix of `J⁺`. -/
noncomputable def JR (S : List ℤ) (l : ℕ) (a b : Fin (pats S).length) : ℝ :=
  ladderVal S.length l (pats S)[a] (pats S)[b]

theorem Jp_JR (S : List ℤ) (l : ℕ) (a b : Fin (pats S).length) : Jp S l a b = (JR S l a b : ℂ) := rfl

theorem ladderAt_upper {S : List ℤ} (hS : IsWeight S) (h0 : ∀ s ∈ S, 0 ≤ s) {l : ℕ} (hl : l + 1 < S.length)
    (a b : Fin (pats S).length) : ladderAt upperLadder l S a b = .ok (JR S l a b) := by
  unfold ladderAt
  rw [indexToM_eq S hS a a.2, indexToM_eq S hS b b.2]
  simp only [SU2.ok_bind']
  exact upperLadder_eq (goodPat_of_mem hS h0 (by omega) (List.getElem_mem _))
    (goodPat_of_mem hS h0 (by omega) (List.getElem_mem _)) hl

theorem ladderAt_lower {S : List ℤ} (hS : IsWeight S) (h0 : ∀ s ∈ S, 0 ≤ s) {l : ℕ} (hl : l + 1 < S.length)
    (a b : Fin (pats S).length) : ladderAt lowerLadder l S a b = .ok (JR S l b a) := by
  unfold ladderAt
  rw [indexToM_eq S hS a a.2, indexToM_eq S hS b b.2]
  simp only [SU2.ok_bind']
  exact lowerLadder_eq (goodPat_of_mem hS h0 (by omega) (List.getElem_mem _))
    (goodPat_of_mem hS h0 (by omega) (List.getElem_mem _)) hl

/-! ## Lists of pairs -/

theorem getElem?_flatMap_const {α β : Type} (d : ℕ) (g : α → List β) (hg : ∀ a, (g a).length = d) :
    ∀ (L : List α) (i j : ℕ), j < d → (L.flatMap g)[j + d * i]? = (L[i]?).bind fun a => (g a)[j]? := by
  intro L
  induction L with
  | nil => intro i j _; simp
  | cons a L ih =>
    intro i j hj
    rw [List.flatMap_cons]
    cases i with
    | zero =>
      rw [Nat.mul_zero, Nat.add_zero, List.getElem?_append_left (by rw [hg]; exact hj)]
      simp
    | succ i =>
      rw [List.getElem?_append_right (by rw [hg, Nat.mul_succ]; omega), hg]
      have : j + d * (i + 1) - d = j + d * i := by rw [Nat.mul_succ]; omega
      rw [this, ih i j hj, List.getElem?_cons_succ]

theorem getElem?_pairs (d₁ d₂ : ℕ) (i : Fin d₁) (j : Fin d₂) :
    (pairs d₁ d₂)[(j : ℕ) + d₂ * i]? = some (i, j) := by
  unfold pairs
  rw [getElem?_flatMap_const d₂ _ (fun a => by simp) _ _ _ j.2]
  simp

theorem mem_pairs {d₁ d₂ : ℕ} (p : Fin d₁ × Fin d₂) : p ∈ pairs d₁ d₂ := by
  simp only [pairs, List.mem_flatMap, List.mem_map, List.mem_finRange, true_and]
  exact ⟨p.1, p.2, rfl⟩

theorem sum_pairs {d₁ d₂ : ℕ} {A : Type} [AddCommMonoid A] (f : Fin d₁ × Fin d₂ → A) :
    ((pairs d₁ d₂).map f).sum = ∑ i, ∑ j, f (i, j) := by
  have h : ∀ L : List (Fin d₁), ((L.flatMap fun i => (List.finRange d₂).map fun j => (i, j)).map f).sum =
      (L.map fun i => ∑ j, f (i, j)).sum := by
    intro L
    induction L with
    | nil => simp
    | cons a L ih =>
      rw [List.flatMap_cons, List.map_append, List.sum_append, ih, List.map_cons, List.sum_cons,
        List.map_map, ← List.ofFn_eq_map, List.sum_ofFn]
      rfl
  rw [pairs, h, ← List.ofFn_eq_map, List.sum_ofFn]

theorem ofEntries_pairs {d₁ d₂ : ℕ} (f : Fin d₁ × Fin d₂ → ℝ) :
    ofEntries ((pairs d₁ d₂).map f) = Matrix.of fun i j => f (i, j) := by
  ext i j
  simp only [ofEntries, Matrix.of_apply]
  rw [List.getD_eq_getElem?_getD, List.getElem?_map, getElem?_pairs]
  rfl

theorem mem_triples {d₁ d₂ n : ℕ} (q : Fin d₁ × Fin d₂ × ℕ) : q ∈ triples d₁ d₂ n ↔ q.2.2 < n := by
  simp only [triples, List.mem_flatMap, List.mem_map, List.mem_range]
  constructor
  · rintro ⟨p, -, l, hl, rfl⟩
    exact hl
  · intro h
    exact ⟨(q.1, q.2.1), mem_pairs _, q.2.2, h, rfl⟩

/-! ## The rows -/

section
variable {S₁ S₂ : List ℤ}

/-- The entries. -/
noncomputable def entryVal (S₁ S₂ : List ℤ) (q : Fin (pats S₁).length × Fin (pats S₂).length × ℕ)
    (m : Fin (pats S₁).length × Fin (pats S₂).length) : ℝ :=
  (if q.2.1 = m.2 then JR S₁ q.2.2 q.1 m.1 else 0) + if q.1 = m.1 then JR S₂ q.2.2 q.2.1 m.2 else 0

theorem constraintEntry_eq (hS₁ : IsWeight S₁) (hS₂ : IsWeight S₂) (h₁ : ∀ s ∈ S₁, 0 ≤ s) (h₂ : ∀ s ∈ S₂, 0 ≤ s)
    (q : Fin (pats S₁).length × Fin (pats S₂).length × ℕ) (hq₁ : q.2.2 + 1 < S₁.length)
    (hq₂ : q.2.2 + 1 < S₂.length) (m : Fin (pats S₁).length × Fin (pats S₂).length) :
    constraintEntry S₁ S₂ m.1 m.2 q = .ok (entryVal S₁ S₂ q m) := by
  unfold constraintEntry entryVal
  rw [ladderAt_upper hS₁ h₁ hq₁, ladderAt_upper hS₂ h₂ hq₂]
  by_cases e1 : q.2.1 = m.2 <;> by_cases e2 : q.1 = m.1 <;> simp only [e1, e2, if_true, if_false] <;> rfl

theorem JR_self (S : List ℤ) (hS : IsWeight S) (l : ℕ) (a : Fin (pats S).length) : JR S l a a = 0 := by
  by_contra h
  obtain ⟨k, hk, e⟩ := ladderVal_ne h
  have h1 := congrArg (fun M => ent M (l + 1) k) e
  have hT := (idx_gt hS a).1
  simp only [ent_addAt hT (l + 1) k 1 (l + 1) k hk, and_self, if_true] at h1
  omega

/-- What is asked of the rounding: it does not change the entries. -/
def RoundOK (rnd : ℝ → ℝ) (S : List ℤ) : Prop :=
  rnd 0 = 0 ∧ rnd 1 = 1 ∧ ∀ l (a b : Fin (pats S).length), l + 1 < S.length → rnd (JR S l a b) = JR S l a b

theorem rnd_entry (hS₁ : IsWeight S₁) (hS₂ : IsWeight S₂) {rnd : ℝ → ℝ} (hr₁ : RoundOK rnd S₁) (hr₂ : RoundOK rnd S₂)
    (q : Fin (pats S₁).length × Fin (pats S₂).length × ℕ) (hq₁ : q.2.2 + 1 < S₁.length)
    (hq₂ : q.2.2 + 1 < S₂.length) (m : Fin (pats S₁).length × Fin (pats S₂).length) :
    rnd (entryVal S₁ S₂ q m) = entryVal S₁ S₂ q m := by
  unfold entryVal
  by_cases e1 : q.2.1 = m.2 <;> by_cases e2 : q.1 = m.1
  · rw [if_pos e1, if_pos e2, e1, e2, JR_self _ hS₁, JR_self _ hS₂, add_zero, hr₁.1]
  · rw [if_pos e1, if_neg e2, add_zero, hr₁.2.2 _ _ _ hq₁]
  · rw [if_neg e1, if_pos e2, zero_add, hr₂.2.2 _ _ _ hq₂]
  · rw [if_neg e1, if_neg e2, add_zero, hr₁.1]

/-- The components of the wrong weight. -/
def wrongB (S₁ S₂ : List ℤ) (E : Pat) (m : Fin (pats S₁).length × Fin (pats S₂).length) : Bool :=
  decide ((mToZWeight (pats S₁)[m.1]).zipWith (· + ·) (mToZWeight (pats S₂)[m.2]) ≠ mToZWeight E)

theorem wrongWeight_eq (hS₁ : IsWeight S₁) (hS₂ : IsWeight S₂) (E : Pat)
    (m : Fin (pats S₁).length × Fin (pats S₂).length) :
    wrongWeight S₁ S₂ E m.1 m.2 = .ok (wrongB S₁ S₂ E m) := by
  unfold wrongWeight
  rw [indexToM_eq S₁ hS₁ m.1 m.1.2, indexToM_eq S₂ hS₂ m.2 m.2.2]
  rfl

/-- The rows of the constraint matrix. -/
noncomputable def rowsVal (S₁ S₂ : List ℤ) (E : Pat) :
    List (Matrix (Fin (pats S₁).length) (Fin (pats S₂).length) ℝ) :=
  ((triples (pats S₁).length (pats S₂).length (E.length - 1)).map fun q =>
      Matrix.of fun i j => entryVal S₁ S₂ q (i, j)) ++
    ((pairs (pats S₁).length (pats S₂).length).map fun m =>
      if wrongB S₁ S₂ E m then [Matrix.single m.1 m.2 (1 : ℝ)] else []).flatten

theorem constraintRows_eq (hS₁ : IsWeight S₁) (hS₂ : IsWeight S₂) (h₁ : ∀ s ∈ S₁, 0 ≤ s) (h₂ : ∀ s ∈ S₂, 0 ≤ s)
    {rnd : ℝ → ℝ} (hr₁ : RoundOK rnd S₁) (hr₂ : RoundOK rnd S₂) {E : Pat} (hE₁ : E.length = S₁.length)
    (hE₂ : E.length = S₂.length) :
    constraintRows (d₁ := (pats S₁).length) (d₂ := (pats S₂).length) rnd S₁ S₂ E = .ok (rowsVal S₁ S₂ E) := by
  unfold constraintRows
  rw [LieNN.mapM_ok (g := fun q => Matrix.of fun i j => entryVal S₁ S₂ q (i, j))]
  swap
  · intro q hq
    rw [mem_triples] at hq
    unfold constraintRow
    rw [LieNN.mapM_ok (g := entryVal S₁ S₂ q)]
    swap
    · intro m _
      exact constraintEntry_eq hS₁ hS₂ h₁ h₂ q (by omega) (by omega) m
    simp only [SU2.ok_bind', ofEntries_pairs]
    rfl
  simp only [SU2.ok_bind']
  rw [LieNN.mapM_ok (g := fun m => if wrongB S₁ S₂ E m then [Matrix.single m.1 m.2 (1 : ℝ)] else [])]
  swap
  · intro m _
    rw [wrongWeight_eq hS₁ hS₂]
    rfl
  simp only [SU2.ok_bind']
  refine congrArg Except.ok ?_
  change List.map (fun R => R.map rnd) (rowsVal S₁ S₂ E) = rowsVal S₁ S₂ E
  refine List.map_congr_left (g := id) (fun R hR => ?_) |>.trans (List.map_id _)
  rw [rowsVal, List.mem_append] at hR
  rcases hR with hR | hR
  · obtain ⟨q, hq, rfl⟩ := List.mem_map.1 hR
    rw [mem_triples] at hq
    ext i j
    exact rnd_entry hS₁ hS₂ hr₁ hr₂ q (by omega) (by omega) (i, j)
  · obtain ⟨L, hL, hR⟩ := List.mem_flatten.1 hR
    obtain ⟨m, -, rfl⟩ := List.mem_map.1 hL
    split_ifs at hR
    · rw [List.mem_singleton] at hR
      subst hR
      ext i j
      simp only [Matrix.map_apply, Matrix.single_apply, id]
      split_ifs
      · exact hr₁.2.1
      · exact hr₁.1
    · simp at hR

/-- An array of shape `(d1, d2)` as a vector of the tensor product. -/
def tvec {d₁ d₂ : ℕ} (v : Matrix (Fin d₁) (Fin d₂) ℝ) : Fin d₁ × Fin d₂ → ℂ := fun x => (v x.1 x.2 : ℂ)

theorem zWeight_zip (hS₁ : IsWeight S₁) (hS₂ : IsWeight S₂) {E : Pat} (hT : Triangular S₁.length E)
    (hlen : S₂.length = S₁.length) (m : Fin (pats S₁).length × Fin (pats S₂).length) :
    wrongB S₁ S₂ E m = false ↔ ∀ i, i + 1 < S₁.length →
      (mToZWeight (pats S₁)[m.1]).getD i 0 + (mToZWeight (pats S₂)[m.2]).getD i 0 = (mToZWeight E).getD i 0 := by
  have l1 := length_zWeight (idx_gt hS₁ m.1).1
  have l2 := length_zWeight (idx_gt hS₂ m.2).1
  have l3 := length_zWeight hT
  unfold wrongB
  rw [decide_eq_false_iff_not, not_not]
  constructor
  · intro h i hi
    rw [← h, List.getD_eq_getElem _ _ (by omega), List.getD_eq_getElem _ _ (by omega),
      List.getD_eq_getElem _ _ (by rw [List.length_zipWith]; omega), List.getElem_zipWith]
  · intro h
    refine List.ext_getElem (by rw [List.length_zipWith]; omega) fun i h1 h2 => ?_
    have := h i (by omega)
    rw [List.getD_eq_getElem _ _ (by omega), List.getD_eq_getElem _ _ (by omega),
      List.getD_eq_getElem _ _ (by omega)] at this
    rw [List.getElem_zipWith, this]

/-- The kernel of the constraint matrix consists of the vectors that are killed by the raising operators
and have the weights of `E`. -/
theorem kernel_iff (hS₁ : IsWeight S₁) (hS₂ : IsWeight S₂) {E : Pat} (hT : Triangular S₁.length E)
    (hlen : S₂.length = S₁.length) (v : Matrix (Fin (pats S₁).length) (Fin (pats S₂).length) ℝ) :
    (∀ R ∈ rowsVal S₁ S₂ E, ∑ i, ∑ j, R i j * v i j = 0) ↔
      Ladder.Killed (S₁.length - 1) (fun l => Ladder.tens (Jp S₁ l) (Jp S₂ l)) (tvec v) ∧
      ∀ i, i < S₁.length - 1 → Ladder.tens (Jz S₁ i) (Jz S₂ i) *ᵥ tvec v =
        (((mToZWeight E).getD i 0 : ℚ) : ℂ) • tvec v := by
  have hE := hT.1
  have hA : (∀ q ∈ triples (pats S₁).length (pats S₂).length (E.length - 1),
      ∑ i, ∑ j, entryVal S₁ S₂ q (i, j) * v i j = 0) ↔
      Ladder.Killed (S₁.length - 1) (fun l => Ladder.tens (Jp S₁ l) (Jp S₂ l)) (tvec v) := by
    have e : ∀ q : Fin (pats S₁).length × Fin (pats S₂).length × ℕ,
        (Ladder.tens (Jp S₁ q.2.2) (Jp S₂ q.2.2) *ᵥ tvec v) (q.1, q.2.1) =
          ((∑ i, ∑ j, entryVal S₁ S₂ q (i, j) * v i j : ℝ) : ℂ) := by
      intro q
      rw [mulVec, dotProduct, Fintype.sum_prod_type]
      push_cast
      refine sum_congr rfl fun i _ => sum_congr rfl fun j _ => ?_
      rw [Ladder.tens_apply, tvec, entryVal]
      simp only [Jp_JR]
      split_ifs <;> simp
    constructor
    · intro h l hl
      funext x
      have h1 := e (x.1, x.2, l)
      rw [h _ ((mem_triples _).2 (by simp only; omega))] at h1
      exact h1.trans (by simp)
    · intro h q hq
      rw [mem_triples] at hq
      have h1 := e q
      have h2 : Ladder.tens (Jp S₁ q.2.2) (Jp S₂ q.2.2) *ᵥ tvec v = 0 := h q.2.2 (by omega)
      rw [h2, Pi.zero_apply] at h1
      exact_mod_cast h1.symm
  have hB : (∀ m : Fin (pats S₁).length × Fin (pats S₂).length, wrongB S₁ S₂ E m = true → v m.1 m.2 = 0) ↔
      ∀ i, i < S₁.length - 1 → Ladder.tens (Jz S₁ i) (Jz S₂ i) *ᵥ tvec v =
        (((mToZWeight E).getD i 0 : ℚ) : ℂ) • tvec v := by
    have e : ∀ i (m : Fin (pats S₁).length × Fin (pats S₂).length),
        (Ladder.tens (Jz S₁ i) (Jz S₂ i) *ᵥ tvec v) m =
          (((mToZWeight (pats S₁)[m.1]).getD i 0 + (mToZWeight (pats S₂)[m.2]).getD i 0 : ℚ) : ℂ) * tvec v m := by
      intro i m
      rw [mulVec, dotProduct, sum_eq_single m]
      · rw [Ladder.tens_apply, if_pos rfl, if_pos rfl]
        simp [Jz]
      · intro x _ hx
        rw [Ladder.tens_apply]
        by_cases h1 : m.2 = x.2 <;> by_cases h2 : m.1 = x.1
        · exact absurd (Prod.ext h2.symm h1.symm) hx
        · simp [h2, Jz]
        · simp [h1, Jz]
        · simp [h1, h2]
      · intro h
        exact absurd (mem_univ m) h
    constructor
    · intro h i hi
      funext m
      rw [e, Pi.smul_apply, smul_eq_mul]
      cases hw : wrongB S₁ S₂ E m with
      | true =>
        have h0 : tvec v m = 0 := by
          rw [tvec, h m hw]
          simp
        rw [h0, mul_zero, mul_zero]
      | false => rw [(zWeight_zip hS₁ hS₂ hT hlen m).1 hw i (by omega)]
    · intro h m hw
      by_contra hne
      have hf : wrongB S₁ S₂ E m = false := by
        refine (zWeight_zip hS₁ hS₂ hT hlen m).2 fun i hi => ?_
        have h1 := congrFun (h i (by omega)) m
        rw [e, Pi.smul_apply, smul_eq_mul] at h1
        have h2 := mul_right_cancel₀ (by rw [tvec]; exact_mod_cast hne) h1
        exact_mod_cast h2
      rw [hf] at hw
      cases hw
  rw [← hA, ← hB]
  constructor
  · intro h
    refine ⟨fun q hq => ?_, fun m hm => ?_⟩
    · exact h (Matrix.of fun i j => entryVal S₁ S₂ q (i, j)) (List.mem_append_left _ (List.mem_map.2 ⟨q, hq, rfl⟩))
    · have h1 := h (Matrix.single m.1 m.2 (1 : ℝ)) (List.mem_append_right _ (List.mem_flatten.2
        ⟨_, List.mem_map.2 ⟨m, mem_pairs m, rfl⟩, by rw [if_pos hm]; simp⟩))
      rw [sum_eq_single m.1 (fun i _ hi => sum_eq_zero fun j _ => by
        rw [Matrix.single_apply, if_neg (fun e => hi e.1.symm), zero_mul]) (fun h => absurd (mem_univ _) h),
        sum_eq_single m.2 (fun j _ hj => by
        rw [Matrix.single_apply, if_neg (fun e => hj e.2.symm), zero_mul]) (fun h => absurd (mem_univ _) h)] at h1
      simpa using h1
  · rintro ⟨h1, h2⟩ R hR
    rw [rowsVal, List.mem_append] at hR
    rcases hR with hR | hR
    · obtain ⟨q, hq, rfl⟩ := List.mem_map.1 hR
      exact h1 q hq
    · obtain ⟨L, hL, hR⟩ := List.mem_flatten.1 hR
      obtain ⟨m, -, rfl⟩ := List.mem_map.1 hL
      split_ifs at hR with hw
      · rw [List.mem_singleton] at hR
        subst hR
        refine sum_eq_zero fun i _ => sum_eq_zero fun j _ => ?_
        rw [Matrix.single_apply]
        split_ifs with e
        · rw [← e.1, ← e.2, h2 m hw, mul_zero]
        · rw [zero_mul]
      · simp at hR

end

end LieNN.SUN
