import Verif.Proofs.LadderMod
import Verif.Proofs.SUNAlg
/-!
# The representations of `SU(N)` are irreducible
-/
namespace LieNN.SUN

open Spec Finset Matrix

theorem gt_row0 {S : List ℤ} {M : Pat} (h : IsGT S M) (j : ℕ) : ent M 0 j = S.getD j 0 := by
  have hh := h.2.1
  match M, hh with
  | R :: M, hh =>
    simp only [List.head?_cons, Option.some.injEq] at hh
    subst hh
    rfl

/-- The number of a pattern. -/
theorem exists_idx {S : List ℤ} (hS : IsWeight S) {M : Pat} (h : IsGT S M) :
    ∃ a : Fin (pats S).length, (pats S)[a] = M := by
  obtain ⟨i, hi, e⟩ := List.mem_iff_getElem.1 ((mem_pats S hS M).2 h)
  exact ⟨⟨i, hi⟩, e⟩

theorem idx_gt {S : List ℤ} (hS : IsWeight S) (a : Fin (pats S).length) : IsGT S (pats S)[a] :=
  (mem_pats S hS _).1 (List.getElem_mem _)

theorem idx_inj {S : List ℤ} (hS : IsWeight S) {a b : Fin (pats S).length} (h : (pats S)[a] = (pats S)[b]) :
    a = b := by
  have hnd : (pats S).Nodup := (pats_sorted S hS).imp fun h => ne_of_lt h
  exact Fin.ext ((hnd.getElem_inj_iff).1 h)

/-- The entries of `J⁺` that are not zero. -/
theorem ladderVal_pos {S : List ℤ} {M : Pat} {l k : ℕ} (hM : IsGT S M)
    (hk : l + 1 + k < S.length) (hN : IsGT S (addAt M (l + 1) k 1)) :
    0 < ladderVal S.length l (addAt M (l + 1) k 1) M := by
  rw [ladderVal_eq]
  have hp : 0 < partVal S.length l k (addAt M (l + 1) k 1) M := by
    rw [partVal_self rfl]
    exact Real.sqrt_pos.2 (by exact_mod_cast coefSq_pos hk (canMove_of hM.1 hM.2.2 hN.2.2 (by omega) hk rfl))
  refine lt_of_lt_of_le hp (single_le_sum (f := fun k' => partVal S.length l k' (addAt M (l + 1) k 1) M)
    (fun i _ => ?_) (mem_range.2 (by omega)))
  unfold partVal
  split_ifs
  · exact Real.sqrt_nonneg _
  · exact le_rfl

theorem ladderVal_ne {n l : ℕ} {N M : Pat} (h : ladderVal n l N M ≠ 0) :
    ∃ k, l + 1 + k < n ∧ addAt M (l + 1) k 1 = N := by
  unfold ladderVal at h
  obtain ⟨k, hk, hne⟩ := exists_ne_zero_of_sum_ne_zero h
  have hk := mem_range.1 hk
  refine ⟨k, by omega, ?_⟩
  by_contra e
  rw [if_neg e] at hne
  exact hne rfl

theorem Jp_adj (S : List ℤ) (l : ℕ) : (Jp S l)ᴴ = (Jp S l)ᵀ := by
  ext a b
  simp [Jp]

/-- The number of raising steps below the highest pattern, up to a constant. -/
def height (S : List ℤ) (a : Fin (pats S).length) : ℤ := ∑ i ∈ range S.length, sig S.length (pats S)[a] i

/-- The commutators with the weights. -/
noncomputable def cartan (i l : ℕ) : ℝ := if i = l then 1 else if i = l + 1 ∨ i + 1 = l then -1 / 2 else 0

theorem sys_Jp {S : List ℤ} (hS : IsWeight S) :
    Ladder.Sys (S.length - 1) cartan (Jp S) (Jz S) (height S) where
  comm l m hl hm := by
    rw [Jp_adj, Jp_Jm hS (by omega)]
  ZP i l hi hl := by
    rw [Jz_Jp hS i l (by omega)]
    congr 1
    unfold cartan
    split_ifs <;> push_cast <;> rfl
  Zh i hi := by
    unfold Jz
    rw [diagonal_conjTranspose]
    congr 1
    funext a
    simp
  up l hl a b h := by
    simp only [Jp, Matrix.of_apply] at h
    obtain ⟨k, hk, e⟩ := ladderVal_ne (fun e => h (by rw [e]; rfl))
    have hT := (idx_gt hS b).1
    unfold height
    rw [← e]
    simp only [sig_addAt hT (by omega : l + 1 + k < S.length), sum_add_distrib]
    rw [sum_ite_eq' (range S.length) (l + 1) fun _ => (1 : ℤ), if_pos (mem_range.2 (by omega))]

/-- The number of the highest pattern. -/
noncomputable def topIdx {S : List ℤ} (hS : IsWeight S) : Fin (pats S).length :=
  (exists_idx hS (topPat_isGT hS)).choose

theorem topIdx_spec {S : List ℤ} (hS : IsWeight S) : (pats S)[topIdx hS] = topPat S :=
  (exists_idx hS (topPat_isGT hS)).choose_spec

theorem killed_apply {S : List ℤ} {x : Fin (pats S).length → ℂ}
    (hx : Ladder.Killed (S.length - 1) (Jp S) x) {l : ℕ} (hl : l + 1 < S.length) (a : Fin (pats S).length) :
    ∑ b : Fin (pats S).length, ((ladderVal S.length l (pats S)[a] (pats S)[b] : ℝ) : ℂ) * x b = 0 :=
  congrFun (hx l (by omega)) a

/-- A vector that is killed is supported on the patterns whose rows from `r` on are maximal. -/
theorem killed_rows {S : List ℤ} (hS : IsWeight S) {x : Fin (pats S).length → ℂ}
    (hx : Ladder.Killed (S.length - 1) (Jp S) x) : ∀ t, t < S.length → ∀ a : Fin (pats S).length, x a ≠ 0 →
      ∀ i j, S.length - t ≤ i → i + j < S.length → ent (pats S)[a] i j = ent (pats S)[a] (i - 1) j := by
  intro t
  induction t with
  | zero => intro _ a _ i j h1 h2; omega
  | succ t ih =>
    intro ht a ha i j h1 h2
    have ih := ih (by omega)
    rcases Nat.lt_or_ge i (S.length - t) with h3 | h3
    swap
    · exact ih a ha i j h3 h2
    have hM := idx_gt hS a
    obtain ⟨l, rfl⟩ : ∃ l, i = l + 1 := ⟨i - 1, by omega⟩
    rw [Nat.add_sub_cancel]
    by_contra hne
    have hI := hM.2.2
    have hle := (hI l j (by rw [hM.1.1]; omega)).2
    have hN : IsGT S (addAt (pats S)[a] (l + 1) j 1) := by
      refine (isGT_addAt_iff hM (by omega) 1).2 fun p q hpq => ?_
      rw [length_addAt, hM.1.1] at hpq
      have h4 := hI p q (by rw [hM.1.1]; omega)
      rw [ent_addAt hM.1 _ _ _ _ _ (by omega), ent_addAt hM.1 _ _ _ _ _ (by omega),
        ent_addAt hM.1 _ _ _ _ _ (by omega)]
      refine ⟨?_, ?_⟩
      · by_cases e1 : p = l + 1 ∧ q + 1 = j
        · obtain ⟨rfl, rfl⟩ := e1
          rw [if_pos ⟨rfl, rfl⟩, if_neg (by omega)]
          have h5 := ih a ha (l + 1 + 1) q (by omega) (by omega)
          have h6 := (hI l q (by rw [hM.1.1]; omega)).1
          simp only [Nat.add_sub_cancel] at h5
          omega
        · rw [if_neg e1]
          split_ifs <;> omega
      · by_cases e1 : p + 1 = l + 1 ∧ q = j
        · obtain ⟨e2, rfl⟩ := e1
          obtain rfl : p = l := by omega
          rw [if_pos ⟨rfl, rfl⟩, if_neg (by omega)]
          omega
        · rw [if_neg e1]
          split_ifs <;> omega
    obtain ⟨c, hc⟩ := exists_idx hS hN
    have hk := killed_apply hx (l := l) (by omega) c
    rw [sum_eq_single a, hc] at hk
    · have hpos := ladderVal_pos hM (by omega) hN
      rcases mul_eq_zero.1 hk with h | h
      · exact hpos.ne' (by exact_mod_cast h)
      · exact ha h
    · intro b _ hb
      by_contra hne2
      obtain ⟨k, hk, e⟩ := ladderVal_ne (fun e => (left_ne_zero_of_mul hne2) (by rw [e]; rfl))
      have hxb := right_ne_zero_of_mul hne2
      rw [hc] at e
      have hMb := idx_gt hS b
      have ee : ∀ p q, p + q < S.length → ent (pats S)[b] p q + (if p = l + 1 ∧ q = k then 1 else 0) =
          ent (pats S)[a] p q + if p = l + 1 ∧ q = j then 1 else 0 := by
        intro p q hpq
        rw [← ent_addAt hMb.1 _ _ _ _ _ hpq, ← ent_addAt hM.1 _ _ _ _ _ hpq, e]
      by_cases hkj : k = j
      · subst hkj
        apply hb
        apply idx_inj hS
        rw [← addAt_addAt hMb.1 (l + 1) k 1, e, addAt_addAt hM.1]
      · have key : ∀ q, l + 1 + q + 1 < S.length → ent (pats S)[b] (l + 1) q = ent (pats S)[a] (l + 1) q := by
          intro q hq
          have h5 := ih a ha (l + 1 + 1) q (by omega) (by omega)
          have h6 := ih b hxb (l + 1 + 1) q (by omega) (by omega)
          have h7 := ee (l + 1 + 1) q (by omega)
          simp only [Nat.add_sub_cancel] at h5 h6
          rw [if_neg (by omega), if_neg (by omega)] at h7
          omega
        have e1 := ee (l + 1) j (by omega)
        have e2 := ee (l + 1) k (by omega)
        rw [if_neg (by omega), if_pos ⟨rfl, rfl⟩] at e1
        rw [if_pos ⟨rfl, rfl⟩, if_neg (by omega)] at e2
        rcases Nat.lt_or_ge (l + 1 + j + 1) S.length with h8 | h8
        · have := key j h8
          omega
        · have := key k (by omega)
          omega
    · intro h
      exact absurd (mem_univ a) h

theorem top_Jp {S : List ℤ} (hS : IsWeight S) : Ladder.Top (S.length - 1) (Jp S) (topIdx hS) where
  killed l hl := by
    funext a
    rw [mulVec_single_one]
    change (((ladderVal S.length l (pats S)[a] (pats S)[topIdx hS] : ℝ)) : ℂ) = 0
    by_contra hne
    obtain ⟨k, hk, e⟩ := ladderVal_ne (fun e => hne (by rw [e]; rfl))
    have hN := idx_gt hS a
    rw [topIdx_spec] at e
    have h1 := (hN.2.2 l k (by rw [hN.1.1]; omega)).2
    rw [← e, ent_addAt (topPat_tri S) _ _ _ _ _ (by omega), ent_addAt (topPat_tri S) _ _ _ _ _ (by omega),
      topPat_ent S (by omega), topPat_ent S (by omega), if_pos ⟨rfl, rfl⟩, if_neg (by omega)] at h1
    omega
  only x hx := by
    refine ⟨x (topIdx hS), ?_⟩
    funext a
    by_cases h : a = topIdx hS
    · subst h
      simp
    · rw [Pi.smul_apply, Pi.single_eq_of_ne h, smul_zero]
      by_contra hne
      apply h
      apply idx_inj hS
      rw [topIdx_spec]
      have hM := idx_gt hS a
      refine tri_ext hM.1 (topPat_tri S) fun i j hij => ?_
      rw [topPat_ent S hij, ← gt_row0 hM j]
      have hr := killed_rows hS hx (S.length - 1) (by omega) a hne
      clear hne h
      induction i with
      | zero => rfl
      | succ i ih =>
        rw [hr (i + 1) j (by omega) hij, Nat.add_sub_cancel, ih (by omega)]

/-! ## The generators -/

theorem GG_up (S : List ℤ) (l : ℕ) : GG S l (l + 1) = Jp S l := by
  unfold GG GL.G
  rw [if_pos (by omega)]
  simp [GL.up]

theorem GG_dn (S : List ℤ) (l : ℕ) : GG S (l + 1) l = (Jp S l)ᴴ := by
  unfold GG GL.G
  rw [if_neg (by omega), if_pos (by omega), Jp_adj]
  simp [GL.dn]

/-- A matrix that intertwines the generators intertwines the ladder operators. -/
theorem intertwines_of_basis {n d : ℕ} {κ : Type} [Fintype κ] [DecidableEq κ]
    {f : Matrix (Fin n) (Fin n) ℂ →ₗ[ℂ] Matrix (Fin d) (Fin d) ℂ}
    {f' : Matrix (Fin n) (Fin n) ℂ →ₗ[ℂ] Matrix κ κ ℂ} {T : Matrix κ (Fin d) ℂ}
    (h : ∀ x ∈ suBasis n, T * f x = f' x * T) {k l : ℕ} (hk : k < n) (hl : l < n) (hkl : k ≠ l) :
    T * f (unit n k l) = f' (unit n k l) * T := by
  have mem : ∀ k l, k < l → l < n → Complex.I • (unit n k l + unit n l k) ∈ suBasis n ∧
      unit n k l - unit n l k ∈ suBasis n := by
    intro k l h1 h2
    have hp : (k, l) ∈ pairsLT n := mem_pairsLT.2 ⟨h1, h2⟩
    refine ⟨?_, ?_⟩
    · exact List.mem_append_left _ (List.mem_append_left _ (List.mem_map.2 ⟨_, hp, rfl⟩))
    · exact List.mem_append_left _ (List.mem_append_right _ (List.mem_map.2 ⟨_, hp, rfl⟩))
  have main : ∀ k l, k < l → l < n → T * f (unit n k l) = f' (unit n k l) * T ∧
      T * f (unit n l k) = f' (unit n l k) * T := by
    intro k l h1 h2
    obtain ⟨m1, m2⟩ := mem k l h1 h2
    have e1 := h _ m1
    have e2 := h _ m2
    rw [map_smul, map_smul, Matrix.mul_smul, Matrix.smul_mul] at e1
    have e1 := smul_right_injective _ Complex.I_ne_zero e1
    rw [map_add, map_add, Matrix.mul_add, Matrix.add_mul] at e1
    rw [map_sub, map_sub, Matrix.mul_sub, Matrix.sub_mul] at e2
    constructor
    · have : (2 : ℂ) • (T * f (unit n k l)) = (2 : ℂ) • (f' (unit n k l) * T) := by
        have e3 := congrArg₂ (· + ·) e1 e2
        refine Eq.trans ?_ (e3.trans ?_) <;> module
      exact smul_right_injective _ two_ne_zero this
    · have : (2 : ℂ) • (T * f (unit n l k)) = (2 : ℂ) • (f' (unit n l k) * T) := by
        have e3 := congrArg₂ (· - ·) e1 e2
        refine Eq.trans ?_ (e3.trans ?_) <;> module
      exact smul_right_injective _ two_ne_zero this
  rcases Nat.lt_or_gt_of_ne hkl with h1 | h1
  · exact (main k l h1 hl).1
  · exact (main l k h1 hk).2

/-- A subspace that is invariant under the generators is invariant under the ladder operators. -/
theorem invariant_of_basis {n d : ℕ} {f : Matrix (Fin n) (Fin n) ℂ →ₗ[ℂ] Matrix (Fin d) (Fin d) ℂ}
    {W : Submodule ℂ (Fin d → ℂ)} (h : ∀ x ∈ suBasis n, ∀ w ∈ W, f x *ᵥ w ∈ W) {k l : ℕ} (hk : k < n)
    (hl : l < n) (hkl : k ≠ l) : ∀ w ∈ W, f (unit n k l) *ᵥ w ∈ W := by
  have main : ∀ k l, k < l → l < n → ∀ w ∈ W, f (unit n k l) *ᵥ w ∈ W ∧ f (unit n l k) *ᵥ w ∈ W := by
    intro k l h1 h2 w hw
    have hp : (k, l) ∈ pairsLT n := mem_pairsLT.2 ⟨h1, h2⟩
    have m1 := h _ (List.mem_append_left _ (List.mem_append_left _ (List.mem_map.2 ⟨_, hp, rfl⟩))) w hw
    have m2 := h _ (List.mem_append_left _ (List.mem_append_right _ (List.mem_map.2 ⟨_, hp, rfl⟩))) w hw
    simp only [map_smul, map_add, smul_mulVec, add_mulVec] at m1
    simp only [map_sub, sub_mulVec] at m2
    have m1 := W.smul_mem (-Complex.I) m1
    rw [smul_smul, neg_mul, Complex.I_mul_I, neg_neg, one_smul] at m1
    constructor
    · have := W.smul_mem (1 / 2 : ℂ) (W.add_mem m1 m2)
      convert this using 1
      module
    · have := W.smul_mem (1 / 2 : ℂ) (W.sub_mem m1 m2)
      convert this using 1
      module
  rcases Nat.lt_or_gt_of_ne hkl with h1 | h1
  · exact fun w hw => (main k l h1 hl w hw).1
  · exact fun w hw => (main l k h1 hk w hw).2

/-- Every subspace that is invariant under the generators is zero or everything. -/
theorem invariant_trivial {S : List ℤ} (hS : IsWeight S) {W : Submodule ℂ (Fin (pats S).length → ℂ)}
    (h : ∀ x ∈ suBasis S.length, ∀ w ∈ W, Phi S x *ᵥ w ∈ W) : W = ⊥ ∨ W = ⊤ := by
  have hP : ∀ l, l < S.length - 1 → ∀ x ∈ W, Jp S l *ᵥ x ∈ W := fun l hl x hx => by
    have := invariant_of_basis h (k := l) (l := l + 1) (by omega) (by omega) (by omega) x hx
    rwa [Phi_unit S (by omega) (by omega), GG_up] at this
  have hM : ∀ l, l < S.length - 1 → ∀ x ∈ W, (Jp S l)ᴴ *ᵥ x ∈ W := fun l hl x hx => by
    have := invariant_of_basis h (k := l + 1) (l := l) (by omega) (by omega) (by omega) x hx
    rwa [Phi_unit S (by omega) (by omega), GG_dn] at this
  by_cases hW : W = ⊥
  · exact .inl hW
  · refine .inr ?_
    obtain ⟨w, hw, hw0⟩ := (Submodule.ne_bot_iff W).1 hW
    obtain ⟨u, hu, hu0, hk⟩ := Ladder.exists_killed (sys_Jp hS) W hP hw hw0
    obtain ⟨a, rfl⟩ := (top_Jp hS).only u hk
    refine Ladder.cyclic (sys_Jp hS) (top_Jp hS) W hP hM ?_
    have ha : a ≠ 0 := by
      rintro rfl
      exact hu0 (zero_smul _ _)
    have := W.smul_mem a⁻¹ hu
    rwa [smul_smul, inv_mul_cancel₀ ha, one_smul] at this

/-- The weights of the highest pattern. -/
theorem Jz_top {S : List ℤ} (hS : IsWeight S) {i : ℕ} (hi : i + 1 < S.length) :
    Jz S i *ᵥ Pi.single (topIdx hS) 1 =
      (((S.getD (S.length - 1 - i - 1) 0 - S.getD (S.length - 1 - i) 0 : ℤ) : ℂ) / 2) • Pi.single (topIdx hS) 1 := by
  unfold Jz
  funext a
  rw [mulVec_diagonal, Pi.smul_apply]
  by_cases h : a = topIdx hS
  · subst h
    rw [Pi.single_eq_same, mul_one, smul_eq_mul, mul_one]
    have e : ((mToZWeight (pats S)[topIdx hS]).getD i 0 : ℚ) =
        ((S.getD (S.length - 1 - i - 1) 0 - S.getD (S.length - 1 - i) 0 : ℤ) : ℚ) / 2 := by
      rw [topIdx_spec, zWeight_getD (topPat_tri S) i hi, sig_topPat, sig_topPat, sig_topPat]
      congr 2
      obtain ⟨m, hm⟩ : ∃ m, S.length - (i + 2) = m := ⟨_, rfl⟩
      have h1 : S.length - (i + 1) = m + 1 := by omega
      have h2 : S.length - i = m + 2 := by omega
      have h3 : S.length - 1 - i - 1 = m := by omega
      have h4 : S.length - 1 - i = m + 1 := by omega
      rw [hm, h1, h2, h3, h4, sum_range_succ, sum_range_succ, sum_range_succ]
      ring
    rw [e]
    push_cast
    rfl
  · rw [Pi.single_eq_of_ne h, mul_zero, smul_zero]

/-- There is no intertwiner between different representations of the same algebra. -/
theorem intertwiner_zero {S S' : List ℤ} (hS : IsWeight S) (hS' : IsWeight S') (hlen : S.length = S'.length)
    (hl : S.getD (S.length - 1) 0 = S'.getD (S'.length - 1) 0) (hne : S ≠ S')
    (T : Matrix (Fin (pats S').length) (Fin (pats S).length) ℂ)
    (hP : ∀ l, l < S.length - 1 → T * Jp S l = Jp S' l * T)
    (hM : ∀ l, l < S.length - 1 → T * (Jp S l)ᴴ = (Jp S' l)ᴴ * T) : T = 0 := by
  refine Ladder.intertwiner_unique (sys_Jp hS) (top_Jp hS) T hP hM ?_
  obtain ⟨a, ha⟩ := (top_Jp hS').only (T *ᵥ Pi.single (topIdx hS) 1) fun l hl => by
    rw [mulVec_mulVec, ← hP l (by omega), ← mulVec_mulVec, (top_Jp hS).killed l (by omega), mulVec_zero]
  by_cases ha0 : a = 0
  · rw [ha, ha0, zero_smul]
  exfalso
  apply hne
  have hw : ∀ i, i + 1 < S.length → S.getD (S.length - 1 - i - 1) 0 - S.getD (S.length - 1 - i) 0 =
      S'.getD (S.length - 1 - i - 1) 0 - S'.getD (S.length - 1 - i) 0 := by
    intro i hi
    have hZ : T * Jz S i = Jz S' i * T := by
      have e1 := Jp_Jm hS (l := i) (m := i) hi
      have e2 := Jp_Jm hS' (l := i) (m := i) (by omega)
      rw [if_pos rfl, ← Jp_adj] at e1 e2
      refine smul_right_injective _ (two_ne_zero (α := ℂ)) ?_
      change (2 : ℂ) • (T * Jz S i) = (2 : ℂ) • (Jz S' i * T)
      rw [← Matrix.mul_smul, ← Matrix.smul_mul, ← e1, ← e2, Matrix.mul_sub, Matrix.sub_mul, ← Matrix.mul_assoc, hP i (by omega),
        Matrix.mul_assoc, hM i (by omega), ← Matrix.mul_assoc T, hM i (by omega), Matrix.mul_assoc _ T, hP i (by omega)]
      simp only [Matrix.mul_assoc]
    have e3 := congrArg (fun x => T *ᵥ x) (Jz_top hS hi)
    simp only [mulVec_mulVec, mulVec_smul] at e3
    rw [hZ, ← mulVec_mulVec, ha, mulVec_smul, Jz_top hS' (by omega)] at e3
    have e4 := congrFun e3 (topIdx hS')
    simp only [Pi.smul_apply, Pi.single_eq_same, smul_eq_mul, mul_one] at e4
    rw [mul_comm a] at e4
    have e5 := mul_right_cancel₀ ha0 e4
    rw [← hlen] at e5
    have e6 := (div_left_inj' (two_ne_zero (α := ℂ))).1 e5
    exact_mod_cast e6.symm
  have hent : ∀ t, t < S.length → S.getD (S.length - 1 - t) 0 = S'.getD (S.length - 1 - t) 0 := by
    intro t
    induction t with
    | zero =>
      intro _
      rw [Nat.sub_zero, hl, hlen]
    | succ t ih =>
      intro ht
      have h1 := hw t ht
      have h2 := ih (by omega)
      rw [Nat.sub_sub (S.length - 1) t 1] at h1
      omega
  refine List.ext_getElem hlen fun i h1 h2 => ?_
  have := hent (S.length - 1 - i) (by omega)
  rw [show S.length - 1 - (S.length - 1 - i) = i by omega, List.getD_eq_getElem _ _ h1,
    List.getD_eq_getElem _ _ h2] at this
  exact this

end LieNN.SUN
