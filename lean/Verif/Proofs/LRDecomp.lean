import Verif.Proofs.LRSum
import Verif.Proofs.LadderSplit
import Verif.Proofs.SUNCGDim
/-!
# The tensor product of two representations of `SU(N)` is the sum of the representations of its highest vectors
-/
namespace LieNN.LR

open Finset Spec SUN Matrix

/-! ## Weights -/

/-- The weights of the operators `Jz`. -/
noncomputable def zOf (n : ℕ) (f : ℕ → ℤ) (i : ℕ) : ℂ := (((f (n - 2 - i) - f (n - 1 - i) : ℤ)) : ℂ) / 2

theorem zOf_add (n : ℕ) (f g : ℕ → ℤ) (i : ℕ) : zOf n (fun k => f k + g k) i = zOf n f i + zOf n g i := by
  unfold zOf; push_cast; ring

theorem rsum_sig {S : List ℤ} {n : ℕ} {M : Pat} (hn : S.length = n) (hw : IsWeight S) (h0 : ∀ s ∈ S, 0 ≤ s)
    (hM : IsGT S M) {k : ℕ} (hk : k ≤ n) : rsum n (xs n M) k = sig n M (n - k) := by
  unfold rsum sig
  rw [show n - (n - k) = k by omega]
  refine (sum_subset (range_subset_range.2 (by omega)) fun i _ hi => ?_).symm
  exact (gtf_of hn hw h0 hM).zero k i (by simpa using hi) hk

theorem z_eq {S : List ℤ} {n : ℕ} {M : Pat} (hn : S.length = n) (hw : IsWeight S) (h0 : ∀ s ∈ S, 0 ≤ s)
    (hM : IsGT S M) {i : ℕ} (hi : i + 1 < n) : (((mToZWeight M).getD i 0 : ℚ) : ℂ) = zOf n (wt n (xs n M)) i := by
  have hT : Triangular n M := by rw [← hn]; exact hM.1
  rw [zWeight_getD hT i hi]
  unfold zOf wt
  rw [rsum_sig hn hw h0 hM (by omega), rsum_sig hn hw h0 hM (by omega), rsum_sig hn hw h0 hM (by omega),
    rsum_sig hn hw h0 hM (by omega), show n - (n - 2 - i + 1) = i + 1 by omega, show n - (n - 2 - i) = i + 2 by omega,
    show n - (n - 1 - i + 1) = i by omega, show n - (n - 1 - i) = i + 1 by omega]
  push_cast
  ring

theorem sum_wt {S : List ℤ} {n : ℕ} {M : Pat} (hn : S.length = n) (hw : IsWeight S) (h0 : ∀ s ∈ S, 0 ≤ s)
    (hM : IsGT S M) : ∑ k ∈ range n, wt n (xs n M) k = ∑ k ∈ range n, S.getD k 0 := by
  have hg := gtf_of hn hw h0 hM
  unfold wt
  rw [sum_range_sub]
  have h1 : rsum n (xs n M) 0 = 0 := sum_eq_zero fun i _ => hg.zero 0 i (by omega) (by omega)
  rw [h1, sub_zero, rsum, sum_range_succ, hg.zero n n le_rfl le_rfl, add_zero]
  exact sum_congr rfl fun i _ => hg.top i

theorem wt_nonneg {S : List ℤ} {n : ℕ} {M : Pat} (hn : S.length = n) (hw : IsWeight S) (h0 : ∀ s ∈ S, 0 ≤ s)
    (hM : IsGT S M) {k : ℕ} (hk : k < n) : 0 ≤ wt n (xs n M) k := by
  have hg := gtf_of hn hw h0 hM
  unfold wt rsum
  exact sub_nonneg.2 (sum_le_sum fun i _ => hg.up k i hk)

/-- The weights of `Jz` and the total determine the weight. -/
theorem eq_of_z {n : ℕ} {f g : ℕ → ℤ} (h : ∀ i, i + 1 < n → zOf n f i = zOf n g i)
    (hs : ∑ k ∈ range n, f k = ∑ k ∈ range n, g k) : ∀ k < n, f k = g k := by
  have h1 : ∀ i, i + 1 < n → f (n - 2 - i) - f (n - 1 - i) = g (n - 2 - i) - g (n - 1 - i) := by
    intro i hi
    have := h i hi
    unfold zOf at this
    have := (div_left_inj' (two_ne_zero (α := ℂ))).1 this
    exact_mod_cast this
  have h2 : ∀ k < n, f k - g k = f 0 - g 0 := by
    intro k
    induction k with
    | zero => intro _; rfl
    | succ k ih =>
      intro hk
      have := h1 (n - 2 - k) (by omega)
      rw [show n - 2 - (n - 2 - k) = k by omega, show n - 1 - (n - 2 - k) = k + 1 by omega] at this
      have := ih (by omega)
      omega
  have h3 : (n : ℤ) * (f 0 - g 0) = 0 := by
    have : ∑ k ∈ range n, (f k - g k) = 0 := by rw [sum_sub_distrib, hs, sub_self]
    rw [sum_congr rfl fun k hk => h2 k (mem_range.1 hk)] at this
    rw [sum_const, card_range, nsmul_eq_mul] at this
    exact this
  intro k hk
  have h4 : f 0 - g 0 = 0 := by
    rcases mul_eq_zero.1 h3 with h5 | h5
    · omega
    · exact h5
  have := h2 k hk
  omega

/-! ## The tensor product -/

/-- The two factors. -/
structure Two (n : ℕ) (S₁ S₂ : List ℤ) : Prop where
  two : 2 ≤ n
  w₁ : IsWeight S₁
  w₂ : IsWeight S₂
  p₁ : ∀ s ∈ S₁, 0 ≤ s
  p₂ : ∀ s ∈ S₂, 0 ≤ s
  l₁ : S₁.length = n
  l₂ : S₂.length = n

/-- A label of the same length. -/
structure One (n : ℕ) (S : List ℤ) : Prop where
  w : IsWeight S
  p : ∀ s ∈ S, 0 ≤ s
  l : S.length = n

variable {n : ℕ} {S₁ S₂ : List ℤ}

theorem Two.labels (h : Two n S₁ S₂) {S : List ℤ} (hS : One n S) : Labels S₁ S₂ S :=
  ⟨h.w₁, h.w₂, hS.w, h.p₁, h.p₂, hS.p, h.l₁.trans hS.l.symm, h.l₂.trans hS.l.symm, by rw [hS.l]; exact h.two⟩

/-- Pairs of patterns. -/
abbrev KK (S₁ S₂ : List ℤ) : Type := Fin (pats S₁).length × Fin (pats S₂).length

/-- The weight of a pair. -/
def WN (n : ℕ) (S₁ S₂ : List ℤ) (x : KK S₁ S₂) (k : ℕ) : ℤ :=
  wt n (xs n (pats S₁)[x.1]) k + wt n (xs n (pats S₂)[x.2]) k

/-- The operators `Jz` on the tensor product. -/
noncomputable abbrev ZT (S₁ S₂ : List ℤ) (i : ℕ) : Matrix (KK S₁ S₂) (KK S₁ S₂) ℂ := Ladder.tens (Jz S₁ i) (Jz S₂ i)

theorem sysTwo (h : Two n S₁ S₂) : Ladder.Sys (n - 1) cartan (JT S₁ S₂) (ZT S₁ S₂)
    (fun x => height S₁ x.1 + height S₂ x.2) := by
  have a := sys_Jp h.w₁
  have b := sys_Jp h.w₂
  rw [h.l₁] at a
  rw [h.l₂] at b
  exact a.tensor b

theorem ZT_diag (h : Two n S₁ S₂) : ∀ i < n - 1, ZT S₁ S₂ i = diagonal fun x => zOf n (WN n S₁ S₂ x) i := by
  intro i hi
  ext x y
  refine (Ladder.tens_apply _ _ x y).trans ?_
  by_cases e : x = y
  · subst e
    rw [if_pos rfl, if_pos rfl, diagonal_apply_eq, Jz, Jz, diagonal_apply_eq, diagonal_apply_eq,
      z_eq h.l₁ h.w₁ h.p₁ (idx_gt h.w₁ x.1) (by omega), z_eq h.l₂ h.w₂ h.p₂ (idx_gt h.w₂ x.2) (by omega), ← zOf_add]
    rfl
  · rw [diagonal_apply_ne _ e]
    have : (if x.2 = y.2 then Jz S₁ i x.1 y.1 else 0) = 0 := by
      split_ifs with h2
      · exact diagonal_apply_ne _ fun h1 => e (Prod.ext h1 h2)
      · rfl
    rw [this, zero_add]
    split_ifs with h1
    · exact diagonal_apply_ne _ fun h2 => e (Prod.ext h1 h2)
    · rfl

theorem sum_WN (h : Two n S₁ S₂) (x : KK S₁ S₂) :
    ∑ k ∈ range n, WN n S₁ S₂ x k = ∑ k ∈ range n, (S₁.getD k 0 + S₂.getD k 0) := by
  unfold WN
  rw [sum_add_distrib, sum_add_distrib, sum_wt h.l₁ h.w₁ h.p₁ (idx_gt h.w₁ x.1),
    sum_wt h.l₂ h.w₂ h.p₂ (idx_gt h.w₂ x.2)]

theorem sys_of_one {S : List ℤ} (hS : One n S) : Ladder.Sys (n - 1) cartan (Jp S) (Jz S) (height S) := by
  have := sys_Jp hS.w
  rwa [hS.l] at this

theorem top_of_one {S : List ℤ} (hS : One n S) : Ladder.Top (n - 1) (Jp S) (topIdx hS.w) := by
  have := top_Jp hS.w
  rwa [hS.l] at this

theorem Jz_top_of_one {S : List ℤ} (hS : One n S) {i : ℕ} (hi : i < n - 1) :
    Jz S i *ᵥ Pi.single (topIdx hS.w) 1 = zOf n (fun k => S.getD k 0) i • Pi.single (topIdx hS.w) 1 := by
  rw [Jz_top hS.w (by rw [hS.l]; omega)]
  unfold zOf
  rw [hS.l, show n - 1 - i - 1 = n - 2 - i by omega]

theorem Jz_diag {S : List ℤ} (hS : One n S) {i : ℕ} (hi : i < n - 1) :
    Jz S i = diagonal fun p => zOf n (wt n (xs n (pats S)[p])) i := by
  unfold Jz
  congr 1
  funext p
  exact z_eq hS.l hS.w hS.p (idx_gt hS.w p) (by omega)

/-- The highest vectors with the weight of `S`. -/
def HW (n : ℕ) (S₁ S₂ S : List ℤ) : Submodule ℂ (KK S₁ S₂ → ℂ) where
  carrier := {x | Ladder.Killed (n - 1) (JT S₁ S₂) x ∧ ∀ i < n - 1, ZT S₁ S₂ i *ᵥ x = zOf n (fun k => S.getD k 0) i • x}
  add_mem' := fun {a b} ha hb => ⟨fun l hl => by rw [mulVec_add, ha.1 l hl, hb.1 l hl, add_zero],
    fun i hi => by rw [mulVec_add, ha.2 i hi, hb.2 i hi, smul_add]⟩
  zero_mem' := ⟨fun l _ => mulVec_zero _, fun i _ => by rw [mulVec_zero, smul_zero]⟩
  smul_mem' := fun a x hx => ⟨fun l hl => by rw [mulVec_smul, hx.1 l hl, smul_zero],
    fun i hi => by rw [mulVec_smul, hx.2 i hi, smul_comm]⟩

theorem mem_HW {S : List ℤ} {x : KK S₁ S₂ → ℂ} : x ∈ HW n S₁ S₂ S ↔
    Ladder.Killed (n - 1) (JT S₁ S₂) x ∧ ∀ i < n - 1, ZT S₁ S₂ i *ᵥ x = zOf n (fun k => S.getD k 0) i • x := Iff.rfl

/-- The highest vectors are the images of the highest vector under the intertwiners. -/
theorem HW_lift (h : Two n S₁ S₂) {S : List ℤ} (hS : One n S) {x : KK S₁ S₂ → ℂ} (hx : x ∈ HW n S₁ S₂ S) :
    ∃ T, LadderInt S₁ S₂ S T ∧ T *ᵥ Pi.single (topIdx hS.w) 1 = x := by
  obtain ⟨T, h1, h2, h3⟩ := Ladder.lift (sys_of_one hS) (sysTwo h) (top_of_one hS) (mem_HW.1 hx).1
    fun i hi => ⟨_, Jz_top_of_one hS hi, (mem_HW.1 hx).2 i hi⟩
  refine ⟨T, ⟨?_, ?_⟩, h1⟩
  · rw [hS.l]; exact h2
  · rw [hS.l]; exact h3

theorem int_Z (h : Two n S₁ S₂) {S : List ℤ} (hS : One n S) {T : Matrix (KK S₁ S₂) (Fin (pats S).length) ℂ}
    (hT : LadderInt S₁ S₂ S T) {i : ℕ} (hi : i < n - 1) : T * Jz S i = ZT S₁ S₂ i * T := by
  obtain ⟨h2, h3⟩ := hT
  rw [hS.l] at h2 h3
  have e1 := (sys_of_one hS).comm i i hi hi
  have e2 := (sysTwo h).comm i i hi hi
  rw [if_pos rfl] at e1 e2
  refine smul_right_injective _ (two_ne_zero (α := ℂ)) ?_
  change (2 : ℂ) • (T * Jz S i) = (2 : ℂ) • (ZT S₁ S₂ i * T)
  rw [← Matrix.mul_smul, ← Matrix.smul_mul, ← e1, ← e2, Matrix.mul_sub, Matrix.sub_mul, ← Matrix.mul_assoc, h2 i hi,
    Matrix.mul_assoc, h3 i hi, ← Matrix.mul_assoc T, h3 i hi, Matrix.mul_assoc _ T, h2 i hi]
  simp only [Matrix.mul_assoc]

theorem HW_of_int (h : Two n S₁ S₂) {S : List ℤ} (hS : One n S) {T : Matrix (KK S₁ S₂) (Fin (pats S).length) ℂ}
    (hT : LadderInt S₁ S₂ S T) : T *ᵥ Pi.single (topIdx hS.w) 1 ∈ HW n S₁ S₂ S := by
  refine ⟨fun l hl => ?_, fun i hi => ?_⟩
  · rw [mulVec_mulVec, ← hT.1 l (by rw [hS.l]; exact hl), ← mulVec_mulVec, (top_of_one hS).killed l hl, mulVec_zero]
  · rw [mulVec_mulVec, ← int_Z h hS hT hi, ← mulVec_mulVec, Jz_top_of_one hS hi, mulVec_smul]

/-- Intertwiners preserve the weights. -/
theorem int_weight (h : Two n S₁ S₂) {S : List ℤ} (hS : One n S) {T : Matrix (KK S₁ S₂) (Fin (pats S).length) ℂ}
    (hT : LadderInt S₁ S₂ S T) {x : KK S₁ S₂} {p : Fin (pats S).length} (hne : T x p ≠ 0) :
    ∀ i < n - 1, zOf n (WN n S₁ S₂ x) i = zOf n (wt n (xs n (pats S)[p])) i := by
  intro i hi
  have := congrFun₂ (int_Z h hS hT hi) x p
  rw [Jz_diag hS hi, ZT_diag h i hi, diagonal_mul, mul_diagonal, mul_comm] at this
  exact (mul_right_cancel₀ hne this).symm

end LieNN.LR
