import Verif.Proofs.LadderTensor
import Mathlib.Analysis.InnerProductSpace.PiL2
/-!
# Complete reducibility of a system of raising operators
-/
namespace LieNN.Ladder

open Matrix Finset

set_option linter.unusedSectionVars false

variable {κ : Type} [Fintype κ] [DecidableEq κ]

theorem exists_onb (H : Submodule ℂ (κ → ℂ)) : ∃ v : Fin (Module.finrank ℂ H) → κ → ℂ,
    (∀ a b, star (v a) ⬝ᵥ v b = if a = b then 1 else 0) ∧ Submodule.span ℂ (Set.range v) = H := by
  let e : EuclideanSpace ℂ κ ≃ₗ[ℂ] (κ → ℂ) := WithLp.linearEquiv 2 ℂ (κ → ℂ)
  let H' : Submodule ℂ (EuclideanSpace ℂ κ) := H.comap e.toLinearMap
  have hmap : H'.map e.toLinearMap = H := Submodule.map_comap_eq_of_surjective e.surjective H
  have hfr : Module.finrank ℂ H' = Module.finrank ℂ H := by
    rw [← hmap]
    exact (LinearEquiv.finrank_map_eq e H').symm
  let b := stdOrthonormalBasis ℂ H'
  refine ⟨fun a => e (b (Fin.cast hfr.symm a) : EuclideanSpace ℂ κ), fun a a' => ?_, ?_⟩
  · have h := orthonormal_iff_ite.1 b.orthonormal (Fin.cast hfr.symm a) (Fin.cast hfr.symm a')
    rw [Submodule.coe_inner, EuclideanSpace.inner_eq_star_dotProduct, dotProduct_comm] at h
    refine h.trans ?_
    simp
  · have h1 : Submodule.span ℂ (Set.range b) = ⊤ := by
      have := b.toBasis.span_eq
      rwa [b.coe_toBasis] at this
    have h2 := congrArg (fun K => (K.map H'.subtype).map e.toLinearMap) h1
    simp only [Submodule.map_span, Submodule.map_top, Submodule.range_subtype, hmap] at h2
    refine Eq.trans ?_ h2
    congr 1
    ext y
    constructor
    · rintro ⟨a, rfl⟩
      exact ⟨_, ⟨b (Fin.cast hfr.symm a), ⟨_, rfl⟩, rfl⟩, rfl⟩
    · rintro ⟨_, ⟨_, ⟨a, rfl⟩, rfl⟩, rfl⟩
      exact ⟨Fin.cast hfr a, rfl⟩

theorem dot_self_eq (x : κ → ℂ) : star x ⬝ᵥ x = ((∑ i, Complex.normSq (x i) : ℝ) : ℂ) := by
  rw [dotProduct]
  push_cast
  refine sum_congr rfl fun i _ => ?_
  rw [Pi.star_apply, Complex.star_def, ← Complex.normSq_eq_conj_mul_self]

variable {r : ℕ} {c : ℕ → ℕ → ℝ} {P Z : ℕ → Matrix κ κ ℂ} {ht : κ → ℤ}

/-- The weights of a vector that is killed are not negative. -/
theorem weight_nonneg (s : Sys r c P Z ht) {u : κ → ℂ} (hk : Killed r P u) (hu : u ≠ 0) {i : ℕ} (hi : i < r)
    {w : ℝ} (hw : Z i *ᵥ u = (w : ℂ) • u) : 0 ≤ w := by
  have h1 : star u ⬝ᵥ ((P i * (P i)ᴴ - (P i)ᴴ * P i) *ᵥ u) = ((2 * w : ℝ) : ℂ) * (star u ⬝ᵥ u) := by
    rw [s.comm i i hi hi, if_pos rfl, smul_mulVec, hw, dotProduct_smul, dotProduct_smul]
    push_cast
    simp only [smul_eq_mul]
    ring
  rw [sub_mulVec, ← mulVec_mulVec, ← mulVec_mulVec, hk i hi, mulVec_zero, sub_zero, adj_dot, dot_self_eq, dot_self_eq,
    ← Complex.ofReal_mul] at h1
  have h2 := Complex.ofReal_injective h1
  have h3 : 0 ≤ ∑ k, Complex.normSq (((P i)ᴴ *ᵥ u) k) := sum_nonneg fun k _ => Complex.normSq_nonneg _
  have h4 : 0 < ∑ k, Complex.normSq (u k) := by
    obtain ⟨k, hk⟩ := Function.ne_iff.1 hu
    exact sum_pos' (fun k _ => Complex.normSq_nonneg _) ⟨k, mem_univ k, Complex.normSq_pos.2 hk⟩
  rw [h2] at h3
  by_contra hcon
  have : 2 * w * ∑ k, Complex.normSq (u k) < 0 := mul_neg_of_neg_of_pos (by linarith) h4
  linarith

open Classical in
/-- The part of a vector with given weights. -/
noncomputable def part (r : ℕ) (z : ℕ → κ → ℂ) (w : ℕ → ℂ) (x : κ → ℂ) (k : κ) : ℂ :=
  if ∀ i < r, z i k = w i then x k else 0

theorem P_weight (s : Sys r c P Z ht) {z : ℕ → κ → ℂ} (hZ : ∀ i < r, Z i = diagonal (z i)) {l : ℕ} (hl : l < r)
    {j k : κ} (h : P l j k ≠ 0) {i : ℕ} (hi : i < r) : z i j = z i k + c i l := by
  have := congrFun₂ (s.ZP i l hi hl) j k
  rw [hZ i hi, Matrix.sub_apply, diagonal_mul, mul_diagonal, Matrix.smul_apply, smul_eq_mul] at this
  have h2 : (z i j - z i k - c i l) * P l j k = 0 := by linear_combination this
  rcases mul_eq_zero.1 h2 with h3 | h3
  · linear_combination h3
  · exact absurd h3 h

theorem part_killed (s : Sys r c P Z ht) {z : ℕ → κ → ℂ} (hZ : ∀ i < r, Z i = diagonal (z i)) {x : κ → ℂ}
    (hk : Killed r P x) (w : ℕ → ℂ) : Killed r P (part r z w x) := by
  classical
  intro l hl
  funext j
  rw [mulVec, dotProduct]
  by_cases hj : ∀ i < r, z i j = w i + c i l
  · have := congrFun (hk l hl) j
    rw [mulVec, dotProduct] at this
    refine Eq.trans (sum_congr rfl fun k _ => ?_) this
    by_cases hP : P l j k = 0
    · rw [hP, zero_mul, zero_mul]
    · congr 1
      refine if_pos fun i hi => ?_
      have := P_weight s hZ hl hP hi
      rw [hj i hi] at this
      exact (add_right_cancel this).symm
  · refine sum_eq_zero fun k _ => ?_
    by_contra hne
    apply hj
    intro i hi
    rw [P_weight s hZ hl (left_ne_zero_of_mul hne) hi]
    have h2 := right_ne_zero_of_mul hne
    have h3 : ∀ i < r, z i k = w i := by
      by_contra hcon
      exact h2 (if_neg hcon)
    rw [h3 i hi]

theorem part_weight {z : ℕ → κ → ℂ} (hZ : ∀ i < r, Z i = diagonal (z i)) (x : κ → ℂ) (w : ℕ → ℂ) {i : ℕ} (hi : i < r) :
    Z i *ᵥ part r z w x = w i • part r z w x := by
  classical
  funext k
  rw [hZ i hi, mulVec_diagonal, Pi.smul_apply, smul_eq_mul]
  unfold part
  split_ifs with h
  · rw [h i hi]
  · simp

/-! ## The decomposition -/

variable {A : Type} [Fintype A] [DecidableEq A] {ι : A → Type} [∀ a, Fintype (ι a)] [∀ a, DecidableEq (ι a)]

/-- The matrices `T a` side by side. -/
def side (T : ∀ a, Matrix κ (ι a) ℂ) : Matrix κ (Σ a, ι a) ℂ := Matrix.of fun k p => T p.1 k p.2

/-- Orthonormal columns that span all vectors that are killed and have a weight are a basis. -/
theorem complete (s : Sys r c P Z ht) {z : ℕ → κ → ℂ} (hZ : ∀ i < r, Z i = diagonal (z i))
    {PA : ∀ a, ℕ → Matrix (ι a) (ι a) ℂ} {zA : ∀ a, ℕ → ι a → ℂ} {T : ∀ a, Matrix κ (ι a) ℂ}
    (hM : ∀ a l, l < r → T a * (PA a l)ᴴ = (P l)ᴴ * T a)
    (hw : ∀ a k p, T a k p ≠ 0 → ∀ i < r, z i k = zA a i p)
    (horth : (side T)ᴴ * side T = 1)
    (hfull : ∀ u, u ≠ 0 → Killed r P u → ∀ w : ℕ → ℂ, (∀ i < r, Z i *ᵥ u = w i • u) → ∃ y, u = side T *ᵥ y) :
    side T * (side T)ᴴ = 1 := by
  classical
  by_contra hne
  have hU : ∀ x : κ → ℂ, (side T)ᴴ *ᵥ x = 0 ↔ ∀ a, (T a)ᴴ *ᵥ x = 0 := by
    intro x
    constructor
    · intro h a
      funext p
      exact congrFun h ⟨a, p⟩
    · intro h
      funext p
      exact congrFun (h p.1) p.2
  let U : Submodule ℂ (κ → ℂ) := LinearMap.ker (Matrix.mulVecLin (side T)ᴴ)
  have hmem : ∀ x, x ∈ U ↔ (side T)ᴴ *ᵥ x = 0 := fun x => by
    rw [LinearMap.mem_ker, mulVecLin_apply]
  obtain ⟨k, hk⟩ : ∃ k, (1 - side T * (side T)ᴴ) *ᵥ Pi.single k 1 ≠ 0 := by
    by_contra hcon
    push Not at hcon
    apply hne
    have h0 : (1 - side T * (side T)ᴴ) = 0 := by
      ext i j
      have := congrFun (hcon j) i
      rwa [mulVec_single_one] at this
    exact (sub_eq_zero.1 h0).symm
  have hkU : (1 - side T * (side T)ᴴ) *ᵥ Pi.single k 1 ∈ U := by
    rw [hmem, mulVec_mulVec, Matrix.mul_sub, Matrix.mul_one, ← Matrix.mul_assoc, horth, Matrix.one_mul, sub_self, zero_mulVec]
  obtain ⟨u, huU, hu0, huk⟩ := exists_killed s U (fun l hl x hx => by
    rw [hmem, hU] at hx ⊢
    intro a
    have h2 := congrArg conjTranspose (hM a l hl)
    rw [conjTranspose_mul, conjTranspose_mul, conjTranspose_conjTranspose, conjTranspose_conjTranspose] at h2
    rw [mulVec_mulVec, ← h2, ← mulVec_mulVec, hx a, mulVec_zero]) hkU hk
  obtain ⟨k₀, hk₀⟩ := Function.ne_iff.1 hu0
  let w : ℕ → ℂ := fun i => z i k₀
  have hp0 : part r z w u ≠ 0 := by
    intro h
    have := congrFun h k₀
    rw [part, if_pos fun i _ => rfl] at this
    exact hk₀ this
  obtain ⟨y, hy⟩ := hfull _ hp0 (part_killed s hZ huk w) w fun i hi => part_weight hZ u w hi
  have hpU : (side T)ᴴ *ᵥ part r z w u = 0 := by
    rw [hmem, hU] at huU
    rw [hU]
    intro a
    funext p
    rw [mulVec, dotProduct]
    by_cases hp : ∀ i < r, zA a i p = w i
    · have := congrFun (huU a) p
      rw [mulVec, dotProduct] at this
      refine Eq.trans (sum_congr rfl fun k _ => ?_) this
      by_cases hT : T a k p = 0
      · rw [conjTranspose_apply, hT, star_zero, zero_mul, zero_mul]
      · congr 1
        exact if_pos fun i hi => (hw a k p hT i hi).trans (hp i hi)
    · refine sum_eq_zero fun k _ => ?_
      by_contra hne'
      apply hp
      intro i hi
      have h1 : T a k p ≠ 0 := by
        intro h
        exact (left_ne_zero_of_mul hne') (by rw [conjTranspose_apply, h, star_zero])
      have h3 : ∀ i < r, z i k = w i := by
        by_contra hcon
        exact (right_ne_zero_of_mul hne') (if_neg hcon)
      rw [← hw a k p h1 i hi, h3 i hi]
  rw [hy, mulVec_mulVec, horth, one_mulVec] at hpU
  rw [hpU, mulVec_zero] at hy
  exact hp0 hy

/-- Both bases have the same weights. -/
theorem count_eq {T : ∀ a, Matrix κ (ι a) ℂ} (horth : (side T)ᴴ * side T = 1) (hfull : side T * (side T)ᴴ = 1)
    {F : κ → ℂ} {G : (Σ a, ι a) → ℂ} (h : ∀ k p, side T k p ≠ 0 → F k = G p) : ∑ k, F k = ∑ p, G p := by
  have h1 : ∀ k, ∑ p, side T k p * star (side T k p) = 1 := by
    intro k
    have := congrFun₂ hfull k k
    rwa [mul_apply, one_apply_eq] at this
  have h2 : ∀ p, ∑ k, star (side T k p) * side T k p = 1 := by
    intro p
    have := congrFun₂ horth p p
    rwa [mul_apply, one_apply_eq] at this
  calc ∑ k, F k = ∑ k, ∑ p, F k * (side T k p * star (side T k p)) := by
        refine sum_congr rfl fun k _ => ?_
        rw [← mul_sum, h1, mul_one]
    _ = ∑ k, ∑ p, G p * (star (side T k p) * side T k p) := by
        refine sum_congr rfl fun k _ => sum_congr rfl fun p _ => ?_
        by_cases h0 : side T k p = 0
        · rw [h0]; simp
        · rw [h k p h0, mul_comm (side T k p)]
    _ = ∑ p, G p := by
        rw [sum_comm]
        refine sum_congr rfl fun p _ => ?_
        rw [← mul_sum, h2, mul_one]

/-- An intertwiner vanishes when the highest vectors have different weights. -/
theorem intertwiner_zero {ι κ : Type} [Fintype ι] [DecidableEq ι] [Fintype κ] [DecidableEq κ]
    {P Z : ℕ → Matrix ι ι ℂ} {ht : ι → ℤ} {P' Z' : ℕ → Matrix κ κ ℂ} {ht' : κ → ℤ}
    (s : Sys r c P Z ht) (s' : Sys r c P' Z' ht') {top : ι} {top' : κ} (t : Top r P top) (t' : Top r P' top')
    {T : Matrix κ ι ℂ} (hP : ∀ l, l < r → T * P l = P' l * T) (hM : ∀ l, l < r → T * (P l)ᴴ = (P' l)ᴴ * T)
    {i : ℕ} (hi : i < r) {a a' : ℂ} (ha : Z i *ᵥ Pi.single top 1 = a • Pi.single top 1)
    (ha' : Z' i *ᵥ Pi.single top' 1 = a' • Pi.single top' 1) (hne : a ≠ a') : T = 0 := by
  refine intertwiner_unique s t T hP hM ?_
  obtain ⟨b, hb⟩ := t'.only (T *ᵥ Pi.single top 1) fun l hl => by
    rw [mulVec_mulVec, ← hP l hl, ← mulVec_mulVec, t.killed l hl, mulVec_zero]
  by_cases hb0 : b = 0
  · rw [hb, hb0, zero_smul]
  exfalso
  have hZ : T * Z i = Z' i * T := by
    have e1 := s.comm i i hi hi
    have e2 := s'.comm i i hi hi
    rw [if_pos rfl] at e1 e2
    refine smul_right_injective _ (two_ne_zero (α := ℂ)) ?_
    change (2 : ℂ) • (T * Z i) = (2 : ℂ) • (Z' i * T)
    rw [← Matrix.mul_smul, ← Matrix.smul_mul, ← e1, ← e2, Matrix.mul_sub, Matrix.sub_mul, ← Matrix.mul_assoc, hP i hi,
      Matrix.mul_assoc, hM i hi, ← Matrix.mul_assoc T, hM i hi, Matrix.mul_assoc _ T, hP i hi]
    simp only [Matrix.mul_assoc]
  have e3 := congrArg (fun x => T *ᵥ x) ha
  simp only [mulVec_mulVec, mulVec_smul] at e3
  rw [hZ, ← mulVec_mulVec, hb, mulVec_smul, ha'] at e3
  have e4 := congrFun e3 top'
  simp only [Pi.smul_apply, Pi.single_eq_same, smul_eq_mul, mul_one] at e4
  rw [mul_comm b] at e4
  exact hne (mul_right_cancel₀ hb0 e4).symm

end LieNN.Ladder
