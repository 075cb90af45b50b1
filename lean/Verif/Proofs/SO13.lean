import Verif.Proofs.SL2CCG
import Verif.Proofs.Intertwiner
import Mathlib.Algebra.Algebra.Subalgebra.Lattice
/-!
# `SO13`
-/
namespace LieNN

open Finset Matrix

namespace SL2C

/-- Only scalars commute with both families. -/
theorem commutant₂ {l k : ℕ} (M : Matrix (Fin (l + 1) × Fin (k + 1)) (Fin (l + 1) × Fin (k + 1)) ℂ)
    (hl : ∀ a, M * Zl l k a = Zl l k a * M) (hr : ∀ a, M * Zr l k a = Zr l k a * M) :
    ∃ c : ℂ, M = c • 1 := by
  have h1 : ∀ g g' : Fin (k + 1), ∃ c : ℂ,
      (Matrix.of fun d d' => M (d, g) (d', g') : Matrix (Fin (l + 1)) (Fin (l + 1)) ℂ) = c • 1 := by
    intro g g'
    refine SU2.commutant _ fun a => ?_
    ext d d'
    have e := congrFun (congrFun (hl a) (d, g)) (d', g')
    rw [Matrix.mul_apply, Matrix.mul_apply, Fintype.sum_prod_type, Fintype.sum_prod_type] at e
    rw [Matrix.mul_apply, Matrix.mul_apply]
    simp only [Zl, kroneckerMap_apply, Matrix.one_apply, mul_ite, mul_one, mul_zero, ite_mul, zero_mul,
      Finset.sum_ite_eq, Finset.sum_ite_eq', Finset.mem_univ, if_true] at e
    exact e
  choose N hN using h1
  have hM : ∀ d d' g g', M (d, g) (d', g') = if d = d' then N g g' else 0 := by
    intro d d' g g'
    have e := congrFun (congrFun (hN g g') d) d'
    rw [Matrix.of_apply] at e
    rw [e, Matrix.smul_apply, Matrix.one_apply]
    simp
  have h2 : ∃ c : ℂ, ((Matrix.of N).map star : Matrix (Fin (k + 1)) (Fin (k + 1)) ℂ) = c • 1 := by
    refine SU2.commutant _ fun a => ?_
    ext g g'
    have e := congrFun (congrFun (hr a) (0, g)) (0, g')
    rw [Matrix.mul_apply, Matrix.mul_apply, Fintype.sum_prod_type, Fintype.sum_prod_type] at e
    simp only [Zr, kroneckerMap_apply, Matrix.one_apply, mul_ite, mul_one, mul_zero, ite_mul, zero_mul, one_mul,
      hM, Finset.sum_ite_irrel, Finset.sum_const_zero,
      Finset.sum_ite_eq, Finset.sum_ite_eq', Finset.mem_univ, if_true] at e
    have e2 := congrArg star e
    simp only [Matrix.map_apply, star_sum, star_mul', star_star] at e2
    rw [Matrix.mul_apply, Matrix.mul_apply]
    simpa using e2
  obtain ⟨c, hc⟩ := h2
  refine ⟨star c, ?_⟩
  ext ⟨d, g⟩ ⟨d', g'⟩
  rw [hM]
  have e := congrArg star (congrFun (congrFun hc g) g')
  rw [Matrix.map_apply, star_star, Matrix.of_apply, Matrix.smul_apply] at e
  rw [e, Matrix.smul_apply, Matrix.one_apply, Matrix.one_apply]
  simp only [Prod.mk.injEq]
  by_cases h3 : d = d' <;> by_cases h4 : g = g' <;> simp [h3, h4]

theorem Zl_of_Z (l k : ℕ) (a : Fin 3) :
    Zl l k a = (1 / 2 : ℂ) • (Z l k (Fin.castAdd 3 a) + Z l k (Fin.natAdd 3 a)) := by
  rw [Z_castAdd, Z_natAdd]
  rw [show Zl l k a + Zr l k a + (Zl l k a - Zr l k a) = (2 : ℂ) • Zl l k a by rw [two_smul]; abel, smul_smul]
  norm_num

theorem Zr_of_Z (l k : ℕ) (a : Fin 3) :
    Zr l k a = (1 / 2 : ℂ) • (Z l k (Fin.castAdd 3 a) - Z l k (Fin.natAdd 3 a)) := by
  rw [Z_castAdd, Z_natAdd]
  rw [show Zl l k a + Zr l k a - (Zl l k a - Zr l k a) = (2 : ℂ) • Zr l k a by rw [two_smul]; abel, smul_smul]
  norm_num

/-- Conjugating an intertwiner into the product basis. -/
theorem toZ {l k l' k' : ℕ} {U : Matrix (Fin (l + 1) × Fin (k + 1)) (Fin (l + 1) × Fin (k + 1)) ℂ}
    {V : Matrix (Fin (l' + 1) × Fin (k' + 1)) (Fin (l' + 1) × Fin (k' + 1)) ℂ}
    {S : Matrix (Fin ((l + 1) * (k + 1))) (Fin ((l' + 1) * (k' + 1))) ℂ}
    (h : (B l k)ᵀ * U * B l k * S = S * ((B l' k')ᵀ * V * B l' k')) :
    U * (B l k * S * (B l' k')ᵀ) = (B l k * S * (B l' k')ᵀ) * V := by
  calc _ = (B l k * (B l k)ᵀ) * U * (B l k * S * (B l' k')ᵀ) := by rw [B_mul, Matrix.one_mul]
    _ = B l k * ((B l k)ᵀ * U * B l k * S) * (B l' k')ᵀ := by simp only [Matrix.mul_assoc]
    _ = B l k * S * (B l' k')ᵀ * V * (B l' k' * (B l' k')ᵀ) := by rw [h]; simp only [Matrix.mul_assoc]
    _ = _ := by rw [B_mul, Matrix.mul_one]

theorem fromZ {l k l' k' : ℕ} (S : Matrix (Fin ((l + 1) * (k + 1))) (Fin ((l' + 1) * (k' + 1))) ℂ) :
    (B l k)ᵀ * (B l k * S * (B l' k')ᵀ) * B l' k' = S := by
  calc _ = ((B l k)ᵀ * B l k) * S * ((B l' k')ᵀ * B l' k') := by simp only [Matrix.mul_assoc]
    _ = S := by rw [B_mul', B_mul', Matrix.one_mul, Matrix.mul_one]

theorem commutant (r : SL2C) (S : Matrix (Fin r.dim) (Fin r.dim) ℂ)
    (hS : ∀ a, S * (rep r).X a = (rep r).X a * S) : ∃ c : ℂ, S = c • 1 := by
  have hZ : ∀ i, Z r.l r.k i * (B r.l r.k * S * (B r.l r.k)ᵀ) = (B r.l r.k * S * (B r.l r.k)ᵀ) * Z r.l r.k i := by
    intro i
    have := hS i
    rw [rep_X] at this
    exact toZ this.symm
  obtain ⟨c, hc⟩ := commutant₂ (B r.l r.k * S * (B r.l r.k)ᵀ)
    (fun a => by rw [Zl_of_Z, Matrix.mul_smul, Matrix.smul_mul, Matrix.mul_add, Matrix.add_mul, hZ, hZ])
    (fun a => by rw [Zr_of_Z, Matrix.mul_smul, Matrix.smul_mul, Matrix.mul_sub, Matrix.sub_mul, hZ, hZ])
  refine ⟨c, ?_⟩
  have h := fromZ (l := r.l) (k := r.k) (l' := r.l) (k' := r.k) S
  rw [hc, Matrix.mul_smul, Matrix.smul_mul, Matrix.mul_one, B_mul'] at h
  exact h.symm

theorem skew (r : SL2C) (i : Fin 6) : ((rep r).X i)ᴴ = -(rep r).X i := by
  have hl : ∀ a, (Zl r.l r.k a)ᴴ = -Zl r.l r.k a := by
    intro a
    have e : (Zl r.l r.k a)ᴴ = kroneckerMap (· * ·) (SU2.gens r.l a)ᴴ 1ᴴ := Matrix.conjTranspose_kronecker _ _
    rw [e, SU2.skew, Matrix.conjTranspose_one]
    ext x y
    simp [Zl, kroneckerMap_apply]
  have hr : ∀ a, (Zr r.l r.k a)ᴴ = -Zr r.l r.k a := by
    intro a
    have e : (Zr r.l r.k a)ᴴ = kroneckerMap (· * ·) 1ᴴ ((SU2.gens r.k a).map star)ᴴ :=
      Matrix.conjTranspose_kronecker _ _
    have e2 : ((SU2.gens r.k a).map star)ᴴ = -(SU2.gens r.k a).map star := by
      have := congrArg (fun M : Matrix _ _ ℂ => M.map star) (SU2.skew (j := r.k) a)
      ext x y
      have h := congrFun (congrFun this x) y
      simpa using h
    rw [e, e2, Matrix.conjTranspose_one]
    ext x y
    simp [Zr, kroneckerMap_apply]
  have hZ : (Z r.l r.k i)ᴴ = -Z r.l r.k i := by
    unfold Z
    split_ifs
    · rw [Matrix.conjTranspose_add, hl, hr]; abel
    · rw [Matrix.conjTranspose_sub, hl, hr]; abel
  rw [rep_X, Matrix.conjTranspose_mul, Matrix.conjTranspose_mul, hZ, B_conj]
  have : ((B r.l r.k)ᵀ)ᴴ = B r.l r.k := by
    rw [← B_conj, Matrix.conjTranspose_conjTranspose]
  rw [this, Matrix.neg_mul, Matrix.mul_neg, Matrix.mul_assoc]

/-- Families with different Casimir values have no intertwiner. -/
theorem casimir_zero {ι κ : Type*} [Fintype ι] [Fintype κ] [DecidableEq ι] [DecidableEq κ]
    {F : Fin 3 → Matrix ι ι ℂ} {F' : Fin 3 → Matrix κ κ ℂ} {m m' : ℕ}
    (hc : ∑ a, F a * F a = (-((m / 2 : ℂ) * (m / 2 + 1))) • 1)
    (hc' : ∑ a, F' a * F' a = (-((m' / 2 : ℂ) * (m' / 2 + 1))) • 1) {T : Matrix ι κ ℂ}
    (hF : ∀ a, F a * T = T * F' a) (hm : m ≠ m') : T = 0 := by
  have hx : ∀ x, F x * F x * T = T * (F' x * F' x) := by
    intro x
    rw [Matrix.mul_assoc, hF x, ← Matrix.mul_assoc, hF x, Matrix.mul_assoc]
  have hs : (∑ x, F x * F x) * T = T * ∑ x, F' x * F' x := by
    rw [Matrix.sum_mul, Matrix.mul_sum]
    exact Finset.sum_congr rfl fun x _ => hx x
  rw [hc, hc', Matrix.smul_mul, Matrix.mul_smul, Matrix.one_mul, Matrix.mul_one,
    ← sub_eq_zero, ← sub_smul, smul_eq_zero] at hs
  rcases hs with hs | hs
  · exfalso
    have h2 : ((m : ℂ) - m') * (m + m' + 2) = 0 := by
      linear_combination (-4) * hs
    rcases mul_eq_zero.1 h2 with h3 | h3
    · exact hm (by exact_mod_cast sub_eq_zero.1 h3)
    · have : ((m + m' + 2 : ℕ) : ℂ) = 0 := by push_cast; exact h3
      rw [Nat.cast_eq_zero] at this; omega
  · exact hs

theorem map_star_mul {ι κ μ : Type*} [Fintype κ] (M : Matrix ι κ ℂ) (N : Matrix κ μ ℂ) :
    (M * N).map star = M.map star * N.map star :=
  Matrix.map_mul (f := starRingEnd ℂ)

theorem map_star_star {ι κ : Type*} (M : Matrix ι κ ℂ) : (M.map star).map star = M := by
  ext x y; simp

theorem casimir_conj {ι : Type*} [Fintype ι] [DecidableEq ι] {F : Fin 3 → Matrix ι ι ℂ} {m : ℕ}
    (hc : ∑ a, F a * F a = (-((m / 2 : ℂ) * (m / 2 + 1))) • 1) :
    ∑ a, (F a).map star * (F a).map star = (-((m / 2 : ℂ) * (m / 2 + 1))) • 1 := by
  ext x y
  have e := congrArg (starRingEnd ℂ) (congrFun (congrFun hc x) y)
  rw [Matrix.sum_apply, map_sum] at e
  rw [Matrix.sum_apply]
  simp only [← map_star_mul, Matrix.map_apply]
  refine e.trans ?_
  simp only [Matrix.smul_apply, Matrix.one_apply, smul_eq_mul, map_mul, map_neg, map_add, map_div₀,
      map_natCast, map_one, map_ofNat]
  split_ifs <;> simp

theorem Zl_casimir (l k : ℕ) : ∑ a, Zl l k a * Zl l k a = (-((l / 2 : ℂ) * (l / 2 + 1))) • 1 := by
  unfold Zl
  simp only [← Matrix.mul_kronecker_mul, Matrix.one_mul]
  ext x y
  have e := congrFun (congrFun (SU2.casimir (j := l)) x.1) y.1
  rw [Matrix.sum_apply] at e ⊢
  simp only [kroneckerMap_apply]
  rw [← Finset.sum_mul, e]
  simp only [Matrix.smul_apply, Matrix.one_apply, Prod.ext_iff]
  by_cases h1 : x.1 = y.1 <;> by_cases h2 : x.2 = y.2 <;> simp [h1, h2]

theorem Zr_casimir (l k : ℕ) : ∑ a, Zr l k a * Zr l k a = (-((k / 2 : ℂ) * (k / 2 + 1))) • 1 := by
  unfold Zr
  simp only [← Matrix.mul_kronecker_mul, Matrix.one_mul]
  ext x y
  have e := congrFun (congrFun (casimir_conj (SU2.casimir (j := k))) x.2) y.2
  rw [Matrix.sum_apply] at e ⊢
  simp only [kroneckerMap_apply]
  rw [← Finset.mul_sum, e]
  simp only [Matrix.smul_apply, Matrix.one_apply, Prod.ext_iff]
  by_cases h1 : x.1 = y.1 <;> by_cases h2 : x.2 = y.2 <;> simp [h1, h2]

/-- Different labels are not equivalent. -/
theorem inequivalent {r s : SL2C} (hrs : r ≠ s) (S : Matrix (Fin r.dim) (Fin s.dim) ℂ)
    (hS : ∀ a, (rep r).X a * S = S * (rep s).X a) : S = 0 := by
  set T := B r.l r.k * S * (B s.l s.k)ᵀ with hT
  have hZ : ∀ i, Z r.l r.k i * T = T * Z s.l s.k i := by
    intro i
    have := hS i
    rw [rep_X, rep_X] at this
    exact toZ this
  have hl : ∀ a, Zl r.l r.k a * T = T * Zl s.l s.k a := fun a => by
    rw [Zl_of_Z, Zl_of_Z, Matrix.mul_smul, Matrix.smul_mul, Matrix.mul_add, Matrix.add_mul, hZ, hZ]
  have hr : ∀ a, Zr r.l r.k a * T = T * Zr s.l s.k a := fun a => by
    rw [Zr_of_Z, Zr_of_Z, Matrix.mul_smul, Matrix.smul_mul, Matrix.mul_sub, Matrix.sub_mul, hZ, hZ]
  have hT0 : T = 0 := by
    by_cases h1 : r.l = s.l
    · have h2 : r.k ≠ s.k := fun h2 => hrs (by cases r; cases s; simp_all)
      exact casimir_zero (Zr_casimir _ _) (Zr_casimir _ _) hr h2
    · exact casimir_zero (Zl_casimir _ _) (Zl_casimir _ _) hl h1
  have h := fromZ (l := r.l) (k := r.k) (l' := s.l) (k' := s.k) S
  rw [← hT, hT0, Matrix.mul_zero, Matrix.zero_mul] at h
  exact h.symm

end SL2C

namespace SO13

open SL2C

theorem boost_castAdd {d : ℕ} (X : Fin 6 → Matrix (Fin d) (Fin d) ℂ) (a : Fin 3) :
    boost X (Fin.castAdd 3 a) = X (Fin.castAdd 3 a) := if_pos a.2

theorem boost_natAdd {d : ℕ} (X : Fin 6 → Matrix (Fin d) (Fin d) ℂ) (a : Fin 3) :
    boost X (Fin.natAdd 3 a) = Complex.I • X (Fin.natAdd 3 a) := if_neg (by simp)

/-- Multiplying the last three generators by `i` changes the sign of their brackets. -/
theorem boost_bracket {d : ℕ} {X : Fin 6 → Matrix (Fin d) (Fin d) ℂ}
    (h : ∀ i j, X i * X j - X j * X i = ∑ k, SL2C.algebra i j k • X k) (i j : Fin 6) :
    boost X i * boost X j - boost X j * boost X i = ∑ k, algebra i j k • boost X k := by
  have split : ∀ f : Fin 6 → Matrix (Fin d) (Fin d) ℂ, ∑ k, f k =
      ∑ c : Fin 3, f (Fin.castAdd 3 c) + ∑ c : Fin 3, f (Fin.natAdd 3 c) := fun f =>
    Fin.sum_univ_add (a := 3) (b := 3) f
  have H := algZ_XX 1 (by simp)
  refine bracket_six (s := -1) (by simp) (fun a => X (Fin.castAdd 3 a)) (fun a => Complex.I • X (Fin.natAdd 3 a))
    (boost X) (boost_castAdd X) (boost_natAdd X) ?_ ?_ ?_ ?_ i j
  · intro a b
    rw [h, split]
    simp only [SL2C.algebra, (H a b _).1, (H a b _).2.1, Int.cast_zero, zero_smul, Finset.sum_const_zero, add_zero]
  · intro a b
    rw [Matrix.mul_smul, Matrix.smul_mul, ← smul_sub, h, split]
    simp only [SL2C.algebra, (H a b _).2.2.1, (H a b _).2.2.2.1, Int.cast_zero, zero_smul, Finset.sum_const_zero,
      zero_add, Finset.smul_sum]
    exact Finset.sum_congr rfl fun c _ => smul_comm _ _ _
  · intro a b
    rw [Matrix.mul_smul, Matrix.smul_mul, ← smul_sub, h, split]
    simp only [SL2C.algebra, (H a b _).2.2.2.2.1, (H a b _).2.2.2.2.2.1, Int.cast_zero, zero_smul,
      Finset.sum_const_zero, zero_add, Finset.smul_sum]
    exact Finset.sum_congr rfl fun c _ => smul_comm _ _ _
  · intro a b
    rw [Matrix.mul_smul, Matrix.smul_mul, Matrix.mul_smul, Matrix.smul_mul, smul_smul, smul_smul,
      Complex.I_mul_I, ← smul_sub, h, split]
    simp only [SL2C.algebra, (H a b _).2.2.2.2.2.2.1, (H a b _).2.2.2.2.2.2.2, Int.cast_zero, zero_smul,
      Finset.sum_const_zero, add_zero, one_mul]
    norm_num

/-- The generators of `SO13` before they are made real. -/
noncomputable def X₀ (r : SL2C) : Fin 6 → Matrix (Fin r.dim) (Fin r.dim) ℂ := boost (SL2C.rep r).X

theorem X₀_bracket (r : SL2C) (i j : Fin 6) :
    X₀ r i * X₀ r j - X₀ r j * X₀ r i = ∑ k, algebra i j k • X₀ r k :=
  boost_bracket (SL2C.isRep r) i j

/-- Swap of the two factors. -/
def swapM (l : ℕ) : Matrix (Fin (l + 1) × Fin (l + 1)) (Fin (l + 1) × Fin (l + 1)) ℂ :=
  (1 : Matrix (Fin (l + 1) × Fin (l + 1)) (Fin (l + 1) × Fin (l + 1)) ℂ).submatrix id Prod.swap

theorem swapM_mul (l : ℕ) (M : Matrix (Fin (l + 1) × Fin (l + 1)) (Fin (l + 1) × Fin (l + 1)) ℂ) :
    swapM l * M = M.submatrix Prod.swap id := by
  ext x y
  rw [Matrix.mul_apply, Finset.sum_eq_single x.swap]
  · rw [swapM, Matrix.submatrix_apply, Prod.swap_swap, id, Matrix.one_apply_eq, one_mul]; rfl
  · intro z _ hz
    rw [swapM, Matrix.submatrix_apply, Matrix.one_apply_ne, zero_mul]
    rintro rfl
    exact hz (by simp)
  · simp

theorem mul_swapM (l : ℕ) (M : Matrix (Fin (l + 1) × Fin (l + 1)) (Fin (l + 1) × Fin (l + 1)) ℂ) :
    M * swapM l = M.submatrix id Prod.swap :=
  (show M * swapM l = (M * 1).submatrix id Prod.swap from rfl).trans (by rw [Matrix.mul_one])

theorem swapM_sq (l : ℕ) : swapM l * swapM l = 1 := by
  rw [swapM_mul]
  ext x y
  simp only [swapM, Matrix.submatrix_apply, id, Matrix.one_apply, Prod.swap_inj]

theorem swap_Zl (l : ℕ) (a : Fin 3) : swapM l * Zl l l a = (Zr l l a).map star * swapM l := by
  rw [swapM_mul, mul_swapM]
  ext x y
  simp only [Zl, Zr, Matrix.submatrix_apply, kroneckerMap_apply, Matrix.map_apply, id, Prod.fst_swap, Prod.snd_swap,
    star_mul', star_star, Matrix.one_apply]
  by_cases h : x.1 = y.2 <;> simp [h]

theorem swap_Zr (l : ℕ) (a : Fin 3) : swapM l * Zr l l a = (Zl l l a).map star * swapM l := by
  rw [swapM_mul, mul_swapM]
  ext x y
  simp only [Zl, Zr, Matrix.submatrix_apply, kroneckerMap_apply, Matrix.map_apply, id, Prod.fst_swap, Prod.snd_swap,
    star_mul', Matrix.one_apply]
  by_cases h : x.2 = y.1 <;> simp [h]

theorem swapM_star (l : ℕ) : (swapM l).map star = swapM l := by
  ext x y
  simp only [swapM, Matrix.map_apply, Matrix.submatrix_apply, Matrix.one_apply]
  split_ifs <;> simp

theorem B_star (l k : ℕ) : (B l k).map star = B l k := by
  ext x y; exact Complex.conj_ofReal _

theorem Bt_star (l k : ℕ) : (B l k)ᵀ.map star = (B l k)ᵀ := by
  ext x y; exact Complex.conj_ofReal _

/-- An intertwiner from the generators to their conjugates, in the product basis. -/
theorem inter_Z {r : SL2C} {S : Matrix (Fin r.dim) (Fin r.dim) ℂ}
    (hS : ∀ a, (X₀ r a).map star * S = S * X₀ r a) :
    (∀ a, (Zl r.l r.k a).map star * (B r.l r.k * S * (B r.l r.k)ᵀ) = (B r.l r.k * S * (B r.l r.k)ᵀ) * Zr r.l r.k a) ∧
    (∀ a, (Zr r.l r.k a).map star * (B r.l r.k * S * (B r.l r.k)ᵀ) = (B r.l r.k * S * (B r.l r.k)ᵀ) * Zl r.l r.k a) := by
  set T := B r.l r.k * S * (B r.l r.k)ᵀ with hT
  have h1 : ∀ a, ((Zl r.l r.k a).map star + (Zr r.l r.k a).map star) * T = T * (Zl r.l r.k a + Zr r.l r.k a) := by
    intro a
    have h := hS (Fin.castAdd 3 a)
    unfold X₀ at h
    rw [boost_castAdd, rep_X, map_star_mul, map_star_mul, B_star, Bt_star] at h
    have h2 := toZ h
    rw [Z_castAdd] at h2
    rw [← h2]
    congr 1
    ext x y; simp
  have h2 : ∀ a, ((Zl r.l r.k a).map star - (Zr r.l r.k a).map star) * T = -(T * (Zl r.l r.k a - Zr r.l r.k a)) := by
    intro a
    have h := hS (Fin.natAdd 3 a)
    unfold X₀ at h
    have e : (Complex.I • (SL2C.rep r).X (Fin.natAdd 3 a)).map star =
        (-Complex.I) • ((SL2C.rep r).X (Fin.natAdd 3 a)).map star := by
      ext x y; simp
    rw [boost_natAdd, e, rep_X, map_star_mul, map_star_mul, B_star, Bt_star, Matrix.smul_mul, Matrix.mul_smul] at h
    have h3 := congrArg (fun M => Complex.I • M) h
    simp only [smul_smul] at h3
    rw [show Complex.I * -Complex.I = 1 by simp, show Complex.I * Complex.I = -1 by simp, one_smul, neg_one_smul] at h3
    have h4 : (B r.l r.k)ᵀ * (Z r.l r.k (Fin.natAdd 3 a)).map star * B r.l r.k * S =
        S * ((B r.l r.k)ᵀ * (-Z r.l r.k (Fin.natAdd 3 a)) * B r.l r.k) := by
      rw [h3, Matrix.mul_neg, Matrix.neg_mul, Matrix.mul_neg]
    have h5 := toZ h4
    rw [Z_natAdd, Matrix.mul_neg] at h5
    rw [← h5]
    congr 1
    ext x y; simp
  have key : ∀ M N : Matrix (Fin (r.l + 1) × Fin (r.k + 1)) (Fin (r.l + 1) × Fin (r.k + 1)) ℂ,
      M + M = N + N → M = N := by
    intro M N h
    have := congrArg (fun M => (1 / 2 : ℂ) • M) h
    simp only [smul_add, ← add_smul] at this
    norm_num at this
    exact this
  refine ⟨fun a => key _ _ ?_, fun a => key _ _ ?_⟩
  · have e1 := h1 a
    have e2 := h2 a
    rw [Matrix.add_mul, Matrix.mul_add] at e1
    rw [Matrix.sub_mul, Matrix.mul_sub] at e2
    have := congrArg₂ (· + ·) e1 e2
    rw [show ∀ x y : Matrix (Fin (r.l + 1) × Fin (r.k + 1)) (Fin (r.l + 1) × Fin (r.k + 1)) ℂ,
      x + y + (x - y) = x + x from fun x y => by abel] at this
    rw [this]; abel
  · have e1 := h1 a
    have e2 := h2 a
    rw [Matrix.add_mul, Matrix.mul_add] at e1
    rw [Matrix.sub_mul, Matrix.mul_sub] at e2
    have := congrArg₂ (· - ·) e1 e2
    rw [show ∀ x y : Matrix (Fin (r.l + 1) × Fin (r.k + 1)) (Fin (r.l + 1) × Fin (r.k + 1)) ℂ,
      x + y - (x - y) = y + y from fun x y => by abel] at this
    rw [this]; abel

/-- For `l ≠ k` the irrep is not equivalent to its conjugate. -/
theorem inter_ne {r : SL2C} (hr : r.l ≠ r.k) {S : Matrix (Fin r.dim) (Fin r.dim) ℂ}
    (hS : ∀ a, (X₀ r a).map star * S = S * X₀ r a) : S = 0 := by
  have h0 := casimir_zero (casimir_conj (Zl_casimir r.l r.k)) (Zr_casimir r.l r.k) (inter_Z hS).1 hr
  have h := fromZ (l := r.l) (k := r.k) (l' := r.l) (k' := r.k) S
  rw [h0, Matrix.mul_zero, Matrix.zero_mul] at h
  exact h.symm

/-- The intertwiner for `l = k`. -/
noncomputable def V (l : ℕ) : Matrix (Fin ((l + 1) * (l + 1))) (Fin ((l + 1) * (l + 1))) ℂ :=
  (B l l)ᵀ * swapM l * B l l

theorem V_sq (l : ℕ) : V l * V l = 1 := by
  unfold V
  calc _ = (B l l)ᵀ * swapM l * (B l l * (B l l)ᵀ) * swapM l * B l l := by simp only [Matrix.mul_assoc]
    _ = (B l l)ᵀ * (swapM l * swapM l) * B l l := by rw [B_mul, Matrix.mul_one]; simp only [Matrix.mul_assoc]
    _ = 1 := by rw [swapM_sq, Matrix.mul_one, B_mul']

theorem V_star (l : ℕ) : (V l).map star = V l := by
  unfold V
  rw [map_star_mul, map_star_mul, B_star, Bt_star, swapM_star]

theorem V_inter (l : ℕ) (a : Fin 6) : (X₀ ⟨l, l⟩ a).map star * V l = V l * X₀ ⟨l, l⟩ a := by
  have key : ∀ U W : Matrix (Fin (l + 1) × Fin (l + 1)) (Fin (l + 1) × Fin (l + 1)) ℂ,
      W * swapM l = swapM l * U → (B l l)ᵀ * W * B l l * V l = V l * ((B l l)ᵀ * U * B l l) := by
    intro U W h
    unfold V
    calc _ = (B l l)ᵀ * W * (B l l * (B l l)ᵀ) * swapM l * B l l := by simp only [Matrix.mul_assoc]
      _ = (B l l)ᵀ * (W * swapM l) * B l l := by rw [B_mul, Matrix.mul_one]; simp only [Matrix.mul_assoc]
      _ = (B l l)ᵀ * swapM l * (B l l * (B l l)ᵀ) * U * B l l := by
        rw [h, B_mul, Matrix.mul_one]; simp only [Matrix.mul_assoc]
      _ = _ := by simp only [Matrix.mul_assoc]
  obtain ⟨a, rfl⟩ | ⟨a, rfl⟩ : (∃ b : Fin 3, a = Fin.castAdd 3 b) ∨ ∃ b : Fin 3, a = Fin.natAdd 3 b := by
    revert a; decide
  · unfold X₀
    rw [boost_castAdd, rep_X, map_star_mul, map_star_mul, B_star, Bt_star]
    refine key _ _ ?_
    rw [Z_castAdd, Matrix.mul_add, swap_Zl, swap_Zr, ← Matrix.add_mul]
    congr 1
    ext x y
    simp only [Matrix.map_apply, Matrix.add_apply, star_add]; ring
  · unfold X₀
    have e : (Complex.I • (SL2C.rep ⟨l, l⟩).X (Fin.natAdd 3 a)).map star =
        (-Complex.I) • ((SL2C.rep ⟨l, l⟩).X (Fin.natAdd 3 a)).map star := by
      ext x y; simp
    rw [boost_natAdd, e, rep_X, map_star_mul, map_star_mul, B_star, Bt_star, Matrix.smul_mul, Matrix.mul_smul,
      neg_smul, ← smul_neg]
    congr 1
    rw [← Matrix.neg_mul, ← Matrix.neg_mul, ← Matrix.mul_neg]
    refine key _ _ ?_
    rw [Z_natAdd, Matrix.mul_sub, swap_Zl, swap_Zr, ← Matrix.sub_mul]
    congr 1
    ext x y
    simp only [Matrix.map_apply, Matrix.sub_apply, Matrix.neg_apply, star_sub]; ring

/-- For `l = k` the intertwiners are the multiples of `V`. -/
theorem inter_eq {l : ℕ} {S : Matrix (Fin ((l + 1) * (l + 1))) (Fin ((l + 1) * (l + 1))) ℂ}
    (hS : ∀ a, (X₀ ⟨l, l⟩ a).map star * S = S * X₀ ⟨l, l⟩ a) : ∃ c : ℂ, S = c • V l := by
  obtain ⟨h1, h2⟩ := inter_Z (r := ⟨l, l⟩) hS
  dsimp only at h1 h2
  set T := B l l * S * (B l l)ᵀ with hT
  have sl : ∀ a, swapM l * (Zr l l a).map star = Zl l l a * swapM l := by
    intro a
    calc swapM l * (Zr l l a).map star = swapM l * ((Zr l l a).map star * swapM l) * swapM l := by
          rw [Matrix.mul_assoc, Matrix.mul_assoc, swapM_sq, Matrix.mul_one]
      _ = _ := by rw [← swap_Zl, ← Matrix.mul_assoc, swapM_sq, Matrix.one_mul]
  have sr : ∀ a, swapM l * (Zl l l a).map star = Zr l l a * swapM l := by
    intro a
    calc swapM l * (Zl l l a).map star = swapM l * ((Zl l l a).map star * swapM l) * swapM l := by
          rw [Matrix.mul_assoc, Matrix.mul_assoc, swapM_sq, Matrix.mul_one]
      _ = _ := by rw [← swap_Zr, ← Matrix.mul_assoc, swapM_sq, Matrix.one_mul]
  obtain ⟨c, hc⟩ := commutant₂ (swapM l * T)
    (fun a => by rw [Matrix.mul_assoc, ← h2, ← Matrix.mul_assoc, sl, Matrix.mul_assoc])
    (fun a => by rw [Matrix.mul_assoc, ← h1, ← Matrix.mul_assoc, sr, Matrix.mul_assoc])
  refine ⟨c, ?_⟩
  have hT2 : T = c • swapM l := by
    calc T = swapM l * (swapM l * T) := by rw [← Matrix.mul_assoc, swapM_sq, Matrix.one_mul]
      _ = _ := by rw [hc, Matrix.mul_smul, Matrix.mul_one]
  have h := fromZ (l := l) (k := l) (l' := l) (k' := l) S
  rw [← hT, hT2, Matrix.mul_smul, Matrix.smul_mul] at h
  exact h.symm

/-- The square root of an intertwiner to the conjugate makes the generators real. -/
theorem real_of_sqrt {d n : ℕ} {X : Fin n → Matrix (Fin d) (Fin d) ℂ} {V W : Matrix (Fin d) (Fin d) ℂ} {c : ℂ}
    (hc : c ≠ 0) (hV : V * V = 1) (hVs : V.map star = V) (hX : ∀ a, (X a).map star * V = V * X a)
    (hW : W * W = c • V) (hWS : W ∈ Algebra.adjoin ℂ {c • V}) :
    IsUnit W ∧ ∀ a, (W * X a * W⁻¹).map star = W * X a * W⁻¹ := by
  have hu : IsUnit W := by
    have h1 : W * (W * ((1 / c) • V)) = 1 := by
      rw [← Matrix.mul_assoc, hW, Matrix.mul_smul, Matrix.smul_mul, smul_smul, hV, one_div, inv_mul_cancel₀ hc,
        one_smul]
    exact IsUnit.of_mul_eq_one _ h1
  refine ⟨hu, fun a => ?_⟩
  have hab : ∃ a b : ℂ, W = a • 1 + b • V := by
    refine Algebra.adjoin_induction (p := fun W _ => ∃ a b : ℂ, W = a • 1 + b • V) ?_ ?_ ?_ ?_ hWS
    · rintro x rfl
      exact ⟨0, c, by simp⟩
    · intro r
      exact ⟨r, 0, by rw [Algebra.algebraMap_eq_smul_one]; simp⟩
    · rintro x y _ _ ⟨a, b, rfl⟩ ⟨a', b', rfl⟩
      exact ⟨a + a', b + b', by rw [add_smul, add_smul]; abel⟩
    · rintro x y _ _ ⟨a, b, rfl⟩ ⟨a', b', rfl⟩
      refine ⟨a * a' + b * b', a * b' + b * a', ?_⟩
      rw [Matrix.add_mul, Matrix.mul_add, Matrix.mul_add]
      simp only [Matrix.smul_mul, Matrix.mul_smul, Matrix.one_mul, Matrix.mul_one, hV, smul_smul, add_smul]
      rw [mul_comm b' a, mul_comm b a', mul_comm b' b, mul_comm a' a]
      abel
  obtain ⟨α, β, hab⟩ := hab
  have hlam : ∃ m : ℂ, m ≠ 0 ∧ W.map star * V = m • W := by
    by_cases hs : ∃ v : ℂ, V = v • 1
    · obtain ⟨v, hv⟩ := hs
      have hWw : W = (α + β * v) • 1 := by rw [hab, hv, smul_smul, add_smul]
      rcases Nat.eq_zero_or_pos d with hd | hd
      · subst hd
        exact ⟨1, one_ne_zero, by ext i; exact i.elim0⟩
      set w := α + β * v with hw
      have hwne : w ≠ 0 := by
        rintro h0
        rw [hWw, h0, zero_smul, Matrix.zero_mul] at hW
        have h1 := congrArg (fun M => M * V) hW.symm
        simp only [Matrix.smul_mul, hV, Matrix.zero_mul] at h1
        have := congrFun (congrFun h1 ⟨0, hd⟩) ⟨0, hd⟩
        rw [Matrix.smul_apply, Matrix.one_apply_eq, Matrix.zero_apply, smul_eq_mul, mul_one] at this
        exact hc this
      have hvne : v ≠ 0 := by
        rintro h0
        rw [hv, h0, zero_smul, Matrix.zero_mul] at hV
        have := congrFun (congrFun hV ⟨0, hd⟩) ⟨0, hd⟩
        simp at this
      refine ⟨star w * v / w, div_ne_zero (mul_ne_zero (star_ne_zero.2 hwne) hvne) hwne, ?_⟩
      have e : (w • (1 : Matrix (Fin d) (Fin d) ℂ)).map star = star w • 1 := by
        ext i j
        rw [Matrix.map_apply, Matrix.smul_apply, Matrix.smul_apply, Matrix.one_apply]
        split_ifs <;> simp
      rw [hWw, e, hv, smul_smul, Matrix.smul_mul, Matrix.one_mul, smul_smul, div_mul_cancel₀ _ hwne]
    · have hsq : (α * α + β * β) • (1 : Matrix (Fin d) (Fin d) ℂ) + (2 * α * β - c) • V = 0 := by
        have : W * W = (α * α + β * β) • (1 : Matrix (Fin d) (Fin d) ℂ) + (2 * α * β) • V := by
          rw [hab, Matrix.add_mul, Matrix.mul_add, Matrix.mul_add]
          simp only [Matrix.smul_mul, Matrix.mul_smul, Matrix.one_mul, Matrix.mul_one, hV, smul_smul, add_smul]
          rw [mul_comm β α, mul_assoc, two_mul, add_smul]
          abel
        rw [sub_smul, ← hW, this]; abel
      have h1 : 2 * α * β = c := by
        by_contra hne
        apply hs
        have hne' : 2 * α * β - c ≠ 0 := sub_ne_zero.2 hne
        refine ⟨-(α * α + β * β) / (2 * α * β - c), ?_⟩
        have h2 : (2 * α * β - c) • V = (-(α * α + β * β)) • (1 : Matrix (Fin d) (Fin d) ℂ) := by
          rw [neg_smul]; exact eq_neg_of_add_eq_zero_right hsq
        rw [div_eq_inv_mul, ← smul_smul, ← h2, smul_smul, inv_mul_cancel₀ hne', one_smul]
      have h2 : α * α + β * β = 0 := by
        rw [h1, sub_self, zero_smul, add_zero] at hsq
        rcases smul_eq_zero.1 hsq with h | h
        · exact h
        · exfalso
          apply hs
          exact ⟨0, by rw [zero_smul, ← Matrix.mul_one V, h, Matrix.mul_zero]⟩
      have hα : α ≠ 0 := by rintro rfl; exact hc (by rw [← h1]; ring)
      have hβ : β ≠ 0 := by rintro rfl; exact hc (by rw [← h1]; ring)
      have hnorm : star β * β = star α * α := by
        have e1 : ‖α‖ ^ 2 = ‖β‖ ^ 2 := by
          have : α * α = -(β * β) := by linear_combination h2
          have := congrArg norm this
          rw [norm_neg, norm_mul, norm_mul] at this
          rw [sq, sq]; exact this
        have f : ∀ z : ℂ, star z * z = ((‖z‖ ^ 2 : ℝ) : ℂ) := by
          intro z
          rw [mul_comm]
          push_cast
          exact Complex.mul_conj' z
        rw [f, f, e1]
      refine ⟨star β / α, div_ne_zero (star_ne_zero.2 hβ) hα, ?_⟩
      have e : W.map star = star α • 1 + star β • V := by
        rw [hab]
        ext i j
        have := congrFun (congrFun hVs i) j
        rw [Matrix.map_apply] at this
        simp only [Matrix.map_apply, Matrix.add_apply, Matrix.smul_apply, smul_eq_mul, star_add, star_mul', this,
          Matrix.one_apply]
        split_ifs <;> simp
      rw [e, Matrix.add_mul, Matrix.smul_mul, Matrix.smul_mul, Matrix.one_mul, hV, hab, smul_add, smul_smul,
        smul_smul, div_mul_cancel₀ _ hα, div_mul_eq_mul_div, hnorm, mul_div_cancel_right₀ _ hα, add_comm]
  obtain ⟨m, hm, hlam⟩ := hlam
  have hdet : IsUnit W.det := (Matrix.isUnit_iff_isUnit_det _).1 hu
  set Y := W * X a * W⁻¹ with hY
  have h1 : Y * W = W * X a := by
    rw [hY, Matrix.mul_assoc, Matrix.nonsing_inv_mul _ hdet, Matrix.mul_one]
  have h2 : Y.map star * (m • W) = m • (Y * W) := by
    rw [← hlam, ← Matrix.mul_assoc, ← map_star_mul, h1, map_star_mul, Matrix.mul_assoc, hX, ← Matrix.mul_assoc, hlam,
      Matrix.smul_mul]
  rw [Matrix.mul_smul] at h2
  have h3 : Y.map star * W = Y * W := by
    have := congrArg (fun M => m⁻¹ • M) h2
    simp only [smul_smul] at this
    rwa [inv_mul_cancel₀ hm, one_smul, one_smul] at this
  have h4 := congrArg (fun M => M * W⁻¹) h3
  simp only [Matrix.mul_assoc, Matrix.mul_nonsing_inv _ hdet, Matrix.mul_one] at h4
  exact h4

end SO13
end LieNN
