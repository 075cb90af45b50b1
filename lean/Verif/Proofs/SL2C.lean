import Verif.Proofs.SL2CMat
import Verif.Proofs.CGMat
import Verif.Spec.Irreps
/-!
# `SL2C`: generators and Clebsch-Gordan coefficients
-/
namespace LieNN

open Finset Matrix

namespace SL2C

theorem mulL_zero_right (l : ℕ) : SU2.mulL l 0 = [l] := by
  unfold SU2.mulL
  simp

theorem mulL_zero_left (k : ℕ) : SU2.mulL 0 k = [k] := by
  unfold SU2.mulL
  simp

theorem ct_zero_right (l : ℕ) (a c : Fin (l + 1)) (b : Fin (0 + 1)) :
    SU2.ct l 0 l a b c = if c = a then 1 else 0 := by
  unfold SU2.ct
  rw [show (b : ℕ) = 0 by omega, SU2.gj_zero_right]
  simp only [Fin.ext_iff]

theorem ct_zero_left (k : ℕ) (a : Fin (0 + 1)) (b c : Fin (k + 1)) :
    SU2.ct 0 k k a b c = if c = b then 1 else 0 := by
  unfold SU2.ct
  rw [show (a : ℕ) = 0 by omega, SU2.gj_zero_left _ _ _ (Nat.le_of_lt_succ b.2)]
  simp only [Fin.ext_iff]

theorem catG_zero_right (l : ℕ) (a c : Fin (l + 1)) (b : Fin (0 + 1)) :
    catG l 0 (SU2.mulL l 0) a b c = if c = a then 1 else 0 := by
  rw [mulL_zero_right, catG, if_pos c.2]
  exact ct_zero_right l a c b

theorem catG_zero_left (k : ℕ) (a : Fin (0 + 1)) (b c : Fin (k + 1)) :
    catG 0 k (SU2.mulL 0 k) a b c = if c = b then 1 else 0 := by
  rw [mulL_zero_left, catG, if_pos c.2]
  exact ct_zero_left k a b c

theorem ctS_basis (l k : ℕ) (x : Fin (l + 1)) (y : Fin (k + 1)) (z : Fin ((l + 1) * (k + 1)))
    (hx : l + 1 = dim ⟨l, 0⟩) (hy : k + 1 = dim ⟨0, k⟩) :
    ctS ⟨l, 0⟩ ⟨0, k⟩ ⟨l, k⟩ (x.cast hx) (y.cast hy) z = catG l k (SU2.mulL l k) x y z := by
  unfold ctS
  dsimp only [Fin.val_cast]
  simp only [ct_zero_right, ct_zero_left, catG_zero_right, catG_zero_left]
  simp only [mul_ite, mul_one, mul_zero, Finset.sum_ite_eq, Finset.sum_ite_eq', Finset.mem_univ, if_true,
    Finset.sum_const, Finset.card_univ, Fintype.card_fin, Nat.zero_add, one_smul]

/-- The generators before the final change of basis, on pairs of indices. -/
noncomputable def Zl (l k : ℕ) (i : Fin 3) :
    Matrix (Fin (l + 1) × Fin (k + 1)) (Fin (l + 1) × Fin (k + 1)) ℂ :=
  kroneckerMap (· * ·) (SU2.gens l i) 1

/-- Second factor. -/
noncomputable def Zr (l k : ℕ) (i : Fin 3) :
    Matrix (Fin (l + 1) × Fin (k + 1)) (Fin (l + 1) × Fin (k + 1)) ℂ :=
  kroneckerMap (· * ·) 1 ((SU2.gens k i).map star)

/-- Sum or difference. -/
noncomputable def Z (l k : ℕ) (i : Fin 6) :
    Matrix (Fin (l + 1) × Fin (k + 1)) (Fin (l + 1) × Fin (k + 1)) ℂ :=
  if h : (i : ℕ) < 3 then Zl l k ⟨i, h⟩ + Zr l k ⟨i, h⟩
  else Zl l k ⟨i - 3, by omega⟩ - Zr l k ⟨i - 3, by omega⟩

theorem gens0_eq (r : SL2C) (i : Fin 6) : gens0 r i =
    (Z r.l r.k i).submatrix finProdFinEquiv.symm finProdFinEquiv.symm := by
  have h1 : ∀ (y : Matrix (Fin (r.k + 1)) (Fin (r.k + 1)) ℂ), (kron (1 : Matrix (Fin (r.l + 1)) (Fin (r.l + 1)) ℂ) y).map star =
      (kroneckerMap (· * ·) (1 : Matrix (Fin (r.l + 1)) (Fin (r.l + 1)) ℂ) (y.map star)).submatrix
        finProdFinEquiv.symm finProdFinEquiv.symm := by
    intro y
    rw [kron_eq]
    ext x y
    simp only [Matrix.map_apply, Matrix.submatrix_apply, kroneckerMap_apply, star_mul', Matrix.one_apply]
    split_ifs <;> simp
  unfold gens0 Z
  split_ifs with h
  · unfold kronAddC Zl Zr
    rw [h1, kron_eq, Matrix.submatrix_add]; rfl
  · unfold kronAddC Zl Zr
    rw [h1, kron_eq, Matrix.submatrix_sub, sub_eq_add_neg]
    congr 1
    ext x y
    simp [kroneckerMap_apply]

theorem basisC_eq (r : SL2C) : basisC r = .ok ((B r.l r.k).submatrix finProdFinEquiv.symm id) := by
  unfold basisC
  have hm : (⟨r.l, r.k⟩ : SL2C) ∈ mulL ⟨r.l, 0⟩ ⟨0, r.k⟩ := by
    rw [mem_mulL]
    exact ⟨by rw [mulL_zero_right]; simp, by rw [mulL_zero_left]; simp⟩
  rw [cg_eq hm, SU2.ok_bind']
  change Except.ok _ = _
  congr 1
  funext x c
  exact congrArg (fun t : ℝ => (t : ℂ)) (ctS_basis r.l r.k x.divNat x.modNat c _ _)

theorem gens_eq (r : SL2C) : gens r = .ok fun i => (B r.l r.k)ᵀ * Z r.l r.k i * B r.l r.k := by
  unfold gens
  rw [basisC_eq, SU2.ok_bind']
  change Except.ok _ = _
  congr 1
  funext i
  rw [gens0_eq]
  have h : ((B r.l r.k).submatrix finProdFinEquiv.symm id).map star =
      (B r.l r.k).submatrix finProdFinEquiv.symm id := by
    ext x c
    exact Complex.conj_ofReal _
  rw [h, Matrix.transpose_submatrix, Matrix.submatrix_mul_equiv, Matrix.submatrix_mul_equiv,
    Matrix.submatrix_id_id]

theorem rep_X (r : SL2C) (i : Fin 6) : (rep r).X i = (B r.l r.k)ᵀ * Z r.l r.k i * B r.l r.k := by
  have e : (rep r).X = match gens r with
    | .ok X => X
    | .error _ => 0 := rfl
  rw [e, gens_eq]

/-! ### Structure constants -/

/-- The alternating symbol, as an integer. -/
def epsZ (a b c : Fin 3) : ℤ := algZ 1 (Fin.castAdd 3 a) (Fin.castAdd 3 b) (Fin.castAdd 3 c)

theorem eps_eq : ∀ a b c : Fin 3, SU2.algebra a b c = (epsZ a b c : ℂ) := by
  have h : ∀ a b c : Fin 3, epsZ a b c = (![![![0, 0, 0], ![0, 0, 1], ![0, -1, 0]],
    ![![0, 0, -1], ![0, 0, 0], ![1, 0, 0]], ![![0, 1, 0], ![-1, 0, 0], ![0, 0, 0]]] :
      Fin 3 → Fin 3 → Fin 3 → ℤ) a b c := by decide
  intro a b c
  rw [h]
  fin_cases a <;> fin_cases b <;> fin_cases c <;> simp [SU2.algebra]

theorem algZ_XX : ∀ s ∈ [(1 : ℤ), -1], ∀ a b c : Fin 3,
    algZ s (Fin.castAdd 3 a) (Fin.castAdd 3 b) (Fin.castAdd 3 c) = epsZ a b c ∧
    algZ s (Fin.castAdd 3 a) (Fin.castAdd 3 b) (Fin.natAdd 3 c) = 0 ∧
    algZ s (Fin.castAdd 3 a) (Fin.natAdd 3 b) (Fin.castAdd 3 c) = 0 ∧
    algZ s (Fin.castAdd 3 a) (Fin.natAdd 3 b) (Fin.natAdd 3 c) = epsZ a b c ∧
    algZ s (Fin.natAdd 3 a) (Fin.castAdd 3 b) (Fin.castAdd 3 c) = 0 ∧
    algZ s (Fin.natAdd 3 a) (Fin.castAdd 3 b) (Fin.natAdd 3 c) = epsZ a b c ∧
    algZ s (Fin.natAdd 3 a) (Fin.natAdd 3 b) (Fin.castAdd 3 c) = s * epsZ a b c ∧
    algZ s (Fin.natAdd 3 a) (Fin.natAdd 3 b) (Fin.natAdd 3 c) = 0 := by
  decide +kernel

/-- The array of structure constants with sign `s`. -/
def algS (s : ℤ) : Fin 6 → Fin 6 → Fin 6 → ℂ := fun i j k => (algZ s i j k : ℂ)

theorem algS_lie : ∀ s ∈ [(1 : ℤ), -1], Spec.IsLieAlgebra (algS s) := by
  have h1 : ∀ s ∈ [(1 : ℤ), -1], ∀ i j k : Fin 6, algZ s i j k = -algZ s j i k := by decide +kernel
  have h2 : ∀ s ∈ [(1 : ℤ), -1], ∀ i j k m : Fin 6,
      ∑ l, (algZ s i j l * algZ s l k m + algZ s j k l * algZ s l i m + algZ s k i l * algZ s l j m) = 0 := by
    decide +kernel
  intro s hs
  refine ⟨fun i j k => ?_, fun i j k m => ?_⟩
  · unfold algS; exact_mod_cast h1 s hs i j k
  · unfold algS; exact_mod_cast h2 s hs i j k m

variable {ι : Type*} [Fintype ι] [DecidableEq ι]

omit [DecidableEq ι] in
/-- Six matrices satisfy the brackets with the structure constants of sign `s`. -/
theorem bracket_six {s : ℤ} (hs : s ∈ [(1 : ℤ), -1]) (X Y : Fin 3 → Matrix ι ι ℂ)
    (W : Fin 6 → Matrix ι ι ℂ) (hX : ∀ a, W (Fin.castAdd 3 a) = X a) (hY : ∀ a, W (Fin.natAdd 3 a) = Y a)
    (xx : ∀ a b, X a * X b - X b * X a = ∑ c, (epsZ a b c : ℂ) • X c)
    (xy : ∀ a b, X a * Y b - Y b * X a = ∑ c, (epsZ a b c : ℂ) • Y c)
    (yx : ∀ a b, Y a * X b - X b * Y a = ∑ c, (epsZ a b c : ℂ) • Y c)
    (yy : ∀ a b, Y a * Y b - Y b * Y a = (s : ℂ) • ∑ c, (epsZ a b c : ℂ) • X c) (i j : Fin 6) :
    W i * W j - W j * W i = ∑ k, algS s i j k • W k := by
  have split : ∀ f : Fin 6 → Matrix ι ι ℂ, ∑ k, f k =
      ∑ c : Fin 3, f (Fin.castAdd 3 c) + ∑ c : Fin 3, f (Fin.natAdd 3 c) := fun f =>
    Fin.sum_univ_add (a := 3) (b := 3) f
  have H := algZ_XX s hs
  rw [split]
  simp only [hX, hY, algS]
  obtain ⟨a, rfl⟩ | ⟨a, rfl⟩ : (∃ a : Fin 3, i = Fin.castAdd 3 a) ∨ ∃ a : Fin 3, i = Fin.natAdd 3 a := by
    revert i; decide
  all_goals
    obtain ⟨b, rfl⟩ | ⟨b, rfl⟩ : (∃ b : Fin 3, j = Fin.castAdd 3 b) ∨ ∃ b : Fin 3, j = Fin.natAdd 3 b := by
      revert j; decide
  · rw [hX, hX, xx]
    simp only [(H a b _).1, (H a b _).2.1, Int.cast_zero, zero_smul, Finset.sum_const_zero, add_zero]
  · rw [hX, hY, xy]
    simp only [(H a b _).2.2.1, (H a b _).2.2.2.1, Int.cast_zero, zero_smul, Finset.sum_const_zero,
      zero_add]
  · rw [hX, hY, yx]
    simp only [(H a b _).2.2.2.2.1, (H a b _).2.2.2.2.2.1, Int.cast_zero, zero_smul,
      Finset.sum_const_zero, zero_add]
  · rw [hY, hY, yy]
    simp only [(H a b _).2.2.2.2.2.2.1, (H a b _).2.2.2.2.2.2.2, Int.cast_zero, zero_smul,
      Finset.sum_const_zero, add_zero, Int.cast_mul, mul_smul, Finset.smul_sum]

theorem gens_bracket (l : ℕ) (a b : Fin 3) : SU2.gens l a * SU2.gens l b - SU2.gens l b * SU2.gens l a =
    ∑ c, (epsZ a b c : ℂ) • SU2.gens l c := by
  have h := SU2.isRep l a b
  simp only [← eps_eq]
  exact h

theorem Zl_bracket (l k : ℕ) (a b : Fin 3) : Zl l k a * Zl l k b - Zl l k b * Zl l k a =
    ∑ c, (epsZ a b c : ℂ) • Zl l k c := by
  unfold Zl
  rw [← Matrix.mul_kronecker_mul, ← Matrix.mul_kronecker_mul, Matrix.one_mul]
  ext x y
  have h := congrFun (congrFun (gens_bracket l a b) x.1) y.1
  simp only [Matrix.sub_apply, Matrix.sum_apply, Matrix.smul_apply, smul_eq_mul] at h
  rw [Matrix.sub_apply, kroneckerMap_apply, kroneckerMap_apply, ← sub_mul, h]
  simp only [Matrix.sum_apply, kroneckerMap_apply, Matrix.smul_apply, Finset.sum_mul, smul_eq_mul, mul_assoc]

theorem Zr_bracket (l k : ℕ) (a b : Fin 3) : Zr l k a * Zr l k b - Zr l k b * Zr l k a =
    ∑ c, (epsZ a b c : ℂ) • Zr l k c := by
  have h : (SU2.gens k a).map star * (SU2.gens k b).map star - (SU2.gens k b).map star * (SU2.gens k a).map star =
      ∑ c, (epsZ a b c : ℂ) • (SU2.gens k c).map star := by
    have := congrArg (fun M : Matrix _ _ ℂ => M.map (starRingEnd ℂ)) (gens_bracket k a b)
    ext x y
    have h2 := congrFun (congrFun this x) y
    simp only [Matrix.map_apply, Matrix.sub_apply, Matrix.mul_apply, Matrix.sum_apply, Matrix.smul_apply,
      map_sub, map_sum, map_mul, smul_eq_mul] at h2 ⊢
    simpa using h2
  unfold Zr
  rw [← Matrix.mul_kronecker_mul, ← Matrix.mul_kronecker_mul, Matrix.one_mul]
  ext x y
  have h := congrFun (congrFun h x.2) y.2
  simp only [Matrix.sub_apply, Matrix.sum_apply, Matrix.smul_apply, smul_eq_mul] at h
  rw [Matrix.sub_apply, kroneckerMap_apply, kroneckerMap_apply, ← mul_sub, h]
  simp only [Matrix.sum_apply, kroneckerMap_apply, Matrix.smul_apply, Finset.mul_sum, smul_eq_mul]
  exact Finset.sum_congr rfl fun c _ => by ring

theorem Z_comm (l k : ℕ) (a b : Fin 3) : Zl l k a * Zr l k b = Zr l k b * Zl l k a := by
  unfold Zl Zr
  rw [← Matrix.mul_kronecker_mul, ← Matrix.mul_kronecker_mul, Matrix.one_mul, Matrix.one_mul,
    Matrix.mul_one, Matrix.mul_one]

theorem Z_castAdd (l k : ℕ) (a : Fin 3) : Z l k (Fin.castAdd 3 a) = Zl l k a + Zr l k a := by
  unfold Z; rw [dif_pos (by exact a.2)]; rfl

theorem Z_natAdd (l k : ℕ) (a : Fin 3) : Z l k (Fin.natAdd 3 a) = Zl l k a - Zr l k a := by
  unfold Z
  rw [dif_neg (by simp)]
  have : (⟨((Fin.natAdd 3 a : Fin 6) : ℕ) - 3, by omega⟩ : Fin 3) = a := Fin.ext (by simp)
  rw [this]

theorem Z_bracket (l k : ℕ) (i j : Fin 6) : Z l k i * Z l k j - Z l k j * Z l k i =
    ∑ c, algebra i j c • Z l k c := by
  refine bracket_six (s := 1) (by simp) (fun a => Zl l k a + Zr l k a) (fun a => Zl l k a - Zr l k a)
    (Z l k) (Z_castAdd l k) (Z_natAdd l k) ?_ ?_ ?_ ?_ i j
  all_goals
    intro a b
    have h1 := Zl_bracket l k a b
    have h2 := Zr_bracket l k a b
    have h3 := Z_comm l k a b
    have h4 := Z_comm l k b a
    simp only [smul_add, smul_sub, Finset.sum_add_distrib, Finset.sum_sub_distrib, ← h1, ← h2, mul_add, mul_sub, add_mul, sub_mul, h3, h4,
      Int.cast_one, one_smul]
    abel

theorem conj_bracket {κ : Type*} [Fintype κ] [DecidableEq κ] {P : Matrix κ ι ℂ} {Q : Matrix ι κ ℂ}
    (h : Q * P = 1) (X Y : Matrix ι ι ℂ) :
    P * X * Q * (P * Y * Q) - P * Y * Q * (P * X * Q) = P * (X * Y - Y * X) * Q := by
  have : ∀ U V : Matrix ι ι ℂ, P * U * Q * (P * V * Q) = P * (U * V) * Q := by
    intro U V
    calc _ = P * U * (Q * P) * V * Q := by simp only [Matrix.mul_assoc]
      _ = _ := by rw [h, Matrix.mul_one]; simp only [Matrix.mul_assoc]
  rw [this, this, Matrix.mul_sub, Matrix.sub_mul]

theorem isRep (r : SL2C) : Spec.IsRep (rep r) := by
  intro i j
  simp only [rep_X]
  rw [conj_bracket (B_mul _ _), Z_bracket, Matrix.mul_sum, Matrix.sum_mul]
  refine Finset.sum_congr rfl fun c _ => ?_
  rw [Matrix.mul_smul, Matrix.smul_mul]
  rfl

end SL2C
end LieNN
