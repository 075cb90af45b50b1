import Verif.Proofs.LadderMod
import Mathlib.LinearAlgebra.Matrix.Kronecker
/-!
# Tensor products of systems of raising operators
-/
namespace LieNN.Ladder

open Matrix Finset Kronecker

set_option linter.unusedSectionVars false

variable {ι κ : Type} [Fintype ι] [DecidableEq ι] [Fintype κ] [DecidableEq κ]

/-- The action on a tensor product. -/
def tens (A : Matrix ι ι ℂ) (B : Matrix κ κ ℂ) : Matrix (ι × κ) (ι × κ) ℂ :=
  A ⊗ₖ (1 : Matrix κ κ ℂ) + (1 : Matrix ι ι ℂ) ⊗ₖ B

theorem tens_apply (A : Matrix ι ι ℂ) (B : Matrix κ κ ℂ) (x y : ι × κ) :
    tens A B x y = (if x.2 = y.2 then A x.1 y.1 else 0) + if x.1 = y.1 then B x.2 y.2 else 0 := by
  simp only [tens, Matrix.add_apply, kroneckerMap_apply, Matrix.one_apply]
  congr 1
  · split_ifs <;> simp
  · split_ifs <;> simp

theorem tens_conj (A : Matrix ι ι ℂ) (B : Matrix κ κ ℂ) : (tens A B)ᴴ = tens Aᴴ Bᴴ := by
  ext x y
  rw [conjTranspose_apply, tens_apply, tens_apply, star_add]
  simp only [eq_comm, conjTranspose_apply]
  congr 1
  · split_ifs <;> simp
  · split_ifs <;> simp

theorem tens_smul (a : ℂ) (A : Matrix ι ι ℂ) (B : Matrix κ κ ℂ) : tens (a • A) (a • B) = a • tens A B := by
  rw [tens, tens, smul_kronecker, kronecker_smul, smul_add]

theorem tens_zero : tens (0 : Matrix ι ι ℂ) (0 : Matrix κ κ ℂ) = 0 := by
  rw [tens, zero_kronecker, kronecker_zero, add_zero]

theorem tens_comm (A A' : Matrix ι ι ℂ) (B B' : Matrix κ κ ℂ) :
    tens A B * tens A' B' - tens A' B' * tens A B = tens (A * A' - A' * A) (B * B' - B' * B) := by
  have e : ∀ (A A' : Matrix ι ι ℂ) (B B' : Matrix κ κ ℂ), tens A B * tens A' B' =
      (A * A') ⊗ₖ (1 : Matrix κ κ ℂ) + (1 : Matrix ι ι ℂ) ⊗ₖ (B * B') + (A ⊗ₖ B' + A' ⊗ₖ B) := by
    intro A A' B B'
    simp only [tens, add_mul, mul_add, ← mul_kronecker_mul, Matrix.one_mul, Matrix.mul_one]
    abel
  have s1 : ∀ (A A' : Matrix ι ι ℂ), (A - A') ⊗ₖ (1 : Matrix κ κ ℂ) = A ⊗ₖ 1 - A' ⊗ₖ 1 := by
    intro A A'
    ext x y
    simp only [kroneckerMap_apply, Matrix.sub_apply, sub_mul]
  have s2 : ∀ (A A' : Matrix κ κ ℂ), (1 : Matrix ι ι ℂ) ⊗ₖ (A - A') = 1 ⊗ₖ A - 1 ⊗ₖ A' := by
    intro A A'
    ext x y
    simp only [kroneckerMap_apply, Matrix.sub_apply, mul_sub]
  rw [e, e, tens, s1, s2]
  abel

variable {r : ℕ} {c : ℕ → ℕ → ℝ} {P Z : ℕ → Matrix ι ι ℂ} {ht : ι → ℤ}
variable {P' Z' : ℕ → Matrix κ κ ℂ} {ht' : κ → ℤ}

theorem Sys.tensor (s : Sys r c P Z ht) (s' : Sys r c P' Z' ht') :
    Sys r c (fun l => tens (P l) (P' l)) (fun i => tens (Z i) (Z' i)) (fun x : ι × κ => ht x.1 + ht' x.2) where
  comm l m hl hm := by
    rw [tens_conj, tens_comm, s.comm l m hl hm, s'.comm l m hl hm]
    split_ifs
    · rw [tens_smul]
    · exact tens_zero
  ZP i l hi hl := by
    rw [tens_comm, s.ZP i l hi hl, s'.ZP i l hi hl, tens_smul]
  Zh i hi := by rw [tens_conj, s.Zh i hi, s'.Zh i hi]
  up l hl x y h := by
    rw [tens_apply] at h
    by_cases h1 : (if x.2 = y.2 then P l x.1 y.1 else 0) = 0
    · rw [h1, zero_add] at h
      have e : x.1 = y.1 := by
        by_contra e
        exact h (if_neg e)
      rw [if_pos e] at h
      have := s'.up l hl _ _ h
      change ht x.1 + ht' x.2 = ht y.1 + ht' y.2 + 1
      rw [e, this]
      ring
    · have e : x.2 = y.2 := by
        by_contra e
        exact h1 (if_neg e)
      rw [if_pos e] at h1
      have := s.up l hl _ _ h1
      change ht x.1 + ht' x.2 = ht y.1 + ht' y.2 + 1
      rw [e, this]
      ring

/-- An intertwiner preserves the norm up to a factor. -/
theorem isometry (s : Sys r c P Z ht) {top : ι} (t : Top r P top) {T : Matrix κ ι ℂ}
    (hP : ∀ l, l < r → T * P l = P' l * T) (hM : ∀ l, l < r → T * (P l)ᴴ = (P' l)ᴴ * T) :
    ∃ a : ℂ, Tᴴ * T = a • (1 : Matrix ι ι ℂ) := by
  refine commutant s t _ (fun l hl => ?_) fun l hl => ?_
  · have h2 := congrArg conjTranspose (hM l hl)
    rw [conjTranspose_mul, conjTranspose_mul, conjTranspose_conjTranspose, conjTranspose_conjTranspose] at h2
    rw [Matrix.mul_assoc, hP l hl, ← Matrix.mul_assoc, ← h2, Matrix.mul_assoc]
  · have h2 := congrArg conjTranspose (hP l hl)
    rw [conjTranspose_mul, conjTranspose_mul] at h2
    rw [Matrix.mul_assoc, hM l hl, ← Matrix.mul_assoc, ← h2, Matrix.mul_assoc]

end LieNN.Ladder
