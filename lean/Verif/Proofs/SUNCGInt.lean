import Verif.Proofs.SUNCGLoop
import Verif.Proofs.SUNAlg
import Verif.Spec.CG
/-!
# Clebsch-Gordan coefficients and intertwiners
-/
namespace LieNN.SUN

open Spec Finset Matrix

/-- The array as a matrix, with the conjugates of the entries. -/
def cgMat {d₁ d₂ d₃ : ℕ} (C : Fin d₁ → Fin d₂ → Fin d₃ → ℂ) : Matrix (Fin d₁ × Fin d₂) (Fin d₃) ℂ :=
  Matrix.of fun x k => star (C x.1 x.2 k)

/-- For skew-Hermitian generators the equivariance of an array is the property to be an intertwiner. -/
theorem isCG_iff_intertwines {n d₁ d₂ d₃ : ℕ} {X₁ : Fin n → Matrix (Fin d₁) (Fin d₁) ℂ}
    {X₂ : Fin n → Matrix (Fin d₂) (Fin d₂) ℂ} {X₃ : Fin n → Matrix (Fin d₃) (Fin d₃) ℂ}
    (A₁ A₂ A₃ : Fin n → Fin n → Fin n → ℂ)
    (h₁ : ∀ a, (X₁ a)ᴴ = -X₁ a) (h₂ : ∀ a, (X₂ a)ᴴ = -X₂ a) (h₃ : ∀ a, (X₃ a)ᴴ = -X₃ a)
    (C : Fin d₁ → Fin d₂ → Fin d₃ → ℂ) :
    IsCG (⟨A₁, X₁, Fin.elim0⟩ : Rep n 0 d₁) ⟨A₂, X₂, Fin.elim0⟩ ⟨A₃, X₃, Fin.elim0⟩ C ↔
      ∀ a, cgMat C * X₃ a = Ladder.tens (X₁ a) (X₂ a) * cgMat C := by
  have s₃ : ∀ a k l, X₃ a k l = -star (X₃ a l k) := fun a k l => by
    have := congrFun₂ (h₃ a) k l
    rw [conjTranspose_apply, Matrix.neg_apply] at this
    rw [this, neg_neg]
  have s₁₂ : ∀ a x y, Ladder.tens (X₁ a) (X₂ a) x y = -star (Ladder.tens (X₁ a) (X₂ a) y x) := fun a x y => by
    have h := Ladder.tens_conj (X₁ a) (X₂ a)
    rw [h₁, h₂] at h
    have := congrFun₂ h x y
    rw [conjTranspose_apply] at this
    rw [this, Ladder.tens_apply, Ladder.tens_apply]
    simp only [Matrix.neg_apply]
    split_ifs <;> simp [add_comm]
  have e1 : ∀ a i j l, (cgMat C * X₃ a) (i, j) l = -star (∑ k, C i j k * X₃ a l k) := by
    intro a i j l
    rw [Matrix.mul_apply, star_sum, ← sum_neg_distrib]
    refine sum_congr rfl fun k _ => ?_
    rw [s₃ a k l, cgMat, Matrix.of_apply, star_mul']
    ring
  have e2 : ∀ a i j l, (Ladder.tens (X₁ a) (X₂ a) * cgMat C) (i, j) l =
      -star (∑ i', X₁ a i' i * C i' j l + ∑ j', X₂ a j' j * C i j' l) := by
    intro a i j l
    rw [Matrix.mul_apply]
    have : ∀ y : Fin d₁ × Fin d₂, Ladder.tens (X₁ a) (X₂ a) (i, j) y * cgMat C y l =
        -star ((if y.2 = j then X₁ a y.1 i * C y.1 y.2 l else 0) + if y.1 = i then X₂ a y.2 j * C y.1 y.2 l else 0) := by
      intro y
      rw [s₁₂, cgMat, Matrix.of_apply, neg_mul, ← star_mul', Ladder.tens_apply, add_mul]
      simp only [ite_mul, zero_mul]
    rw [sum_congr rfl fun y _ => this y, sum_neg_distrib, ← star_sum, sum_add_distrib, Fintype.sum_prod_type,
      Fintype.sum_prod_type]
    congr 3
    · refine sum_congr rfl fun i' _ => ?_
      rw [sum_ite_eq' univ j (fun y => X₁ a i' i * C i' y l), if_pos (mem_univ _)]
    · rw [sum_comm]
      refine sum_congr rfl fun j' _ => ?_
      rw [sum_ite_eq' univ i (fun y => X₂ a j' j * C y j' l), if_pos (mem_univ _)]
  constructor
  · rintro ⟨h, -⟩ a
    ext ⟨i, j⟩ l
    rw [e1, e2, h a i j l]
  · intro h
    refine ⟨fun a i j l => ?_, fun a => a.elim0⟩
    have := congrFun₂ (h a) (i, j) l
    rw [e1, e2] at this
    exact star_injective (neg_injective this)

/-- A pair of linear maps acts on the tensor product. -/
def tensMap {E : Type} [AddCommGroup E] [Module ℂ E] {ι κ : Type} [Fintype ι] [DecidableEq ι] [Fintype κ]
    [DecidableEq κ] (f : E →ₗ[ℂ] Matrix ι ι ℂ) (g : E →ₗ[ℂ] Matrix κ κ ℂ) : E →ₗ[ℂ] Matrix (ι × κ) (ι × κ) ℂ where
  toFun x := Ladder.tens (f x) (g x)
  map_add' x y := by
    ext p q
    simp only [Ladder.tens_apply, map_add, Matrix.add_apply]
    split_ifs <;> ring
  map_smul' c x := by
    rw [map_smul, map_smul, Ladder.tens_smul]
    rfl

theorem tensMap_apply {E : Type} [AddCommGroup E] [Module ℂ E] {ι κ : Type} [Fintype ι] [DecidableEq ι] [Fintype κ]
    [DecidableEq κ] (f : E →ₗ[ℂ] Matrix ι ι ℂ) (g : E →ₗ[ℂ] Matrix κ κ ℂ) (x : E) :
    tensMap f g x = Ladder.tens (f x) (g x) := rfl

/-- An intertwiner of the ladder operators intertwines the whole algebra. -/
theorem basis_of_ladder {n : ℕ} {ι κ : Type} [Fintype ι] [DecidableEq ι] [Fintype κ] [DecidableEq κ]
    {f : Matrix (Fin n) (Fin n) ℂ →ₗ[ℂ] Matrix ι ι ℂ} {f' : Matrix (Fin n) (Fin n) ℂ →ₗ[ℂ] Matrix κ κ ℂ}
    (hf : ∀ x y, f (x * y - y * x) = f x * f y - f y * f x)
    (hf' : ∀ x y, f' (x * y - y * x) = f' x * f' y - f' y * f' x) {T : Matrix κ ι ℂ}
    (hu : ∀ l, l + 1 < n → T * f (unit n l (l + 1)) = f' (unit n l (l + 1)) * T)
    (hd : ∀ l, l + 1 < n → T * f (unit n (l + 1) l) = f' (unit n (l + 1) l) * T) :
    ∀ x ∈ suBasis n, T * f x = f' x * T := by
  have br : ∀ x y, T * f x = f' x * T → T * f y = f' y * T → T * f (x * y - y * x) = f' (x * y - y * x) * T := by
    intro x y hx hy
    rw [hf, hf', Matrix.mul_sub, Matrix.sub_mul, ← Matrix.mul_assoc, hx, Matrix.mul_assoc, hy, ← Matrix.mul_assoc T, hy,
      Matrix.mul_assoc, hx]
    simp only [Matrix.mul_assoc]
  have up : ∀ t k, k + t + 1 < n → T * f (unit n k (k + t + 1)) = f' (unit n k (k + t + 1)) * T := by
    intro t
    induction t with
    | zero => intro k hk; exact hu k hk
    | succ t ih =>
      intro k hk
      have h1 := br _ _ (ih k (by omega)) (hu (k + t + 1) (by omega))
      rw [unit_mul_unit n _ _ _ _ (by omega), unit_mul_unit n _ _ _ _ (by omega), if_pos rfl, if_neg (by omega), sub_zero] at h1
      exact h1
  have dn : ∀ t k, k + t + 1 < n → T * f (unit n (k + t + 1) k) = f' (unit n (k + t + 1) k) * T := by
    intro t
    induction t with
    | zero => intro k hk; exact hd k hk
    | succ t ih =>
      intro k hk
      have h1 := br _ _ (hd (k + t + 1) (by omega)) (ih k (by omega))
      rw [unit_mul_unit n _ _ _ _ (by omega), unit_mul_unit n _ _ _ _ (by omega), if_pos rfl, if_neg (by omega), sub_zero] at h1
      exact h1
  intro x hx
  rcases mem_suBasis hx with ⟨k, l, h1, h2, rfl⟩ | ⟨k, l, h1, h2, rfl⟩ | ⟨t, ht, rfl⟩
  · obtain ⟨t, rfl⟩ : ∃ t, l = k + t + 1 := ⟨l - k - 1, by omega⟩
    rw [map_smul, map_smul, map_add, map_add, Matrix.mul_smul, Matrix.smul_mul, Matrix.mul_add, Matrix.add_mul, up t k h2, dn t k h2]
  · obtain ⟨t, rfl⟩ : ∃ t, l = k + t + 1 := ⟨l - k - 1, by omega⟩
    rw [map_sub, map_sub, Matrix.mul_sub, Matrix.sub_mul, up t k h2, dn t k h2]
  · have h1 := br _ _ (hu t ht) (hd t ht)
    rw [unit_mul_unit n _ _ _ _ (by omega), unit_mul_unit n _ _ _ _ (by omega), if_pos rfl, if_pos rfl] at h1
    rw [map_smul, map_smul, Matrix.mul_smul, Matrix.smul_mul, h1]

/-- The generators of a label with `n` entries. -/
theorem gens_of_length {n : ℕ} {S : List ℤ} (hS : IsWeight S) (h0 : ∀ s ∈ S, 0 ≤ s) (hn : S.length = n) (h2 : 2 ≤ n) :
    ∃ f : Matrix (Fin n) (Fin n) ℂ →ₗ[ℂ] Matrix (Fin (pats S).length) (Fin (pats S).length) ℂ,
      generators (pats S).length S = .ok ((suBasis n).map f) ∧
      (∀ x y, f (x * y - y * x) = f x * f y - f y * f x) ∧ (∀ x, f xᴴ = (f x)ᴴ) ∧
      (∀ l, l + 1 < n → f (unit n l (l + 1)) = Jp S l) ∧ ∀ l, l + 1 < n → f (unit n (l + 1) l) = (Jp S l)ᴴ := by
  subst hn
  refine ⟨Phi S, generators_eq hS h0 h2, Phi_lie hS, fun x => (Phi_conj hS x).symm, fun l hl => ?_, fun l hl => ?_⟩
  · rw [Phi_unit S (by omega) hl, GG_up]
  · rw [Phi_unit S hl (by omega), GG_dn]

theorem tensMap_lie {E : Type} [Ring E] [Module ℂ E] {ι κ : Type} [Fintype ι] [DecidableEq ι] [Fintype κ]
    [DecidableEq κ] {f : E →ₗ[ℂ] Matrix ι ι ℂ} {g : E →ₗ[ℂ] Matrix κ κ ℂ}
    (hf : ∀ x y, f (x * y - y * x) = f x * f y - f y * f x) (hg : ∀ x y, g (x * y - y * x) = g x * g y - g y * g x)
    (x y : E) : tensMap f g (x * y - y * x) = tensMap f g x * tensMap f g y - tensMap f g y * tensMap f g x := by
  rw [tensMap_apply, tensMap_apply, tensMap_apply, Ladder.tens_comm, hf, hg]

end LieNN.SUN
