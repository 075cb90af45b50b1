import Mathlib.Algebra.MonoidAlgebra.Basic
import Mathlib.GroupTheory.Perm.Sign
import Mathlib.Order.Fin.Basic
import Mathlib.Data.Fintype.Perm
import Mathlib.Tactic.Ring
import Mathlib.Tactic.Linarith
/-!
# Alternating sums of exponentials
-/
namespace LieNN.LR

open Finset AddMonoidAlgebra

variable {n : ℕ}

/-- Formal integer combinations of weights. -/
abbrev GRing (n : ℕ) : Type := AddMonoidAlgebra ℤ (Fin n → ℤ)

/-- The alternating sum of the exponentials of the permutations of `κ`. -/
noncomputable def alt (κ : Fin n → ℤ) : GRing n :=
  ∑ σ : Equiv.Perm (Fin n), ((Equiv.Perm.sign σ : ℤˣ) : ℤ) • single (κ ∘ σ) (1 : ℤ)

theorem alt_perm (κ : Fin n → ℤ) (τ : Equiv.Perm (Fin n)) :
    alt (κ ∘ τ) = ((Equiv.Perm.sign τ : ℤˣ) : ℤ) • alt κ := by
  rw [alt, alt, smul_sum]
  refine (Fintype.sum_equiv (Equiv.mulLeft τ) _ _ fun σ => ?_)
  have e : κ ∘ ⇑(Equiv.mulLeft τ σ) = (κ ∘ τ) ∘ σ := by
    funext i; simp
  rw [e, smul_smul]
  congr 1
  rw [Equiv.coe_mulLeft, Equiv.Perm.sign_mul, Units.val_mul, ← mul_assoc]
  rcases Int.units_eq_one_or (Equiv.Perm.sign τ) with h | h <;> rw [h] <;> simp

theorem alt_swap (κ : Fin n → ℤ) {i j : Fin n} (h : i ≠ j) : alt (κ ∘ Equiv.swap i j) = - alt κ := by
  rw [alt_perm, Equiv.Perm.sign_swap h]; simp

theorem perm_of_strictAnti {κ κ' : Fin n → ℤ} (h : StrictAnti κ) (h' : StrictAnti κ') {σ : Equiv.Perm (Fin n)}
    (e : κ ∘ σ = κ') : σ = 1 := by
  have hm : StrictMono σ := by
    intro i j hij
    have h1 := h' hij
    rw [← e] at h1
    exact h.lt_iff_gt.1 h1
  have : (σ : Fin n → Fin n) = id := by
    refine (hm.range_inj strictMono_id).1 ?_
    rw [σ.surjective.range_eq]; simp
  ext i
  rw [this]; rfl

theorem alt_coeff {κ κ' : Fin n → ℤ} (h : StrictAnti κ) (h' : StrictAnti κ') :
    (alt κ).coeff κ' = if κ = κ' then 1 else 0 := by
  rw [alt, coeff_sum, Finsupp.finsetSum_apply]
  by_cases e : κ = κ'
  · rw [if_pos e, sum_eq_single 1]
    · subst e; simp
    · intro σ _ hσ
      have : κ ∘ σ ≠ κ' := fun he => hσ (perm_of_strictAnti h h' he)
      simp [this]
    · simp
  · rw [if_neg e]
    refine sum_eq_zero fun σ _ => ?_
    have : κ ∘ σ ≠ κ' := by
      intro he
      have := perm_of_strictAnti h h' he
      subst this
      exact e (by simpa using he)
    simp [this]

/-- The weights of the family are symmetric. -/
def SymW {P : Type*} (s : Finset P) (w : P → Fin n → ℤ) : Prop :=
  ∀ (σ : Equiv.Perm (Fin n)) (f : (Fin n → ℤ) → GRing n), ∑ p ∈ s, f (w p ∘ σ) = ∑ p ∈ s, f (w p)

/-- The formal character of a family of weights. -/
noncomputable def chr {P : Type*} (s : Finset P) (w : P → Fin n → ℤ) : GRing n := ∑ p ∈ s, single (w p) (1 : ℤ)

theorem alt_mul_chr {P : Type*} {s : Finset P} {w : P → Fin n → ℤ} (h : SymW s w) (κ : Fin n → ℤ) :
    alt κ * chr s w = ∑ p ∈ s, alt (κ + w p) := by
  simp only [alt, chr]
  rw [sum_mul, sum_comm]
  refine sum_congr rfl fun σ _ => ?_
  rw [smul_mul_assoc, mul_sum, ← smul_sum]
  congr 1
  have := h σ (fun v => single (κ ∘ σ + v) (1 : ℤ))
  rw [sum_congr rfl fun p _ => (single_mul_single (R := ℤ) (κ ∘ σ) (w p) 1 1), mul_one, ← this]
  rfl

theorem symW_of_swap {m : ℕ} {P : Type*} {s : Finset P} {w : P → Fin (m + 1) → ℤ}
    (h : ∀ (i : Fin m) (f : (Fin (m + 1) → ℤ) → GRing (m + 1)),
      ∑ p ∈ s, f (w p ∘ Equiv.swap i.castSucc i.succ) = ∑ p ∈ s, f (w p)) : SymW s w := by
  intro σ
  have hσ : σ ∈ Submonoid.closure (Set.range fun i : Fin m ↦ Equiv.swap i.castSucc i.succ) := by
    rw [Equiv.Perm.mclosure_swap_castSucc_succ]; trivial
  induction hσ using Submonoid.closure_induction with
  | mem τ hτ => obtain ⟨i, rfl⟩ := hτ; exact h i
  | one => intro f; rfl
  | mul τ τ' _ _ h1 h2 =>
    intro f
    have e1 := h1 (fun v => f (v ∘ τ'))
    have e2 := h2 f
    rw [← e2, ← e1]
    rfl

/-- The exponents of the denominator. -/
def rho (n : ℕ) (i : Fin n) : ℤ := (n : ℤ) - 1 - i

theorem rho_add_strictAnti {κ : Fin n → ℤ} (h : Antitone κ) : StrictAnti (κ + rho n) := by
  intro i j hij
  have := h hij.le
  simp only [Pi.add_apply, rho]
  have : (i : ℕ) < j := hij
  omega

end LieNN.LR
