import Verif.Proofs.SO13CG
/-!
# Representations that are a direct sum of copies of another one
-/
namespace LieNN

open LieNN.Spec Matrix

variable {n d e d₁ d₂ d₃ e₁ e₂ e₃ : ℕ} {ι ι₁ ι₂ : Type} [Fintype ι] [DecidableEq ι] [Fintype ι₁] [DecidableEq ι₁]
  [Fintype ι₂] [DecidableEq ι₂]

/-- The matrices `Y` are the direct sum of copies of the matrices `X`, by the isometries `J`. -/
structure CopiesBy (J : ι → Matrix (Fin e) (Fin d) ℂ) (X : Fin n → Matrix (Fin d) (Fin d) ℂ)
    (Y : Fin n → Matrix (Fin e) (Fin e) ℂ) : Prop where
  orth : ∀ c c', (J c)ᴴ * J c' = if c = c' then 1 else 0
  total : ∑ c, J c * (J c)ᴴ = 1
  comm : ∀ c a, Y a * J c = J c * X a
  comm' : ∀ c a, (J c)ᴴ * Y a = X a * (J c)ᴴ

namespace CopiesBy

section
variable {J₁ : ι₁ → Matrix (Fin e₁) (Fin d₁) ℂ} {J₂ : ι₂ → Matrix (Fin e₂) (Fin d₂) ℂ}
  {X₁ : Fin n → Matrix (Fin d₁) (Fin d₁) ℂ} {X₂ : Fin n → Matrix (Fin d₂) (Fin d₂) ℂ}
  {Y₁ : Fin n → Matrix (Fin e₁) (Fin e₁) ℂ} {Y₂ : Fin n → Matrix (Fin e₂) (Fin e₂) ℂ}

theorem down (h₁ : CopiesBy J₁ X₁ Y₁) (h₂ : CopiesBy J₂ X₂ Y₂) {T : Matrix (Fin e₁) (Fin e₂) ℂ}
    (hT : T ∈ intertwiners Y₁ Y₂) (c : ι₁ × ι₂) : (J₁ c.1)ᴴ * T * J₂ c.2 ∈ intertwiners X₁ X₂ := by
  intro a
  calc X₁ a * ((J₁ c.1)ᴴ * T * J₂ c.2) = (X₁ a * (J₁ c.1)ᴴ) * T * J₂ c.2 := by simp only [Matrix.mul_assoc]
    _ = (J₁ c.1)ᴴ * (Y₁ a * T) * J₂ c.2 := by rw [← h₁.comm']; simp only [Matrix.mul_assoc]
    _ = (J₁ c.1)ᴴ * T * (Y₂ a * J₂ c.2) := by rw [hT a]; simp only [Matrix.mul_assoc]
    _ = _ := by rw [h₂.comm]; simp only [Matrix.mul_assoc]

theorem up (h₁ : CopiesBy J₁ X₁ Y₁) (h₂ : CopiesBy J₂ X₂ Y₂) {S : Matrix (Fin d₁) (Fin d₂) ℂ}
    (hS : S ∈ intertwiners X₁ X₂) (c : ι₁) (c' : ι₂) : J₁ c * S * (J₂ c')ᴴ ∈ intertwiners Y₁ Y₂ := by
  intro a
  calc Y₁ a * (J₁ c * S * (J₂ c')ᴴ) = (Y₁ a * J₁ c) * S * (J₂ c')ᴴ := by simp only [Matrix.mul_assoc]
    _ = J₁ c * (X₁ a * S) * (J₂ c')ᴴ := by rw [h₁.comm]; simp only [Matrix.mul_assoc]
    _ = J₁ c * S * (X₂ a * (J₂ c')ᴴ) := by rw [hS a]; simp only [Matrix.mul_assoc]
    _ = _ := by rw [← h₂.comm']; simp only [Matrix.mul_assoc]

/-- An intertwiner between sums of copies is a family of intertwiners. -/
noncomputable def equiv (h₁ : CopiesBy J₁ X₁ Y₁) (h₂ : CopiesBy J₂ X₂ Y₂) :
    intertwiners Y₁ Y₂ ≃ₗ[ℂ] (ι₁ × ι₂ → intertwiners X₁ X₂) where
  toFun T c := ⟨(J₁ c.1)ᴴ * T.1 * J₂ c.2, down h₁ h₂ T.2 c⟩
  map_add' T T' := by
    funext c
    apply Subtype.ext
    show (J₁ c.1)ᴴ * (T.1 + T'.1) * J₂ c.2 = (J₁ c.1)ᴴ * T.1 * J₂ c.2 + (J₁ c.1)ᴴ * T'.1 * J₂ c.2
    rw [Matrix.mul_add, Matrix.add_mul]
  map_smul' z T := by
    funext c
    apply Subtype.ext
    show (J₁ c.1)ᴴ * (z • T.1) * J₂ c.2 = z • ((J₁ c.1)ᴴ * T.1 * J₂ c.2)
    rw [Matrix.mul_smul, Matrix.smul_mul]
  invFun S := ⟨∑ c, J₁ c.1 * (S c).1 * (J₂ c.2)ᴴ, Submodule.sum_mem _ fun c _ => up h₁ h₂ (S c).2 _ _⟩
  left_inv T := by
    apply Subtype.ext
    show ∑ c : ι₁ × ι₂, J₁ c.1 * ((J₁ c.1)ᴴ * T.1 * J₂ c.2) * (J₂ c.2)ᴴ = T.1
    calc _ = ∑ c : ι₁ × ι₂, (J₁ c.1 * (J₁ c.1)ᴴ) * T.1 * (J₂ c.2 * (J₂ c.2)ᴴ) := by simp only [Matrix.mul_assoc]
      _ = (∑ c, J₁ c * (J₁ c)ᴴ) * T.1 * ∑ c, J₂ c * (J₂ c)ᴴ := by
        rw [Fintype.sum_prod_type, Matrix.sum_mul, Matrix.sum_mul]
        refine Finset.sum_congr rfl fun c _ => ?_
        rw [Matrix.mul_sum]
      _ = T.1 := by rw [h₁.total, h₂.total, Matrix.one_mul, Matrix.mul_one]
  right_inv S := by
    funext c
    apply Subtype.ext
    show (J₁ c.1)ᴴ * (∑ b : ι₁ × ι₂, J₁ b.1 * (S b).1 * (J₂ b.2)ᴴ) * J₂ c.2 = (S c).1
    rw [Matrix.mul_sum, Matrix.sum_mul]
    calc _ = ∑ b : ι₁ × ι₂, ((J₁ c.1)ᴴ * J₁ b.1) * (S b).1 * ((J₂ b.2)ᴴ * J₂ c.2) := by simp only [Matrix.mul_assoc]
      _ = (S c).1 := by
        rw [Finset.sum_eq_single c]
        · rw [h₁.orth, h₂.orth, if_pos rfl, if_pos rfl, Matrix.one_mul, Matrix.mul_one]
        · intro b _ hb
          rw [h₁.orth, h₂.orth]
          by_cases h1 : c.1 = b.1
          · rw [if_neg (fun h2 : b.2 = c.2 => hb (Prod.ext h1.symm h2)), Matrix.mul_zero]
          · rw [if_neg h1, Matrix.zero_mul, Matrix.zero_mul]
        · simp

theorem finrank_eq (h₁ : CopiesBy J₁ X₁ Y₁) (h₂ : CopiesBy J₂ X₂ Y₂) :
    Module.finrank ℂ (intertwiners Y₁ Y₂) =
      Fintype.card ι₁ * Fintype.card ι₂ * Module.finrank ℂ (intertwiners X₁ X₂) := by
  rw [(equiv h₁ h₂).finrank_eq, Module.finrank_pi_fintype, Finset.sum_const, Finset.card_univ, Fintype.card_prod,
    smul_eq_mul]
end

/-- `kron` of rectangular matrices. -/
def kronR (A : Matrix (Fin e₁) (Fin d₁) ℂ) (B : Matrix (Fin e₂) (Fin d₂) ℂ) :
    Matrix (Fin (e₁ * e₂)) (Fin (d₁ * d₂)) ℂ := fun r c => A r.divNat c.divNat * B r.modNat c.modNat

theorem kronR_prod (A : Matrix (Fin e₁) (Fin d₁) ℂ) (B : Matrix (Fin e₂) (Fin d₂) ℂ) (i j k l) :
    kronR A B (finProdFinEquiv (i, j)) (finProdFinEquiv (k, l)) = A i k * B j l := by
  unfold kronR
  simp only [divNat_prod, modNat_prod]

theorem kronR_mul {f₁ f₂ : ℕ} (A : Matrix (Fin e₁) (Fin d₁) ℂ) (B : Matrix (Fin e₂) (Fin d₂) ℂ)
    (A' : Matrix (Fin d₁) (Fin f₁) ℂ) (B' : Matrix (Fin d₂) (Fin f₂) ℂ) :
    kronR A B * kronR A' B' = kronR (A * A') (B * B') := by
  ext r c
  obtain ⟨⟨i, j⟩, rfl⟩ := finProdFinEquiv.surjective r
  obtain ⟨⟨k, l⟩, rfl⟩ := finProdFinEquiv.surjective c
  rw [Matrix.mul_apply, ← finProdFinEquiv.sum_comp, Fintype.sum_prod_type, kronR_prod, Matrix.mul_apply, Matrix.mul_apply,
    Finset.sum_mul]
  refine Finset.sum_congr rfl fun x _ => ?_
  rw [Finset.mul_sum]
  refine Finset.sum_congr rfl fun y _ => ?_
  rw [kronR_prod, kronR_prod]
  ring

theorem kronR_conj (A : Matrix (Fin e₁) (Fin d₁) ℂ) (B : Matrix (Fin e₂) (Fin d₂) ℂ) :
    (kronR A B)ᴴ = kronR Aᴴ Bᴴ := by
  ext r c
  simp [kronR]

theorem kronR_one : kronR (1 : Matrix (Fin e₁) (Fin e₁) ℂ) (1 : Matrix (Fin e₂) (Fin e₂) ℂ) = 1 := by
  ext r c
  obtain ⟨⟨i, j⟩, rfl⟩ := finProdFinEquiv.surjective r
  obtain ⟨⟨k, l⟩, rfl⟩ := finProdFinEquiv.surjective c
  rw [kronR_prod, Matrix.one_apply, Matrix.one_apply, Matrix.one_apply]
  simp only [EmbeddingLike.apply_eq_iff_eq, Prod.mk.injEq]
  split_ifs <;> simp_all

theorem kron_eq (A : Matrix (Fin e₁) (Fin e₁) ℂ) (B : Matrix (Fin e₂) (Fin e₂) ℂ) : kron A B = kronR A B := by
  ext r c
  obtain ⟨⟨i, j⟩, rfl⟩ := finProdFinEquiv.surjective r
  obtain ⟨⟨k, l⟩, rfl⟩ := finProdFinEquiv.surjective c
  rw [kronR_prod, kron_prod]

theorem kronR_sum {J₁ : ι₁ → Matrix (Fin e₁) (Fin d₁) ℂ} {J₂ : ι₂ → Matrix (Fin e₂) (Fin d₂) ℂ} :
    ∑ c : ι₁ × ι₂, kronR (J₁ c.1) (J₂ c.2) = kronR (∑ c, J₁ c) (∑ c, J₂ c) := by
  ext r c
  rw [Matrix.sum_apply, Fintype.sum_prod_type]
  unfold kronR
  simp only [Matrix.sum_apply]
  rw [Finset.sum_mul_sum]

theorem tens {J₁ : ι₁ → Matrix (Fin e₁) (Fin d₁) ℂ} {J₂ : ι₂ → Matrix (Fin e₂) (Fin d₂) ℂ} {r₁ : Rep n 0 d₁}
    {r₂ : Rep n 0 d₂} {s₁ : Rep n 0 e₁} {s₂ : Rep n 0 e₂} (h₁ : CopiesBy J₁ r₁.X s₁.X) (h₂ : CopiesBy J₂ r₂.X s₂.X) :
    CopiesBy (fun c : ι₁ × ι₂ => kronR (J₁ c.1) (J₂ c.2)) (r₁.tensorProduct r₂).X (s₁.tensorProduct s₂).X where
  orth c c' := by
    rw [kronR_conj, kronR_mul, h₁.orth, h₂.orth]
    by_cases h1 : c.1 = c'.1
    · by_cases h2 : c.2 = c'.2
      · rw [if_pos h1, if_pos h2, if_pos (Prod.ext h1 h2), kronR_one]
      · rw [if_neg h2, if_neg (fun h => h2 (congrArg Prod.snd h))]
        ext r c
        simp [kronR]
    · rw [if_neg h1, if_neg (fun h => h1 (congrArg Prod.fst h))]
      ext r c
      simp [kronR]
  total := by
    simp only [kronR_conj, kronR_mul]
    rw [kronR_sum (J₁ := fun c => J₁ c * (J₁ c)ᴴ) (J₂ := fun c => J₂ c * (J₂ c)ᴴ), h₁.total, h₂.total, kronR_one]
  comm c a := by
    show (kron (s₁.X a) 1 + kron 1 (s₂.X a)) * _ = _ * (kron (r₁.X a) 1 + kron 1 (r₂.X a))
    rw [kron_eq, kron_eq, kron_eq, kron_eq, Matrix.add_mul, Matrix.mul_add, kronR_mul, kronR_mul, kronR_mul, kronR_mul,
      h₁.comm, h₂.comm, Matrix.one_mul, Matrix.mul_one, Matrix.one_mul, Matrix.mul_one]
  comm' c a := by
    show (kronR (J₁ c.1) (J₂ c.2))ᴴ * (kron (s₁.X a) 1 + kron 1 (s₂.X a)) = (kron (r₁.X a) 1 + kron 1 (r₂.X a)) * _
    rw [kronR_conj, kron_eq, kron_eq, kron_eq, kron_eq, Matrix.add_mul, Matrix.mul_add, kronR_mul, kronR_mul, kronR_mul, kronR_mul,
      h₁.comm', h₂.comm', Matrix.one_mul, Matrix.mul_one, Matrix.one_mul, Matrix.mul_one]

theorem all {J : ι → Matrix (Fin e) (Fin d) ℂ} {r : Rep n 0 d} {s : Rep n 0 e} (h : CopiesBy J r.X s.X) :
    CopiesBy (n := n + 0) J r.allGens s.allGens where
  orth := h.orth
  total := h.total
  comm c a := by
    have e1 : r.allGens a = r.X a := Fin.append_left r.X r.H a
    have e2 : s.allGens a = s.X a := Fin.append_left s.X s.H a
    rw [e1, e2, h.comm]
  comm' c a := by
    have e1 : r.allGens a = r.X a := Fin.append_left r.X r.H a
    have e2 : s.allGens a = s.X a := Fin.append_left s.X s.H a
    rw [e1, e2, h.comm']

/-- The number of independent equivariant arrays between sums of copies. -/
theorem finrank_cg {ι₃ : Type} [Fintype ι₃] [DecidableEq ι₃] {J₁ : ι₁ → Matrix (Fin e₁) (Fin d₁) ℂ} {J₂ : ι₂ → Matrix (Fin e₂) (Fin d₂) ℂ}
    {J₃ : ι₃ → Matrix (Fin e₃) (Fin d₃) ℂ} {r₁ : Rep n 0 d₁} {r₂ : Rep n 0 d₂} {r₃ : Rep n 0 d₃} {s₁ : Rep n 0 e₁}
    {s₂ : Rep n 0 e₂} {s₃ : Rep n 0 e₃} (h₁ : CopiesBy J₁ r₁.X s₁.X) (h₂ : CopiesBy J₂ r₂.X s₂.X)
    (h₃ : CopiesBy J₃ r₃.X s₃.X) : Module.finrank ℂ (cgSpace s₁ s₂ s₃) =
      Fintype.card ι₃ * (Fintype.card ι₁ * Fintype.card ι₂) * Module.finrank ℂ (cgSpace r₁ r₂ r₃) := by
  rw [SO13.cgSpace_map, SO13.cgSpace_map, LinearEquiv.finrank_map_eq, LinearEquiv.finrank_map_eq,
    finrank_eq h₃.all (tens h₁ h₂).all, Fintype.card_prod]

end CopiesBy
end LieNN
