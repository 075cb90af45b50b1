import Verif.Model.Reduced
/-!
# `TabulatedIrrepProduct` (`/repo/lie_nn/_src/group_product.py` lines 53-126) as a table of irreps

Simplification: the two factors are tables, hence selection rules and coefficients that do not raise.
-/
namespace LieNN

variable {n₁ h₁ n₂ h₂ : ℕ}

/-- `np.einsum("aikm,bjln->abijklmn", C1, C2)` reshaped to `(rep1.dim, rep2.dim, rep3.dim)`, for one
pair of solutions (`/repo/lie_nn/_src/group_product.py` lines 77-81). -/
def cgProd {d₁ d₂ d₃ e₁ e₂ e₃ : ℕ} (C₁ : Fin d₁ → Fin d₂ → Fin d₃ → ℂ)
    (C₂ : Fin e₁ → Fin e₂ → Fin e₃ → ℂ) : Fin (d₁ * e₁) → Fin (d₂ * e₂) → Fin (d₃ * e₃) → ℂ :=
  fun x y z => C₁ x.divNat y.divNat z.divNat * C₂ x.modNat y.modNat z.modNat

/-- `TabulatedIrrepProduct` over two tables: `dim` (lines 84-86), generators and structure constants
(lines 95-126), `__mul__` (lines 61-67), `clebsch_gordan` (lines 69-82). -/
def Table.product (T₁ : Table n₁ h₁) (T₂ : Table n₂ h₂) : Table (n₁ + n₂) (h₁ + h₂) where
  Ir := T₁.Ir × T₂.Ir
  dim := fun r => T₁.dim r.1 * T₂.dim r.2
  rep := fun r => (T₁.rep r.1).tabulatedProduct (T₂.rep r.2)
  prod := fun r s => (T₁.prod r.1 s.1).flatMap fun a => (T₂.prod r.2 s.2).map fun b => (a, b)
  cg := fun i j k => (T₁.cg i.1 j.1 k.1).flatMap fun C₁ => (T₂.cg i.2 j.2 k.2).map fun C₂ =>
    cgProd C₁ C₂

end LieNN
