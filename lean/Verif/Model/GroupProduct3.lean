import Verif.Model.IrProduct
/-!
# `group_product` of three arguments
-/
namespace LieNN

variable {n₁ h₁ d₁ n₂ h₂ d₂ n₃ h₃ d₃ : ℕ}

/-- `group_product(rep1, rep2, rep3)` (generic, `/repo/lie_nn/_src/group_product.py` lines 48-50). -/
def Rep.groupProduct3 (r₁ : Rep n₁ h₁ d₁) (r₂ : Rep n₂ h₂ d₂) (r₃ : Rep n₃ h₃ d₃) :
    Rep (n₁ + n₂ + n₃) (h₁ + h₂ + h₃) (d₁ * d₂ * d₃) :=
  (r₁.groupProduct r₂).groupProduct r₃

/-- The arrays of `group_product(rep1, rep2, rep3)` of labels, a `TabulatedIrrepProduct` of a `TabulatedIrrepProduct`
(`/repo/lie_nn/_src/group_product.py` lines 134-138). -/
def Rep.tabulatedProduct3 (r₁ : Rep n₁ h₁ d₁) (r₂ : Rep n₂ h₂ d₂) (r₃ : Rep n₃ h₃ d₃) :
    Rep (n₁ + n₂ + n₃) (h₁ + h₂ + h₃) (d₁ * d₂ * d₃) :=
  (r₁.tabulatedProduct r₂).tabulatedProduct r₃

/-- The class of the labels that `group_product(rep1, rep2, rep3)` returns (`/repo/lie_nn/_src/group_product.py` lines 134-138). -/
def Table.product3 (T₁ : Table n₁ h₁) (T₂ : Table n₂ h₂) (T₃ : Table n₃ h₃) : Table (n₁ + n₂ + n₃) (h₁ + h₂ + h₃) :=
  (T₁.product T₂).product T₃

/-- `group_product(rep1, rep2, rep3)` of labels (`/repo/lie_nn/_src/group_product.py` lines 134-138). -/
def Table.groupProduct3 (T₁ : Table n₁ h₁) (T₂ : Table n₂ h₂) (T₃ : Table n₃ h₃) (i₁ : T₁.Ir) (i₂ : T₂.Ir) (i₃ : T₃.Ir) :
    (Table.product3 T₁ T₂ T₃).Ir :=
  ((i₁, i₂), i₃)

end LieNN
