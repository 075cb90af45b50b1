import Verif.Model.IrProduct
import Verif.Spec.Reduced
import Verif.Proofs.ReducedSpec
import Verif.Proofs.IntertwinerRep
/-!
# The product of two tables of irreps
-/
namespace LieNN

open Finset Matrix Spec

variable {n₁ h₁ n₂ h₂ : ℕ}

theorem sum_prod_fin {a b : ℕ} (f : Fin (a * b) → ℂ) : ∑ x, f x = ∑ i : Fin a, ∑ j : Fin b, f (finProdFinEquiv (i, j)) := by
  rw [← Equiv.sum_comp finProdFinEquiv, Fintype.sum_prod_type]

theorem kron_prod {a b : ℕ} (A : Matrix (Fin a) (Fin a) ℂ) (B : Matrix (Fin b) (Fin b) ℂ) (i i' : Fin a) (j j' : Fin b) :
    kron A B (finProdFinEquiv (i, j)) (finProdFinEquiv (i', j')) = A i i' * B j j' := by
  exact kron_apply A B i j i' j'

theorem cgProd_prod {d₁ d₂ d₃ e₁ e₂ e₃ : ℕ} (C₁ : Fin d₁ → Fin d₂ → Fin d₃ → ℂ)
    (C₂ : Fin e₁ → Fin e₂ → Fin e₃ → ℂ) (i i' j j' k k') :
    cgProd C₁ C₂ (finProdFinEquiv (i, i')) (finProdFinEquiv (j, j')) (finProdFinEquiv (k, k')) =
      C₁ i j k * C₂ i' j' k' := by
  unfold cgProd
  simp only [divNat_prod, modNat_prod]

theorem isCG_product {d₁ d₂ d₃ e₁ e₂ e₃ : ℕ} {r₁ : Rep n₁ h₁ d₁} {r₂ : Rep n₁ h₁ d₂} {r₃ : Rep n₁ h₁ d₃}
    {s₁ : Rep n₂ h₂ e₁} {s₂ : Rep n₂ h₂ e₂} {s₃ : Rep n₂ h₂ e₃} {C₁ : Fin d₁ → Fin d₂ → Fin d₃ → ℂ}
    {C₂ : Fin e₁ → Fin e₂ → Fin e₃ → ℂ} (hC₁ : IsCG r₁ r₂ r₃ C₁) (hC₂ : IsCG s₁ s₂ s₃ C₂) :
    IsCG (r₁.tabulatedProduct s₁) (r₂.tabulatedProduct s₂) (r₃.tabulatedProduct s₃) (cgProd C₁ C₂) := by
  constructor
  · intro a i j l
    obtain ⟨⟨i, i'⟩, rfl⟩ := finProdFinEquiv.surjective i
    obtain ⟨⟨j, j'⟩, rfl⟩ := finProdFinEquiv.surjective j
    obtain ⟨⟨l, l'⟩, rfl⟩ := finProdFinEquiv.surjective l
    simp only [sum_prod_fin, cgProd_prod, Rep.tabulatedProduct]
    split_ifs with ha
    · have := hC₁.1 ⟨a, ha⟩ i j l
      simp only [kron_prod, Matrix.one_apply, mul_ite, mul_one, mul_zero, ite_mul, zero_mul,
        Finset.sum_ite_eq, Finset.sum_ite_eq', Finset.mem_univ, if_true]
      calc _ = (∑ k, C₁ i j k * r₃.X ⟨a, ha⟩ l k) * C₂ i' j' l' := by
            rw [Finset.sum_mul]; exact Finset.sum_congr rfl fun _ _ => by ring
        _ = _ := by
            rw [this, add_mul, Finset.sum_mul, Finset.sum_mul]
            simp only [mul_assoc]
    · have := hC₂.1 ⟨a - n₁, by omega⟩ i' j' l'
      simp only [kron_prod, Matrix.one_apply, mul_ite, mul_one, mul_zero, ite_mul, zero_mul, one_mul,
        Finset.sum_ite_irrel, Finset.sum_const_zero,
        Finset.sum_ite_eq, Finset.sum_ite_eq', Finset.mem_univ, if_true]
      calc _ = C₁ i j l * (∑ k, C₂ i' j' k * s₃.X ⟨a - n₁, by omega⟩ l' k) := by
            rw [Finset.mul_sum]; exact Finset.sum_congr rfl fun _ _ => by ring
        _ = _ := by
            rw [this, mul_add, Finset.mul_sum, Finset.mul_sum]
            congr 1 <;> exact Finset.sum_congr rfl fun _ _ => by ring
  · intro a i j l
    obtain ⟨⟨i, i'⟩, rfl⟩ := finProdFinEquiv.surjective i
    obtain ⟨⟨j, j'⟩, rfl⟩ := finProdFinEquiv.surjective j
    obtain ⟨⟨l, l'⟩, rfl⟩ := finProdFinEquiv.surjective l
    simp only [sum_prod_fin, cgProd_prod, Rep.tabulatedProduct]
    split_ifs with ha
    · have := hC₁.2 ⟨a, ha⟩ i j l
      simp only [kron_prod, Matrix.one_apply, mul_ite, mul_one, mul_zero, ite_mul, zero_mul,
        Finset.sum_ite_irrel, Finset.sum_const_zero,
        Finset.sum_ite_eq, Finset.sum_ite_eq', Finset.mem_univ, if_true]
      calc _ = (∑ k, C₁ i j k * r₃.H ⟨a, ha⟩ l k) * C₂ i' j' l' := by
            rw [Finset.sum_mul]; exact Finset.sum_congr rfl fun _ _ => by ring
        _ = _ := by
            rw [this, Finset.sum_mul]
            simp only [mul_assoc, Finset.sum_mul]
    · have := hC₂.2 ⟨a - h₁, by omega⟩ i' j' l'
      simp only [kron_prod, Matrix.one_apply, mul_ite, mul_one, mul_zero, ite_mul, zero_mul, one_mul,
        Finset.sum_ite_irrel, Finset.sum_const_zero,
        Finset.sum_ite_eq, Finset.sum_ite_eq', Finset.mem_univ, if_true]
      calc _ = C₁ i j l * (∑ k, C₂ i' j' k * s₃.H ⟨a - h₁, by omega⟩ l' k) := by
            rw [Finset.mul_sum]; exact Finset.sum_congr rfl fun _ _ => by ring
        _ = _ := by
            rw [this, Finset.mul_sum]
            refine Finset.sum_congr rfl fun _ _ => ?_
            rw [Finset.mul_sum]
            exact Finset.sum_congr rfl fun _ _ => by ring

theorem product_equivariant {T₁ : Table n₁ h₁} {T₂ : Table n₂ h₂} (H₁ : Equivariant T₁) (H₂ : Equivariant T₂) :
    Equivariant (T₁.product T₂) := by
  rintro i j k hk C hC
  obtain ⟨a, ha, hk'⟩ := List.mem_flatMap.1 hk
  obtain ⟨b, hb, rfl⟩ := List.mem_map.1 hk'
  obtain ⟨C₁, hC₁, hC⟩ := List.mem_flatMap.1 hC
  obtain ⟨C₂, hC₂, rfl⟩ := List.mem_map.1 hC
  exact isCG_product (H₁ _ _ _ ha _ hC₁) (H₂ _ _ _ hb _ hC₂)

theorem product_complete {T₁ : Table n₁ h₁} {T₂ : Table n₂ h₂} {i j : (T₁.product T₂).Ir}
    (H₁ : CGComplete (T := T₁) i.1 j.1) (H₂ : CGComplete (T := T₂) i.2 j.2) :
    CGComplete (T := T₁.product T₂) i j := by
  constructor
  · have e : ∀ (L₁ : List T₁.Ir) (L₂ : List T₂.Ir) (f : T₁.Ir → ℕ) (g : T₂.Ir → ℕ),
        ((L₁.flatMap fun a => L₂.map fun b => (a, b)).map fun k => f k.1 * g k.2).sum =
          (L₁.map f).sum * (L₂.map g).sum := by
      intro L₁ L₂ f g
      induction L₁ with
      | nil => simp
      | cons a L ih =>
        rw [List.flatMap_cons, List.map_append, List.sum_append, ih, List.map_cons, List.sum_cons, add_mul,
          List.map_map, ← List.sum_map_mul_left (f := g) (r := f a)]
        rfl
    have h1 := H₁.1
    have h2 := H₂.1
    refine Eq.trans ?_ ((congrArg₂ (· * ·) h1 h2).trans ?_)
    · rw [← e]
      congr 1
      refine List.map_congr_left fun k _ => ?_
      change ((T₁.cg i.1 j.1 k.1).flatMap fun C₁ => (T₂.cg i.2 j.2 k.2).map fun C₂ => cgProd C₁ C₂).length *
        (T₁.dim k.1 * T₂.dim k.2) = _
      rw [List.length_flatMap]
      simp only [List.length_map, List.map_const', List.sum_replicate, smul_eq_mul]
      ring
    · change T₁.dim i.1 * T₁.dim j.1 * (T₂.dim i.2 * T₂.dim j.2) =
        T₁.dim i.1 * T₂.dim i.2 * (T₁.dim j.1 * T₂.dim j.2)
      ring
  · intro t ht
    have key : ∀ k₁ ∈ T₁.prod i.1 j.1, ∀ C₁ ∈ T₁.cg i.1 j.1 k₁, ∀ l₁,
        (fun (x' : Fin (T₂.dim i.2)) (y' : Fin (T₂.dim j.2)) => ∑ x, ∑ y, C₁ x y l₁ *
          t (finProdFinEquiv (x, x')) (finProdFinEquiv (y, y'))) = 0 := by
      intro k₁ hk₁ C₁ hC₁ l₁
      refine H₂.2 _ fun k₂ hk₂ C₂ hC₂ l₂ => ?_
      have := ht (k₁, k₂) (List.mem_flatMap.2 ⟨_, hk₁, List.mem_map.2 ⟨_, hk₂, rfl⟩⟩) (cgProd C₁ C₂)
        (List.mem_flatMap.2 ⟨_, hC₁, List.mem_map.2 ⟨_, hC₂, rfl⟩⟩) (finProdFinEquiv (l₁, l₂))
      change ∑ x : Fin (T₁.dim i.1 * T₂.dim i.2), ∑ y : Fin (T₁.dim j.1 * T₂.dim j.2),
        cgProd C₁ C₂ x y (finProdFinEquiv (l₁, l₂)) * t x y = 0 at this
      simp only [sum_prod_fin, cgProd_prod] at this
      rw [Finset.sum_comm] at this
      rw [← this]
      refine Finset.sum_congr rfl fun x' _ => ?_
      simp only [Finset.mul_sum]
      rw [Finset.sum_comm]
      refine Finset.sum_congr rfl fun x _ => ?_
      rw [Finset.sum_comm]
      refine Finset.sum_congr rfl fun y _ => Finset.sum_congr rfl fun y' _ => by ring
    ext x y
    obtain ⟨⟨x, x'⟩, rfl⟩ := finProdFinEquiv.surjective (show Fin (T₁.dim i.1 * T₂.dim i.2) from x)
    obtain ⟨⟨y, y'⟩, rfl⟩ := finProdFinEquiv.surjective (show Fin (T₁.dim j.1 * T₂.dim j.2) from y)
    have := H₁.2 (fun x y => t (finProdFinEquiv (x, x')) (finProdFinEquiv (y, y'))) fun k₁ hk₁ C₁ hC₁ l₁ =>
      congrFun (congrFun (key k₁ hk₁ C₁ hC₁ l₁) x') y'
    exact congrFun (congrFun this x) y

theorem product_allClose {d₁ d₂ e₁ e₂ : ℕ} {r₁ : Rep n₁ h₁ d₁} {r₂ : Rep n₁ h₁ d₂}
    {s₁ : Rep n₂ h₂ e₁} {s₂ : Rep n₂ h₂ e₂} (h : AllCloseA r₁.A r₂.A) (h' : AllCloseA s₁.A s₂.A) :
    AllCloseA (r₁.tabulatedProduct s₁).A (r₂.tabulatedProduct s₂).A := by
  intro i j k
  simp only [Rep.tabulatedProduct]
  split_ifs
  all_goals first | exact h _ _ _ | exact h' _ _ _ | exact isClose_refl (by positivity) (by positivity) _

theorem product_goodPair {T₁ : Table n₁ h₁} {T₂ : Table n₂ h₂} {i j : (T₁.product T₂).Ir}
    (H₁ : GoodPair (T := T₁) i.1 j.1) (H₂ : GoodPair (T := T₂) i.2 j.2) :
    GoodPair (T := T₁.product T₂) i j := by
  refine ⟨product_allClose H₁.algebra H₂.algebra, ?_, ?_, product_complete H₁.complete H₂.complete⟩
  · obtain ⟨a, ha⟩ := List.exists_mem_of_ne_nil _ H₁.nonempty
    obtain ⟨b, hb⟩ := List.exists_mem_of_ne_nil _ H₂.nonempty
    exact List.ne_nil_of_mem (List.mem_flatMap.2 ⟨a, ha, List.mem_map.2 ⟨b, hb, rfl⟩⟩)
  · intro k hk
    obtain ⟨a, ha, hk'⟩ := List.mem_flatMap.1 hk
    obtain ⟨b, hb, rfl⟩ := List.mem_map.1 hk'
    obtain ⟨c, hc⟩ := List.exists_mem_of_ne_nil _ (H₁.sols _ ha)
    obtain ⟨c', hc'⟩ := List.exists_mem_of_ne_nil _ (H₂.sols _ hb)
    exact List.ne_nil_of_mem (List.mem_flatMap.2 ⟨c, hc, List.mem_map.2 ⟨c', hc', rfl⟩⟩)

end LieNN
