import Verif.Spec.TensorBasis
import Verif.Props.SU2
import Verif.Props.SO3
import Verif.Props.SL2C
import Verif.Props.Iter

/-!
# The tables of the library that meet the hypotheses of the reduced tensor product
-/
namespace LieNN.TBasis

open Matrix LieNN.Spec

theorem real_of {a b c : ℕ} {l : List (Fin a → Fin b → Fin c → ℂ)}
    (h : l = [] ∨ ∃ L : List (Fin a → Fin b → Fin c → ℝ), l = L.map fun C a b c => ((C a b c : ℝ) : ℂ)) :
    ∀ C ∈ l, ∀ i j k, (C i j k).im = 0 := by
  intro C hC i j k
  rcases h with rfl | ⟨L, rfl⟩
  · simp at hC
  · obtain ⟨D, _, rfl⟩ := List.mem_map.1 hC
    exact Complex.ofReal_im _

theorem smul_differ {d : ℕ} {x y : ℂ} (hxy : x ≠ y) {M : Matrix (Fin d) (Fin d) ℂ}
    (hM : (x • (1 : Matrix (Fin d) (Fin d) ℂ)) * M = M * (y • (1 : Matrix (Fin d) (Fin d) ℂ))) : M = 0 := by
  rw [Matrix.smul_mul, Matrix.mul_smul, Matrix.one_mul, Matrix.mul_one, ← sub_eq_zero, ← sub_smul,
    smul_eq_zero] at hM
  exact hM.resolve_left fun e => hxy (sub_eq_zero.1 e)

theorem one_scalar (M : Matrix (Fin 1) (Fin 1) ℂ) : ∃ c : ℂ, M = c • (1 : Matrix (Fin 1) (Fin 1) ℂ) := by
  refine ⟨M 0 0, ?_⟩
  ext a b
  have ha := Subsingleton.elim a 0
  have hb := Subsingleton.elim b 0
  subst ha hb
  simp

theorem z2_real (i j k : ℤ) : ∀ C ∈ Z2.cg i j k, ∀ x y z, (C x y z).im = 0 := by
  intro C hC x y z
  unfold Z2.cg at hC
  split_ifs at hC
  · rw [List.mem_singleton] at hC
    rw [hC]; rfl
  · simp at hC

theorem su2_goodTable : GoodTable SU2.table where
  pos := fun i => Nat.succ_pos _
  schur :=
    { scalar := fun i M hX _ => SU2.commutant M fun a => (hX a).symm
      differ := fun i j hij M hX _ => by
        have : M ∈ intertwiners (SU2.gens i) (SU2.gens j) := hX
        rw [Props.C36_inequivalent hij] at this
        exact (Submodule.mem_bot ℂ).1 this }
  equi := SU2.table_equivariant
  pair := SU2.table_good
  real := fun i j k => real_of (by
    rcases h : SU2.cg i j k with e | L
    · exact .inl (by simp only [SU2.table, h])
    · exact .inr ⟨L, by simp only [SU2.table, h]⟩)

theorem so3_differ {i j : ℕ} (hij : i ≠ j) (M : Matrix (Fin (SO3.dim i)) (Fin (SO3.dim j)) ℂ)
    (hX : ∀ a, (SO3.rep i).X a * M = M * (SO3.rep j).X a) : M = 0 := by
  have h1 := SO3.changeBasis_mul i
  have h2 := SO3.changeBasis_mul' i
  have g1 := SO3.changeBasis_mul j
  have g2 := SO3.changeBasis_mul' j
  have hT : SO3.changeBasis i * M * (SO3.changeBasis j)ᴴ ∈ intertwiners (SU2.gens (2 * i)) (SU2.gens (2 * j)) := by
    intro a
    have := hX a
    rw [SO3.rep_X, SO3.rep_X] at this
    calc SU2.gens (2 * i) a * (SO3.changeBasis i * M * (SO3.changeBasis j)ᴴ)
        = SO3.changeBasis i * ((SO3.changeBasis i)ᴴ * SU2.gens (2 * i) a * SO3.changeBasis i * M) *
            (SO3.changeBasis j)ᴴ := by
          simp only [← Matrix.mul_assoc]; rw [h1, Matrix.one_mul]
      _ = SO3.changeBasis i * M * ((SO3.changeBasis j)ᴴ * SU2.gens (2 * j) a) *
            (SO3.changeBasis j * (SO3.changeBasis j)ᴴ) := by
          rw [this]; simp only [Matrix.mul_assoc]
      _ = _ := by rw [g1, Matrix.mul_one]; simp only [Matrix.mul_assoc]
  rw [Props.C36_inequivalent (by omega), Submodule.mem_bot] at hT
  calc M = (SO3.changeBasis i)ᴴ * (SO3.changeBasis i * M * (SO3.changeBasis j)ᴴ) * SO3.changeBasis j := by
        simp only [← Matrix.mul_assoc]
        rw [h2, Matrix.one_mul, Matrix.mul_assoc, g2, Matrix.mul_one]
    _ = 0 := by rw [hT]; simp

theorem so3_goodTable : GoodTable SO3.table where
  pos := fun i => Nat.succ_pos _
  schur :=
    { scalar := fun i M hX _ => Props.C37_irreducible i M hX
      differ := fun i j hij M hX _ => so3_differ hij M hX }
  equi := SO3.table_equivariant
  pair := SO3.table_good
  real := fun i j k => real_of (by
    rcases h : SO3.cg i j k with e | L
    · exact .inl (by simp only [SO3.table, h])
    · exact .inr ⟨L, by simp only [SO3.table, h]⟩)

theorem o3_goodTable : GoodTable O3.table where
  pos := fun i => Nat.succ_pos _
  schur :=
    { scalar := fun i M hX _ => Props.C37_irreducible i.l M hX
      differ := fun i j hij M hX hH => by
        obtain ⟨l, p⟩ := i
        obtain ⟨l', p'⟩ := j
        by_cases hl : l = l'
        · subst hl
          have hp : p ≠ p' := fun e => hij (by rw [e])
          exact smul_differ (fun e => hp (Int.cast_injective e)) (hH 0)
        · exact so3_differ hl M hX }
  equi := O3.table_equivariant
  pair := O3.table_good
  real := fun i j k => real_of (by
    rcases h : O3.cg i j k with e | L
    · exact .inl (by simp only [O3.table, h])
    · exact .inr ⟨L, by simp only [O3.table, h]⟩)

theorem z2_goodTable : GoodTable Z2.table where
  pos := fun _ => Nat.one_pos
  schur :=
    { scalar := fun _ M _ _ => one_scalar M
      differ := fun _ _ hij _ _ hH =>
        smul_differ (fun e => hij (Int.cast_injective (α := ℂ) e)) (hH 0) }
  equi := Z2.table_equivariant
  pair := Z2.table_good
  real := z2_real

theorem sl2c_goodTable : GoodTable SL2C.table where
  pos := fun i => Nat.mul_pos (Nat.succ_pos _) (Nat.succ_pos _)
  schur :=
    { scalar := fun i M hX _ => SL2C.commutant i M fun a => (hX a).symm
      differ := fun i j hij M hX _ => SL2C.inequivalent hij M hX }
  equi := SL2C.table_equivariant
  pair := SL2C.table_good
  real := fun i j k => real_of (by
    rcases h : SL2C.cg i j k with e | L
    · exact .inl (by simp only [SL2C.table, h])
    · exact .inr ⟨L, by simp only [SL2C.table, h]⟩)

theorem kron_inter_left {a a' b b' : ℕ} {ι : Type} (X : ι → Matrix (Fin a) (Fin a) ℂ)
    (Y : ι → Matrix (Fin a') (Fin a') ℂ) (hX : ∀ S : Matrix (Fin a) (Fin a') ℂ, (∀ i, X i * S = S * Y i) → S = 0)
    {S : Matrix (Fin (a * b)) (Fin (a' * b')) ℂ} (h1 : ∀ i, kron (X i) 1 * S = S * kron (Y i) 1) : S = 0 := by
  have e1 : ∀ k l, Matrix.of (fun (i : Fin a) (j : Fin a') => S (finProdFinEquiv (i, k)) (finProdFinEquiv (j, l))) = 0 := by
    intro k l
    refine hX _ fun i => ?_
    ext r c
    have := congrFun (congrFun (h1 i) (finProdFinEquiv (r, k))) (finProdFinEquiv (c, l))
    rw [Matrix.mul_apply, Matrix.mul_apply, sum_prod_fin, sum_prod_fin] at this
    simp only [kron_prod, Matrix.one_apply, mul_ite, mul_one, mul_zero, ite_mul, zero_mul,
        Finset.sum_ite_eq, Finset.sum_ite_eq', Finset.mem_univ, if_true] at this
    rw [Matrix.mul_apply, Matrix.mul_apply]
    simpa only [Matrix.of_apply] using this
  ext r s
  obtain ⟨⟨i, k⟩, rfl⟩ := finProdFinEquiv.surjective r
  obtain ⟨⟨j, l⟩, rfl⟩ := finProdFinEquiv.surjective s
  exact congrFun (congrFun (e1 k l) i) j

theorem kron_inter_right {a a' b b' : ℕ} {ι : Type} (X : ι → Matrix (Fin b) (Fin b) ℂ)
    (Y : ι → Matrix (Fin b') (Fin b') ℂ) (hX : ∀ S : Matrix (Fin b) (Fin b') ℂ, (∀ i, X i * S = S * Y i) → S = 0)
    {S : Matrix (Fin (a * b)) (Fin (a' * b')) ℂ} (h1 : ∀ i, kron 1 (X i) * S = S * kron 1 (Y i)) : S = 0 := by
  have e1 : ∀ i j, Matrix.of (fun (k : Fin b) (l : Fin b') => S (finProdFinEquiv (i, k)) (finProdFinEquiv (j, l))) = 0 := by
    intro i j
    refine hX _ fun x => ?_
    ext r c
    have := congrFun (congrFun (h1 x) (finProdFinEquiv (i, r))) (finProdFinEquiv (j, c))
    rw [Matrix.mul_apply, Matrix.mul_apply, sum_prod_fin, sum_prod_fin] at this
    simp only [kron_prod, Matrix.one_apply, mul_ite, mul_zero, ite_mul, zero_mul, one_mul,
        Finset.sum_ite_irrel, Finset.sum_const_zero,
        Finset.sum_ite_eq, Finset.sum_ite_eq', Finset.mem_univ, if_true] at this
    rw [Matrix.mul_apply, Matrix.mul_apply]
    simpa only [Matrix.of_apply] using this
  ext r s
  obtain ⟨⟨i, k⟩, rfl⟩ := finProdFinEquiv.surjective r
  obtain ⟨⟨j, l⟩, rfl⟩ := finProdFinEquiv.surjective s
  exact congrFun (congrFun (e1 i j) k) l

theorem tabulated_differ {n₁ h₁ n₂ h₂ d₁ d₂ e₁ e₂ : ℕ} (r₁ : Rep n₁ h₁ d₁) (r₂ : Rep n₂ h₂ d₂)
    (s₁ : Rep n₁ h₁ e₁) (s₂ : Rep n₂ h₂ e₂)
    (H : (∀ S : Matrix (Fin d₁) (Fin e₁) ℂ, (∀ a, r₁.X a * S = S * s₁.X a) → (∀ a, r₁.H a * S = S * s₁.H a) →
        S = 0) ∨
      ∀ S : Matrix (Fin d₂) (Fin e₂) ℂ, (∀ a, r₂.X a * S = S * s₂.X a) → (∀ a, r₂.H a * S = S * s₂.H a) → S = 0)
    (S : Matrix (Fin (d₁ * d₂)) (Fin (e₁ * e₂)) ℂ)
    (hX : ∀ a, (r₁.tabulatedProduct r₂).X a * S = S * (s₁.tabulatedProduct s₂).X a)
    (hH : ∀ a, (r₁.tabulatedProduct r₂).H a * S = S * (s₁.tabulatedProduct s₂).H a) : S = 0 := by
  rcases H with H | H
  · refine kron_inter_left (ι := Fin n₁ ⊕ Fin h₁) (Sum.elim r₁.X r₁.H) (Sum.elim s₁.X s₁.H)
      (fun S hS => H S (fun a => hS (.inl a)) fun a => hS (.inr a)) ?_
    rintro (a | a)
    · have := hX (Fin.castAdd _ a)
      simpa [Rep.tabulatedProduct] using this
    · have := hH (Fin.castAdd _ a)
      simpa [Rep.tabulatedProduct] using this
  · refine kron_inter_right (ι := Fin n₂ ⊕ Fin h₂) (Sum.elim r₂.X r₂.H) (Sum.elim s₂.X s₂.H)
      (fun S hS => H S (fun a => hS (.inl a)) fun a => hS (.inr a)) ?_
    rintro (a | a)
    · have := hX (Fin.natAdd _ a)
      simpa [Rep.tabulatedProduct] using this
    · have := hH (Fin.natAdd _ a)
      simpa [Rep.tabulatedProduct] using this

theorem product_goodTable {n₁ h₁ n₂ h₂ : ℕ} {T₁ : Table n₁ h₁} {T₂ : Table n₂ h₂} (H₁ : GoodTable T₁)
    (H₂ : GoodTable T₂) : GoodTable (T₁.product T₂) where
  pos := fun i => Nat.mul_pos (H₁.pos i.1) (H₂.pos i.2)
  schur :=
    { scalar := fun i M hX hH => Props.C65_irreducible (T₁.rep i.1) (T₂.rep i.2)
        (H₁.schur.scalar i.1) (H₂.schur.scalar i.2) M hX hH
      differ := fun i j hij M hX hH => by
        obtain ⟨i₁, i₂⟩ := i
        obtain ⟨j₁, j₂⟩ := j
        refine tabulated_differ (T₁.rep i₁) (T₂.rep i₂) (T₁.rep j₁) (T₂.rep j₂) ?_ M hX hH
        by_cases hl : i₁ = j₁
        · exact .inr (H₂.schur.differ i₂ j₂ fun e => hij (by rw [e, hl]))
        · exact .inl (H₁.schur.differ i₁ j₁ hl) }
  equi := product_equivariant H₁.equi H₂.equi
  pair := fun i j => product_goodPair (H₁.pair i.1 j.1) (H₂.pair i.2 j.2)
  real := fun i j k C hC x y z => by
    obtain ⟨C₁, h1, hC⟩ := List.mem_flatMap.1 hC
    obtain ⟨C₂, h2, rfl⟩ := List.mem_map.1 hC
    simp only [cgProd, Complex.mul_im, H₁.real _ _ _ _ h1, H₂.real _ _ _ _ h2]
    ring

end LieNN.TBasis
