import Verif.Proofs.TBSpan
import Mathlib.LinearAlgebra.Matrix.ToLin

/-! # A projector commuting with the action, in a basis of equivariant arrays -/
namespace LieNN.TBasis
open LieNN.Spec LieNN.IArr Module Matrix

variable {n h : ℕ} {T : Table n h} {m : ℕ}

/-- The action of a matrix indexed by multi-indices. -/
noncomputable def act (δ : Fin m → ℕ) (Y : (Fin m → ℕ) → (Fin m → ℕ) → ℂ) : (Box δ → ℂ) →ₗ[ℂ] (Box δ → ℂ) where
  toFun t p := ∑ q : Box δ, Y q.1 p.1 * t q
  map_add' := fun a b => by
    funext p
    simp only [Pi.add_apply, mul_add, Finset.sum_add_distrib]
  map_smul' := fun c a => by
    funext p
    simp only [Pi.smul_apply, smul_eq_mul, RingHom.id_apply, Finset.mul_sum]
    refine Finset.sum_congr rfl fun _ _ => ?_
    ring

theorem act_apply (δ : Fin m → ℕ) (Y : (Fin m → ℕ) → (Fin m → ℕ) → ℂ) (t : Box δ → ℂ) (p : Box δ) :
    act δ Y t p = ∑ q : Box δ, Y q.1 p.1 * t q := rfl

theorem sum_Box (δ : Fin m → ℕ) (f : (Fin m → ℕ) → ℂ) : ∑ q ∈ box δ, f q = ∑ q : Box δ, f q.1 := by
  rw [← Finset.sum_coe_sort]
  rfl

theorem act_col_X {δ : Fin m → ℕ} {Y : LeadRep n h m} {l : List (Blk T m)}
    (he : ∀ b ∈ l, EquiBlk δ Y b) (a : Fin n) (i : Fin l.length) (u) (k) :
    act δ (Y.X a) (col δ l ⟨i, u, k⟩) = ∑ k', (T.rep l[i].ir).X a k k' • col δ l ⟨i, u, k'⟩ := by
  funext p
  have := (he l[i] (List.getElem_mem _)).X a p.1 p.2 u k
  rw [sum_Box] at this
  rw [act_apply, Finset.sum_apply]
  simp only [Pi.smul_apply, smul_eq_mul]
  refine Eq.trans this.symm ?_
  exact Finset.sum_congr rfl fun _ _ => mul_comm _ _

theorem act_col_H {δ : Fin m → ℕ} {Y : LeadRep n h m} {l : List (Blk T m)}
    (he : ∀ b ∈ l, EquiBlk δ Y b) (a : Fin h) (i : Fin l.length) (u) (k) :
    act δ (Y.H a) (col δ l ⟨i, u, k⟩) = ∑ k', (T.rep l[i].ir).H a k k' • col δ l ⟨i, u, k'⟩ := by
  funext p
  have := (he l[i] (List.getElem_mem _)).H a p.1 p.2 u k
  rw [sum_Box] at this
  rw [act_apply, Finset.sum_apply]
  simp only [Pi.smul_apply, smul_eq_mul]
  refine Eq.trans this.symm ?_
  exact Finset.sum_congr rfl fun _ _ => mul_comm _ _

theorem coeff_eq {ι V : Type} [Fintype ι] [AddCommGroup V] [Module ℂ V] {v : ι → V}
    (hv : LinearIndependent ℂ v) {a b : ι → ℂ} (he : ∑ i, a i • v i = ∑ i, b i • v i) (i : ι) :
    a i = b i := by
  have h0 : ∑ i, (a i - b i) • v i = 0 := by
    simp only [sub_smul, Finset.sum_sub_distrib, he, sub_self]
  exact sub_eq_zero.1 (Fintype.linearIndependent_iff.1 hv _ h0 i)

/-- One operator. -/
theorem commut_one {δ : Fin m → ℕ} {l : List (Blk T m)} (hi : LinearIndependent ℂ (col δ l))
    (π A : (Box δ → ℂ) →ₗ[ℂ] (Box δ → ℂ)) (hc : ∀ t, π (A t) = A (π t))
    (X : T.Mats) (hA : ∀ i u k, A (col δ l ⟨i, u, k⟩) = ∑ k', X l[i].ir k k' • col δ l ⟨i, u, k'⟩)
    (D : Cols l → Cols l → ℂ) (hD : ∀ c, π (col δ l c) = ∑ c', D c c' • col δ l c')
    (i : Fin l.length) (u : Fin l[i].mul) (j : Fin l.length) (u' : Fin l[j].mul) :
    X l[i].ir * (Matrix.of fun k k' => D ⟨i, u, k⟩ ⟨j, u', k'⟩) =
      (Matrix.of fun k k' => D ⟨i, u, k⟩ ⟨j, u', k'⟩) * X l[j].ir := by
  ext k k'
  rw [mul_apply, mul_apply]
  simp only [of_apply]
  have h1 := hc (col δ l ⟨i, u, k⟩)
  rw [hA, hD, map_sum, map_sum] at h1
  simp only [map_smul, hD] at h1
  have h2 : ∑ x, X l[i].ir k x • ∑ c', D ⟨i, u, x⟩ c' • col δ l c' =
      ∑ c', (∑ x, X l[i].ir k x * D ⟨i, u, x⟩ c') • col δ l c' := by
    simp only [Finset.smul_sum, Finset.sum_smul, smul_smul]
    rw [Finset.sum_comm]
  have h3 : ∑ c', D ⟨i, u, k⟩ c' • A (col δ l c') =
      ∑ c' : Cols l, (∑ x, D ⟨i, u, k⟩ ⟨c'.1, c'.2.1, x⟩ * X l[c'.1].ir x c'.2.2) • col δ l c' := by
    rw [Fintype.sum_sigma, Fintype.sum_sigma]
    refine Finset.sum_congr rfl fun j _ => ?_
    rw [Fintype.sum_prod_type, Fintype.sum_prod_type]
    refine Finset.sum_congr rfl fun u' _ => ?_
    simp only [hA, Finset.smul_sum, Finset.sum_smul, smul_smul]
    rw [Finset.sum_comm]
  rw [h2, h3] at h1
  exact coeff_eq hi h1 ⟨j, u', k'⟩

/-- A commuting map acts on the copies only. -/
theorem commut {δ : Fin m → ℕ} {Y : LeadRep n h m} {l : List (Blk T m)} (hT : Schur T)
    (he : ∀ b ∈ l, EquiBlk δ Y b) (hi : LinearIndependent ℂ (col δ l))
    (hne : ∀ i j : Fin l.length, i ≠ j → l[i].ir ≠ l[j].ir)
    (π : (Box δ → ℂ) →ₗ[ℂ] (Box δ → ℂ)) (hX : ∀ a t, π (act δ (Y.X a) t) = act δ (Y.X a) (π t))
    (hH : ∀ a t, π (act δ (Y.H a) t) = act δ (Y.H a) (π t))
    (hπ : ∀ c, π (col δ l c) ∈ spanC δ l) :
    ∃ C : (i : Fin l.length) → Fin l[i].mul → Fin l[i].mul → ℂ, ∀ i u k,
      π (col δ l ⟨i, u, k⟩) = ∑ u', C i u u' • col δ l ⟨i, u', k⟩ := by
  have h1 : ∀ c, ∃ D : Cols l → ℂ, ∑ c', D c' • col δ l c' = π (col δ l c) := by
    intro c
    have := hπ c
    rw [← span_col, Submodule.mem_span_range_iff_exists_fun] at this
    exact this
  choose D hD using h1
  have hzero : ∀ (i : Fin l.length) (u) (j : Fin l.length) (u'), i ≠ j → ∀ k k',
      D ⟨i, u, k⟩ ⟨j, u', k'⟩ = 0 := by
    intro i u j u' hij k k'
    have h2 := hT.differ l[i].ir l[j].ir (hne i j hij) (Matrix.of fun k k' => D ⟨i, u, k⟩ ⟨j, u', k'⟩)
      (fun a => commut_one hi π _ (hX a) (fun ir => (T.rep ir).X a) (act_col_X he a) D
        (fun c => (hD c).symm) i u j u')
      (fun a => commut_one hi π _ (hH a) (fun ir => (T.rep ir).H a) (act_col_H he a) D
        (fun c => (hD c).symm) i u j u')
    exact congrFun (congrFun h2 k) k'
  have hscal : ∀ (i : Fin l.length) (u u'), ∃ c : ℂ, (Matrix.of fun k k' => D ⟨i, u, k⟩ ⟨i, u', k'⟩) =
      c • (1 : Matrix _ _ ℂ) := by
    intro i u u'
    exact hT.scalar l[i].ir _
      (fun a => commut_one hi π _ (hX a) (fun ir => (T.rep ir).X a) (act_col_X he a) D
        (fun c => (hD c).symm) i u i u')
      (fun a => commut_one hi π _ (hH a) (fun ir => (T.rep ir).H a) (act_col_H he a) D
        (fun c => (hD c).symm) i u i u')
  choose C hC using hscal
  refine ⟨C, fun i u k => ?_⟩
  rw [← hD, Fintype.sum_sigma, Finset.sum_eq_single i]
  · rw [Fintype.sum_prod_type]
    refine Finset.sum_congr rfl fun u' _ => ?_
    rw [Finset.sum_eq_single k]
    · congr 1
      have := congrFun (congrFun (hC i u u') k) k
      simpa using this
    · intro k' _ hk
      have := congrFun (congrFun (hC i u u') k) k'
      simp only [of_apply, Matrix.smul_apply, one_apply_ne hk.symm, smul_zero] at this
      rw [this, zero_smul]
    · simp
  · intro j _ hj
    refine Finset.sum_eq_zero fun uk _ => ?_
    rw [hzero i u j uk.1 hj.symm, zero_smul]
  · simp

/-- The slices of the projected blocks. -/
noncomputable def pcol (δ : Fin m → ℕ) (l : List (Blk T m)) (P : (i : Fin l.length) → List (Vec l[i].mul))
    (c : Σ i : Fin l.length, Fin (P i).length × Fin (T.dim l[i].ir)) : Box δ → ℂ :=
  ∑ u, (P c.1)[c.2.1] u • col δ l ⟨c.1, u, c.2.2⟩

theorem sum_col_inj {δ : Fin m → ℕ} {l : List (Blk T m)} (hi : LinearIndependent ℂ (col δ l))
    (i : Fin l.length) (k) {a b : Fin l[i].mul → ℂ}
    (he : ∑ u, a u • col δ l ⟨i, u, k⟩ = ∑ u, b u • col δ l ⟨i, u, k⟩) (u) : a u = b u := by
  have h1 : LinearIndependent ℂ fun u => col δ l ⟨i, u, k⟩ :=
    hi.comp (fun u => (⟨i, u, k⟩ : Cols l)) fun u u' hu => by
      simp only [Sigma.mk.injEq, heq_eq_eq, Prod.mk.injEq, and_true, true_and] at hu
      exact hu
  exact coeff_eq h1 he u

/-- The projected slices are a basis of the fixed space. -/
theorem project_basis {δ : Fin m → ℕ} {l : List (Blk T m)} (hpos : ∀ i, 0 < T.dim i)
    (hi : LinearIndependent ℂ (col δ l)) (π : (Box δ → ℂ) →ₗ[ℂ] (Box δ → ℂ))
    (W : Submodule ℂ (Box δ → ℂ)) (hW : ∀ t, t ∈ W ↔ π t = t) (hle : W ≤ spanC δ l)
    (C : (i : Fin l.length) → Fin l[i].mul → Fin l[i].mul → ℂ)
    (hC : ∀ i u k, π (col δ l ⟨i, u, k⟩) = ∑ u', C i u u' • col δ l ⟨i, u', k⟩)
    (P : (i : Fin l.length) → List (Vec l[i].mul)) (ho : ∀ i, OrthonormalList (P i))
    (hP : ∀ i (y : Vec l[i].mul), y ∈ lspan (P i) ↔
      ∑ u, y u • col δ l ⟨i, u, ⟨0, hpos _⟩⟩ ∈ W) :
    LinearIndependent ℂ (pcol δ l P) ∧ Submodule.span ℂ (Set.range (pcol δ l P)) = W := by
  have hfix : ∀ i (y : Fin l[i].mul → ℂ) k, ∑ u, y u • col δ l ⟨i, u, k⟩ ∈ W ↔
      ∀ u', ∑ u, y u * C i u u' = y u' := by
    intro i y k
    rw [hW, map_sum]
    have h1 : ∑ u, π (y u • col δ l ⟨i, u, k⟩) = ∑ u', (∑ u, y u * C i u u') • col δ l ⟨i, u', k⟩ := by
      simp only [map_smul, hC, Finset.smul_sum, Finset.sum_smul, smul_smul]
      rw [Finset.sum_comm]
    rw [h1]
    constructor
    · intro he u'
      exact sum_col_inj hi i k he u'
    · intro he
      exact Finset.sum_congr rfl fun u' _ => by rw [he]
  have hmem : ∀ i (y : Vec l[i].mul) k, y ∈ lspan (P i) ↔ ∑ u, y u • col δ l ⟨i, u, k⟩ ∈ W := by
    intro i y k
    rw [hP, hfix, hfix]
  constructor
  · rw [Fintype.linearIndependent_iff]
    intro a ha
    have h1 : ∑ c, a c • pcol δ l P c =
        ∑ c : Cols l, (∑ v, a ⟨c.1, v, c.2.2⟩ * (P c.1)[v] c.2.1) • col δ l c := by
      rw [Fintype.sum_sigma, Fintype.sum_sigma]
      refine Finset.sum_congr rfl fun i _ => ?_
      rw [Fintype.sum_prod_type, Fintype.sum_prod_type]
      simp only [pcol, Finset.smul_sum, Finset.sum_smul, smul_smul]
      calc _ = ∑ v, ∑ u, ∑ k, (a ⟨i, v, k⟩ * (P i)[v] u) • col δ l ⟨i, u, k⟩ :=
            Finset.sum_congr rfl fun v _ => Finset.sum_comm
        _ = ∑ u, ∑ v, ∑ k, (a ⟨i, v, k⟩ * (P i)[v] u) • col δ l ⟨i, u, k⟩ := Finset.sum_comm
        _ = _ := Finset.sum_congr rfl fun u _ => Finset.sum_comm
    rw [h1] at ha
    have h2 := Fintype.linearIndependent_iff.1 hi _ ha
    rintro ⟨i, v, k⟩
    have h3 : ∑ v, a ⟨i, v, k⟩ • (P i)[v] = 0 := by
      ext u
      have := h2 ⟨i, u, k⟩
      simpa using this
    have h4 : LinearIndependent ℂ fun v : Fin (P i).length => (P i)[v] := (ho i).linearIndependent
    exact Fintype.linearIndependent_iff.1 h4 _ h3 v
  · apply le_antisymm
    · rw [Submodule.span_le]
      rintro _ ⟨⟨i, v, k⟩, rfl⟩
      exact (hmem i _ k).1 (Submodule.subset_span (List.getElem_mem _))
    · intro w hw
      have h1 := hle hw
      rw [← span_col, Submodule.mem_span_range_iff_exists_fun] at h1
      obtain ⟨a, rfl⟩ := h1
      have h2 := (hW _).1 hw
      have h3 : ∀ c : Cols l, ∑ u, a ⟨c.1, u, c.2.2⟩ * C c.1 u c.2.1 = a c := by
        intro c
        refine coeff_eq (a := fun c : Cols l => ∑ u, a ⟨c.1, u, c.2.2⟩ * C c.1 u c.2.1) hi
          (Eq.trans ?_ h2) c
        rw [map_sum, Fintype.sum_sigma, Fintype.sum_sigma]
        refine Finset.sum_congr rfl fun i _ => ?_
        rw [Fintype.sum_prod_type, Fintype.sum_prod_type]
        simp only [map_smul, hC, Finset.smul_sum, Finset.sum_smul, smul_smul]
        calc _ = ∑ u', ∑ u, ∑ k, (a ⟨i, u, k⟩ * C i u u') • col δ l ⟨i, u', k⟩ :=
              Finset.sum_congr rfl fun u' _ => Finset.sum_comm
          _ = ∑ u, ∑ u', ∑ k, (a ⟨i, u, k⟩ * C i u u') • col δ l ⟨i, u', k⟩ := Finset.sum_comm
          _ = _ := Finset.sum_congr rfl fun u _ => Finset.sum_comm
      have h4 : ∀ i k, WithLp.toLp 2 (fun u => a ⟨i, u, k⟩) ∈ lspan (P i) := by
        intro i k
        rw [hmem i _ k, hfix]
        intro u'
        exact h3 ⟨i, u', k⟩
      have h5 : ∑ c, a c • col δ l c =
          ∑ i, ∑ k, ∑ u, a ⟨i, u, k⟩ • col δ l ⟨i, u, k⟩ := by
        rw [Fintype.sum_sigma]
        refine Finset.sum_congr rfl fun i _ => ?_
        rw [Fintype.sum_prod_type, Finset.sum_comm]
      rw [h5]
      refine Submodule.sum_mem _ fun i _ => Submodule.sum_mem _ fun k _ => ?_
      let L : Vec l[i].mul →ₗ[ℂ] (Box δ → ℂ) :=
        { toFun := fun y => ∑ u, y u • col δ l ⟨i, u, k⟩
          map_add' := fun y z => by simp [add_smul, Finset.sum_add_distrib]
          map_smul' := fun c y => by simp [Finset.smul_sum, smul_smul] }
      have h6 : lspan (P i) ≤ (Submodule.span ℂ (Set.range (pcol δ l P))).comap L := by
        rw [lspan, Submodule.span_le]
        intro y hy
        obtain ⟨v, hv, rfl⟩ := List.getElem_of_mem hy
        exact Submodule.subset_span ⟨⟨i, ⟨v, hv⟩, k⟩, rfl⟩
      exact h6 (h4 i k)

end LieNN.TBasis
