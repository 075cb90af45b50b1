import Verif.Spec.TensorBasis
import Verif.Spec.SUNCG
import Verif.Proofs.IntertwinerRep
import Mathlib.LinearAlgebra.Matrix.ToLin
import Mathlib.LinearAlgebra.FiniteDimensional.Lemmas

/-!
# The equivariant arrays between three irreps of a table are spanned by the tabulated ones
-/
namespace LieNN.CGSpace

open LieNN.Spec Matrix Module

variable {n h : ℕ} {T : Table n h}

/-- Irrep of the product, solution, component. -/
abbrev Idx (T : Table n h) (i j : T.Ir) : Type :=
  Σ p : Fin (T.prod i j).length, Fin (T.cg i j (T.prod i j)[p]).length × Fin (T.dim (T.prod i j)[p])

abbrev Ten (T : Table n h) (i j : T.Ir) : Type := Fin (T.dim i) → Fin (T.dim j) → ℂ

/-- The slices of the tabulated arrays. -/
def phi (i j : T.Ir) (c : Idx T i j) : Ten T i j := fun x y => (T.cg i j (T.prod i j)[c.1])[c.2.1] x y c.2.2

theorem card_idx {i j : T.Ir} (hc : CGComplete i j) : Fintype.card (Idx T i j) = T.dim i * T.dim j := by
  rw [← hc.1, Fintype.card_sigma]
  simp only [Fintype.card_prod, Fintype.card_fin]
  rw [← Fin.sum_univ_fun_getElem (T.prod i j) fun k => (T.cg i j k).length * T.dim k]
  rfl

/-- Pairing with all slices. -/
def pair (i j : T.Ir) : Ten T i j →ₗ[ℂ] (Idx T i j → ℂ) where
  toFun t c := ∑ x, ∑ y, phi i j c x y * t x y
  map_add' := fun a b => by
    funext c
    simp only [Pi.add_apply, mul_add, Finset.sum_add_distrib]
  map_smul' := fun r a => by
    funext c
    simp only [Pi.smul_apply, smul_eq_mul, RingHom.id_apply, Finset.mul_sum, mul_left_comm]

theorem finrank_ten (i j : T.Ir) : finrank ℂ (Ten T i j) = T.dim i * T.dim j := by
  rw [Module.finrank_pi_fintype]
  simp

theorem pair_bij {i j : T.Ir} (hc : CGComplete i j) : Function.Surjective (pair i j) := by
  refine (LinearMap.injective_iff_surjective_of_finrank_eq_finrank ?_).1 ?_
  · rw [finrank_ten, Module.finrank_pi, card_idx hc]
  · rw [← LinearMap.ker_eq_bot, LinearMap.ker_eq_bot']
    intro t ht
    refine hc.2 t fun k hk C hC l => ?_
    obtain ⟨p, hp, rfl⟩ := List.getElem_of_mem hk
    obtain ⟨u, hu, rfl⟩ := List.getElem_of_mem hC
    exact congrFun ht ⟨⟨p, hp⟩, ⟨u, hu⟩, l⟩

theorem phi_indep {i j : T.Ir} (hc : CGComplete i j) : LinearIndependent ℂ (phi (T := T) i j) := by
  rw [Fintype.linearIndependent_iff]
  intro a ha c
  obtain ⟨t, ht⟩ := pair_bij hc (Pi.single c 1)
  have h1 : ∑ c', a c' * pair i j t c' = 0 := by
    have h2 : ∀ x y, ∑ c', a c' * phi i j c' x y = 0 := by
      intro x y
      have := congrFun (congrFun ha x) y
      simpa [Finset.sum_apply] using this
    show ∑ c', a c' * ∑ x, ∑ y, phi i j c' x y * t x y = 0
    simp only [Finset.mul_sum, ← mul_assoc]
    rw [Finset.sum_comm]
    refine Finset.sum_eq_zero fun x _ => ?_
    rw [Finset.sum_comm]
    refine Finset.sum_eq_zero fun y _ => ?_
    rw [← Finset.sum_mul, h2, zero_mul]
  rw [ht] at h1
  simpa [Pi.single_apply] using h1

theorem phi_span {i j : T.Ir} (hc : CGComplete i j) : Submodule.span ℂ (Set.range (phi (T := T) i j)) = ⊤ :=
  (phi_indep hc).span_eq_top_of_card_eq_finrank' (by rw [finrank_ten, card_idx hc])

theorem coeff {ι V : Type*} [Fintype ι] [AddCommGroup V] [Module ℂ V] {v : ι → V}
    (hv : LinearIndependent ℂ v) {a b : ι → ℂ} (he : ∑ i, a i • v i = ∑ i, b i • v i) (i : ι) :
    a i = b i := by
  have h0 : ∑ i, (a i - b i) • v i = 0 := by
    simp only [sub_smul, Finset.sum_sub_distrib, he, sub_self]
  exact sub_eq_zero.1 (Fintype.linearIndependent_iff.1 hv _ h0 i)

/-- One operator: the coefficients of an equivariant array intertwine. -/
theorem inter_one {i j k : T.Ir} (hc : CGComplete i j) (act : Ten T i j →ₗ[ℂ] Ten T i j)
    (X : (k : T.Ir) → Matrix (Fin (T.dim k)) (Fin (T.dim k)) ℂ)
    (hφ : ∀ p u z, act (phi i j ⟨p, u, z⟩) = ∑ z', X (T.prod i j)[p] z z' • phi i j ⟨p, u, z'⟩)
    (D : Fin (T.dim k) → Ten T i j) (hD : ∀ l, act (D l) = ∑ l', X k l l' • D l')
    (A : Fin (T.dim k) → Idx T i j → ℂ) (hA : ∀ l, ∑ c, A l c • phi i j c = D l)
    (p : Fin (T.prod i j).length) (u) :
    X k * (Matrix.of fun l z => A l ⟨p, u, z⟩) = (Matrix.of fun l z => A l ⟨p, u, z⟩) * X (T.prod i j)[p] := by
  ext l z
  rw [mul_apply, mul_apply]
  simp only [of_apply]
  have h1 := hD l
  simp only [← hA, map_sum, map_smul] at h1
  have h2 : ∑ c, A l c • act (phi i j c) =
      ∑ c : Idx T i j, (∑ z, A l ⟨c.1, c.2.1, z⟩ * X (T.prod i j)[c.1] z c.2.2) • phi i j c := by
    rw [Fintype.sum_sigma, Fintype.sum_sigma]
    refine Finset.sum_congr rfl fun p _ => ?_
    rw [Fintype.sum_prod_type, Fintype.sum_prod_type]
    refine Finset.sum_congr rfl fun u _ => ?_
    simp only [hφ, Finset.smul_sum, Finset.sum_smul, smul_smul]
    rw [Finset.sum_comm]
  have h3 : ∑ l', X k l l' • ∑ c, A l' c • phi i j c = ∑ c, (∑ l', X k l l' * A l' c) • phi i j c := by
    simp only [Finset.smul_sum, Finset.sum_smul, smul_smul]
    rw [Finset.sum_comm]
  rw [h2, h3] at h1
  exact (coeff (phi_indep hc) h1 ⟨p, u, z⟩).symm

/-- The action of a continuous generator on the first two axes. -/
def actX {d₁ d₂ : ℕ} (r₁ : Matrix (Fin d₁) (Fin d₁) ℂ) (r₂ : Matrix (Fin d₂) (Fin d₂) ℂ) :
    (Fin d₁ → Fin d₂ → ℂ) →ₗ[ℂ] (Fin d₁ → Fin d₂ → ℂ) where
  toFun t := fun x y => ∑ x', r₁ x' x * t x' y + ∑ y', r₂ y' y * t x y'
  map_add' := fun a b => by
    funext x y
    simp only [Pi.add_apply, mul_add, Finset.sum_add_distrib]
    ring
  map_smul' := fun c a => by
    funext x y
    simp only [Pi.smul_apply, smul_eq_mul, RingHom.id_apply, mul_left_comm _ c, ← Finset.mul_sum]
    ring

/-- The action of a discrete generator on the first two axes. -/
def actH {d₁ d₂ : ℕ} (r₁ : Matrix (Fin d₁) (Fin d₁) ℂ) (r₂ : Matrix (Fin d₂) (Fin d₂) ℂ) :
    (Fin d₁ → Fin d₂ → ℂ) →ₗ[ℂ] (Fin d₁ → Fin d₂ → ℂ) where
  toFun t := fun x y => ∑ x', ∑ y', r₁ x' x * r₂ y' y * t x' y'
  map_add' := fun a b => by
    funext x y
    simp only [Pi.add_apply, mul_add, Finset.sum_add_distrib]
  map_smul' := fun c a => by
    funext x y
    simp only [Pi.smul_apply, smul_eq_mul, RingHom.id_apply, mul_left_comm _ c, ← Finset.mul_sum]

theorem isCG_act {d₁ d₂ d₃ : ℕ} {r₁ : Rep n h d₁} {r₂ : Rep n h d₂} {r₃ : Rep n h d₃}
    {C : Fin d₁ → Fin d₂ → Fin d₃ → ℂ} : IsCG r₁ r₂ r₃ C ↔
      (∀ a l, actX (r₁.X a) (r₂.X a) (fun x y => C x y l) = ∑ l', r₃.X a l l' • fun x y => C x y l') ∧
      ∀ a l, actH (r₁.H a) (r₂.H a) (fun x y => C x y l) = ∑ l', r₃.H a l l' • fun x y => C x y l' := by
  have e : ∀ (M : Matrix (Fin d₃) (Fin d₃) ℂ) x y l,
      (∑ l', M l l' • fun x y => C x y l') x y = ∑ k, C x y k * M l k := by
    intro M x y l
    simp only [Finset.sum_apply, Pi.smul_apply, smul_eq_mul]
    exact Finset.sum_congr rfl fun _ _ => mul_comm _ _
  constructor
  · rintro ⟨h1, h2⟩
    refine ⟨fun a l => ?_, fun a l => ?_⟩
    · funext x y
      rw [e]
      exact (h1 a x y l).symm
    · funext x y
      rw [e]
      exact (h2 a x y l).symm
  · rintro ⟨h1, h2⟩
    refine ⟨fun a x y l => ?_, fun a x y l => ?_⟩
    · rw [← e, ← h1]; rfl
    · rw [← e, ← h2]; rfl

theorem scalar_cast (hT : Schur T) {k k' : T.Ir} (e : k' = k) (M : Matrix (Fin (T.dim k)) (Fin (T.dim k')) ℂ)
    (hX : ∀ a, (T.rep k).X a * M = M * (T.rep k').X a) (hH : ∀ a, (T.rep k).H a * M = M * (T.rep k').H a) :
    ∃ c : ℂ, ∀ z z', M z z' = if (z : ℕ) = z' then c else 0 := by
  subst e
  obtain ⟨c, hc⟩ := hT.scalar k' M hX hH
  refine ⟨c, fun z z' => ?_⟩
  rw [hc, Matrix.smul_apply, one_apply]
  simp only [Fin.ext_iff, smul_eq_mul, mul_ite, mul_one, mul_zero]

theorem sum_cast {k k' : T.Ir} (e : k' = k) {d₁ d₂ : ℕ} (f : Fin (T.dim k') → Fin d₁ → Fin d₂ → ℂ)
    (g : Fin (T.dim k) → Fin d₁ → Fin d₂ → ℂ) (hfg : ∀ (z : Fin (T.dim k')) (z' : Fin (T.dim k)), (z : ℕ) = z' → f z = g z') (c : ℂ)
    (l : Fin (T.dim k)) :
    ∑ z : Fin (T.dim k'), (if (l : ℕ) = z then c else 0) • f z = c • g l := by
  subst e
  rw [Finset.sum_eq_single l]
  · rw [if_pos rfl, hfg l l rfl]
  · intro z _ hz
    rw [if_neg fun h => hz (Fin.ext h.symm), zero_smul]
  · simp

/-- Every equivariant array is a combination of the tabulated ones. -/
theorem mem_span (hT : Schur T) (he : Equivariant T) {i j k : T.Ir} (hc : CGComplete i j)
    {D : Fin (T.dim i) → Fin (T.dim j) → Fin (T.dim k) → ℂ} (hD : IsCG (T.rep i) (T.rep j) (T.rep k) D) :
    D ∈ Submodule.span ℂ {C | k ∈ T.prod i j ∧ C ∈ T.cg i j k} := by
  have h1 : ∀ l, ∃ a : Idx T i j → ℂ, ∑ c, a c • phi i j c = fun x y => D x y l := by
    intro l
    have : (fun x y => D x y l : Ten T i j) ∈ Submodule.span ℂ (Set.range (phi (T := T) i j)) := by
      rw [phi_span hc]; trivial
    rwa [Submodule.mem_span_range_iff_exists_fun] at this
  choose A hA using h1
  obtain ⟨dX, dH⟩ := isCG_act.1 hD
  have hφ : ∀ (p : Fin (T.prod i j).length) (u : Fin (T.cg i j (T.prod i j)[p]).length),
      IsCG (T.rep i) (T.rep j) (T.rep (T.prod i j)[p]) (T.cg i j (T.prod i j)[p])[u] := fun p u =>
    he i j _ (List.getElem_mem _) _ (List.getElem_mem _)
  have iX : ∀ p u a, (T.rep k).X a * (Matrix.of fun l z => A l ⟨p, u, z⟩) =
      (Matrix.of fun l z => A l ⟨p, u, z⟩) * (T.rep (T.prod i j)[p]).X a := fun p u a =>
    inter_one hc (actX ((T.rep i).X a) ((T.rep j).X a)) (fun k => (T.rep k).X a)
      (fun p u z => (isCG_act.1 (hφ p u)).1 a z) _ (dX a) A hA p u
  have iH : ∀ p u a, (T.rep k).H a * (Matrix.of fun l z => A l ⟨p, u, z⟩) =
      (Matrix.of fun l z => A l ⟨p, u, z⟩) * (T.rep (T.prod i j)[p]).H a := fun p u a =>
    inter_one hc (actH ((T.rep i).H a) ((T.rep j).H a)) (fun k => (T.rep k).H a)
      (fun p u z => (isCG_act.1 (hφ p u)).2 a z) _ (dH a) A hA p u
  -- the contribution of one solution
  have key : ∀ p u, (fun x y l => ∑ z, A l ⟨p, u, z⟩ * phi i j ⟨p, u, z⟩ x y) ∈
      Submodule.span ℂ {C | k ∈ T.prod i j ∧ C ∈ T.cg i j k} := by
    intro p u
    by_cases e : (T.prod i j)[p] = k
    · obtain ⟨c, hcs⟩ := scalar_cast hT e _ (iX p u) (iH p u)
      simp only [of_apply] at hcs
      have hk : k ∈ T.prod i j := e ▸ List.getElem_mem _
      have : ∃ C ∈ T.cg i j k, ∀ (z : Fin (T.dim (T.prod i j)[p])) (z' : Fin (T.dim k)),
          (z : ℕ) = z' → phi i j ⟨p, u, z⟩ = fun x y => C x y z' := by
        have aux : ∀ k', k' = k → ∀ C' ∈ T.cg i j k', ∃ C ∈ T.cg i j k, ∀ (z : Fin (T.dim k'))
            (z' : Fin (T.dim k)), (z : ℕ) = z' → (fun x y => C' x y z) = fun x y => C x y z' := by
          rintro k' rfl C' hC'
          exact ⟨C', hC', fun z z' hz => by rw [Fin.ext hz]⟩
        exact aux _ e _ (List.getElem_mem u.2)
      obtain ⟨C, hC, hCz⟩ := this
      have e2 : (fun x y l => ∑ z, A l ⟨p, u, z⟩ * phi i j ⟨p, u, z⟩ x y) = c • C := by
        funext x y l
        have := congrFun (congrFun (sum_cast e (fun z => phi i j ⟨p, u, z⟩) (fun l x y => C x y l) hCz c l) x) y
        simp only [Finset.sum_apply, Pi.smul_apply, smul_eq_mul] at this
        rw [Pi.smul_apply, Pi.smul_apply, Pi.smul_apply, smul_eq_mul, ← this]
        exact Finset.sum_congr rfl fun z _ => by rw [hcs]
      rw [e2]
      exact Submodule.smul_mem _ _ (Submodule.subset_span ⟨hk, hC⟩)
    · have h0 := hT.differ k _ (fun h => e h.symm) _ (iX p u) (iH p u)
      have e2 : (fun x y l => ∑ z, A l ⟨p, u, z⟩ * phi i j ⟨p, u, z⟩ x y) = 0 := by
        funext x y l
        refine Finset.sum_eq_zero fun z _ => ?_
        have := congrFun (congrFun h0 l) z
        simp only [of_apply, Matrix.zero_apply] at this
        rw [this, zero_mul]
      rw [e2]
      exact Submodule.zero_mem _
  have e3 : D = ∑ p, ∑ u, fun x y l => ∑ z, A l ⟨p, u, z⟩ * phi i j ⟨p, u, z⟩ x y := by
    funext x y l
    have := congrFun (congrFun (hA l) x) y
    rw [Fintype.sum_sigma, Finset.sum_apply, Finset.sum_apply] at this
    rw [← this, Finset.sum_apply, Finset.sum_apply, Finset.sum_apply]
    refine Finset.sum_congr rfl fun p _ => ?_
    rw [Fintype.sum_prod_type, Finset.sum_apply, Finset.sum_apply, Finset.sum_apply, Finset.sum_apply, Finset.sum_apply]
    refine Finset.sum_congr rfl fun u _ => ?_
    simp only [Finset.sum_apply, Pi.smul_apply, smul_eq_mul]
  rw [e3]
  exact Submodule.sum_mem _ fun p _ => Submodule.sum_mem _ fun u _ => key p u

/-- No array at all for an irrep outside the product. -/
theorem eq_zero (hT : Schur T) (he : Equivariant T) {i j k : T.Ir} (hc : CGComplete i j) (hk : k ∉ T.prod i j)
    {D : Fin (T.dim i) → Fin (T.dim j) → Fin (T.dim k) → ℂ} (hD : IsCG (T.rep i) (T.rep j) (T.rep k) D) : D = 0 := by
  have := mem_span hT he hc hD
  have e : {C : Fin (T.dim i) → Fin (T.dim j) → Fin (T.dim k) → ℂ | k ∈ T.prod i j ∧ C ∈ T.cg i j k} = ∅ := by
    ext C; simp [hk]
  rw [e, Submodule.span_empty] at this
  exact (Submodule.mem_bot ℂ).1 this

/-- The tabulated arrays span the equivariant ones. -/
theorem span_eq (hT : Schur T) (he : Equivariant T) {i j k : T.Ir} (hc : CGComplete i j) (hk : k ∈ T.prod i j) :
    cgSpace (T.rep i) (T.rep j) (T.rep k) = Submodule.span ℂ {C | C ∈ T.cg i j k} := by
  apply le_antisymm
  · intro D hD
    have := mem_span hT he hc hD
    simpa [hk] using this
  · refine Submodule.span_le.2 fun C hC => ?_
    exact he i j k hk C hC

/-- They are linearly independent. -/
theorem indep {i j k : T.Ir} (hc : CGComplete i j) (hk : k ∈ T.prod i j) (hd : 0 < T.dim k) :
    LinearIndependent ℂ fun u : Fin (T.cg i j k).length => (T.cg i j k)[u] := by
  obtain ⟨p, hp, rfl⟩ := List.getElem_of_mem hk
  rw [Fintype.linearIndependent_iff]
  intro g hg u
  have h1 := Fintype.linearIndependent_iff.1 (phi_indep hc)
    (fun c => if h : c.1 = ⟨p, hp⟩ then (if (c.2.2 : ℕ) = 0 then g (c.2.1.cast (by rw [h]; rfl)) else 0) else 0) ?_
    ⟨⟨p, hp⟩, u, ⟨0, hd⟩⟩
  · simpa using h1
  · rw [Fintype.sum_sigma, Finset.sum_eq_single ⟨p, hp⟩]
    · rw [Fintype.sum_prod_type]
      funext x y
      have := congrFun (congrFun (congrFun hg x) y) ⟨0, hd⟩
      simp only [Finset.sum_apply, Pi.smul_apply, smul_eq_mul, Pi.zero_apply] at this ⊢
      refine Eq.trans (Finset.sum_congr rfl fun v _ => ?_) this
      rw [Finset.sum_eq_single ⟨0, hd⟩]
      · simp [phi]
      · intro z _ hz
        have : (z : ℕ) ≠ 0 := fun h0 => hz (Fin.ext h0)
        simp [this]
      · simp
    · intro q _ hq
      refine Finset.sum_eq_zero fun c _ => ?_
      rw [dif_neg hq, zero_smul]
    · simp

theorem finrank_cg (hT : Schur T) (he : Equivariant T) {i j k : T.Ir} (hc : CGComplete i j) (hk : k ∈ T.prod i j)
    (hd : 0 < T.dim k) : finrank ℂ (cgSpace (T.rep i) (T.rep j) (T.rep k)) = (T.cg i j k).length := by
  rw [span_eq hT he hc hk]
  have e : {C | C ∈ T.cg i j k} = Set.range fun u : Fin (T.cg i j k).length => (T.cg i j k)[u] := by
    ext C
    constructor
    · intro hC
      obtain ⟨u, hu, rfl⟩ := List.getElem_of_mem hC
      exact ⟨⟨u, hu⟩, rfl⟩
    · rintro ⟨u, rfl⟩
      exact List.getElem_mem _
  rw [e, finrank_span_eq_card (indep hc hk hd), Fintype.card_fin]

end LieNN.CGSpace
