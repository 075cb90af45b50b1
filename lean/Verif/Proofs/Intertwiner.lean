import Mathlib.LinearAlgebra.Eigenspace.Triangularizable
import Mathlib.Analysis.Complex.Polynomial.Basic
import Verif.Proofs.Nullspace
import Verif.Proofs.Mat
/-!
# `infer_change_of_basis` and `is_irreducible`
-/
namespace LieNN

open Matrix Spec

variable {n d d₁ d₂ : ℕ} {eigh : EighFn} {eps : ℝ}

theorem icobBlock_mulVec (x₁ : Matrix (Fin d₁) (Fin d₁) ℂ) (x₂ : Matrix (Fin d₂) (Fin d₂) ℂ)
    (v : Vec (d₁ * d₂)) (i : Fin d₁) (j : Fin d₂) :
    (icobBlock x₁ x₂ *ᵥ v.ofLp) (finProdFinEquiv (i, j)) =
      (x₁ * unvec v - unvec v * x₂) i j := by
  simp only [mulVec, dotProduct]
  rw [← finProdFinEquiv.sum_comp, Fintype.sum_prod_type]
  simp only [icobBlock, Matrix.sub_apply, kron_apply, Matrix.mul_apply, unvec, Matrix.one_apply,
    Matrix.transpose_apply, sub_mul, Finset.sum_sub_distrib]
  congr 1
  · refine Finset.sum_congr rfl fun k _ => ?_
    simp
  · rw [Finset.sum_comm]
    refine Finset.sum_congr rfl fun k _ => ?_
    simp [mul_comm]

theorem icobMatrix_mulVec (X₁ : Fin n → Matrix (Fin d₁) (Fin d₁) ℂ)
    (X₂ : Fin n → Matrix (Fin d₂) (Fin d₂) ℂ) (v : Vec (d₁ * d₂)) :
    icobMatrix X₁ X₂ *ᵥ v.ofLp = 0 ↔ ∀ a, X₁ a * unvec v = unvec v * X₂ a := by
  have hrow : ∀ (a : Fin n) (p : Fin (d₁ * d₂)),
      (icobMatrix X₁ X₂ *ᵥ v.ofLp) (finProdFinEquiv (a, p)) =
        (icobBlock (X₁ a) (X₂ a) *ᵥ v.ofLp) p := by
    intro a p
    have h := finProdFinEquiv.symm_apply_apply (a, p)
    have h1 : (finProdFinEquiv (a, p)).divNat = a := congrArg Prod.fst h
    have h2 : (finProdFinEquiv (a, p)).modNat = p := congrArg Prod.snd h
    simp only [mulVec, icobMatrix, h1, h2]
  constructor
  · intro h a
    ext i j
    have := hrow a (finProdFinEquiv (i, j))
    rw [h, icobBlock_mulVec, Matrix.sub_apply] at this
    exact (sub_eq_zero.1 this.symm)
  · intro h
    funext q
    obtain ⟨⟨a, p⟩, rfl⟩ := finProdFinEquiv.surjective q
    obtain ⟨⟨i, j⟩, rfl⟩ := finProdFinEquiv.surjective p
    rw [hrow, icobBlock_mulVec, h a]
    simp

/-- `unvec` as a linear equivalence. -/
def unvecL (d₁ d₂ : ℕ) : Vec (d₁ * d₂) ≃ₗ[ℂ] Matrix (Fin d₁) (Fin d₂) ℂ where
  toFun := unvec
  map_add' _ _ := rfl
  map_smul' _ _ := rfl
  invFun S := WithLp.toLp 2 fun p => S p.divNat p.modNat
  left_inv v := by
    ext p
    show v (finProdFinEquiv (finProdFinEquiv.symm p)) = v p
    rw [Equiv.apply_symm_apply]
  right_inv S := by
    ext i j
    have h := finProdFinEquiv.symm_apply_apply (i, j)
    have h1 : (finProdFinEquiv (i, j)).divNat = i := congrArg Prod.fst h
    have h2 : (finProdFinEquiv (i, j)).modNat = j := congrArg Prod.snd h
    simp [unvec, h1, h2]

theorem intertwiners_eq (X₁ : Fin n → Matrix (Fin d₁) (Fin d₁) ℂ)
    (X₂ : Fin n → Matrix (Fin d₂) (Fin d₂) ℂ) :
    intertwiners X₁ X₂ = (kernel (icobMatrix X₁ X₂)).map (unvecL d₁ d₂).toLinearMap := by
  ext S
  rw [Submodule.mem_map]
  constructor
  · intro h
    refine ⟨(unvecL d₁ d₂).symm S, ?_, (unvecL d₁ d₂).apply_symm_apply S⟩
    refine (icobMatrix_mulVec X₁ X₂ _).2 ?_
    have e : unvec ((unvecL d₁ d₂).symm S) = S := (unvecL d₁ d₂).apply_symm_apply S
    rw [e]
    exact h
  · rintro ⟨v, hv, rfl⟩
    exact (icobMatrix_mulVec X₁ X₂ v).1 hv

theorem trace_unvec (u v : Vec (d₁ * d₂)) : ((unvec u)ᴴ * unvec v).trace = inner ℂ u v := by
  rw [EuclideanSpace.inner_eq_star_dotProduct, dotProduct, ← finProdFinEquiv.sum_comp,
    Fintype.sum_prod_type, Matrix.trace, Finset.sum_comm]
  refine Finset.sum_congr rfl fun j _ => ?_
  rw [Matrix.diag_apply, Matrix.mul_apply]
  refine Finset.sum_congr rfl fun i _ => ?_
  rw [mul_comm]
  rfl

theorem mspan_map_unvec (l : List (Vec (d₁ * d₂))) :
    mspan (l.map unvec) = (lspan l).map (unvecL d₁ d₂).toLinearMap := by
  unfold lspan mspan
  rw [Submodule.map_span]
  congr 1
  ext x
  simp only [List.mem_map, Set.mem_ofPred_eq, Set.mem_image]
  rfl

theorem inferChangeOfBasis_spec (he : EighSpec eigh) (heps : 0 < eps) (hn : n ≠ 0)
    (X₁ : Fin n → Matrix (Fin d₁) (Fin d₁) ℂ) (X₂ : Fin n → Matrix (Fin d₂) (Fin d₂) ℂ)
    (hd : (d₁ * d₂ : ℕ) * eps ^ 2 < 1) (hgap : Gap eps (icobMatrix X₁ X₂)) :
    ∃ S, inferChangeOfBasis eigh eps X₁ X₂ = .ok S ∧
      mspan S = intertwiners X₁ X₂ ∧
      S.length = Module.finrank ℂ (intertwiners X₁ X₂) ∧
      ∀ i j : Fin S.length, ((S.get i)ᴴ * S.get j).trace = if i = j then 1 else 0 := by
  have hk := nullspace_kernel he heps (icobMatrix X₁ X₂) hd hgap
  have ho := nullspace_oList (eigh := eigh) heps (icobMatrix X₁ X₂)
  refine ⟨_, if_neg hn, ?_, ?_, ?_⟩
  · rw [mspan_map_unvec, hk, intertwiners_eq]
  · rw [List.length_map, oList_length ho, hk, intertwiners_eq, LinearEquiv.finrank_map_eq]
  · intro i j
    have hon := ho.orthonormal
    simp only [List.get_eq_getElem, List.getElem_map, trace_unvec]
    have := orthonormal_iff_ite.1 hon (i.cast (by simp)) (j.cast (by simp))
    simp only [List.get_eq_getElem, Fin.val_cast] at this
    rw [this]
    simp [Fin.ext_iff]

/-! ### Irreducibility -/

theorem one_mem_intertwiners (X : Fin n → Matrix (Fin d) (Fin d) ℂ) :
    (1 : Matrix (Fin d) (Fin d) ℂ) ∈ intertwiners X X := by
  intro a; simp

theorem schur {X : Fin n → Matrix (Fin d) (Fin d) ℂ} (h : IrreducibleFamily X)
    {S : Matrix (Fin d) (Fin d) ℂ} (hS : S ∈ intertwiners X X) : ∃ c : ℂ, S = c • 1 := by
  obtain ⟨hd, hirr⟩ := h
  have : Nonempty (Fin d) := ⟨⟨0, hd⟩⟩
  obtain ⟨c, hc⟩ := Module.End.exists_eigenvalue (Matrix.toLin' S)
  refine ⟨c, ?_⟩
  have hinv := hirr (Module.End.eigenspace (Matrix.toLin' S) c) (by
    intro a w hw
    rw [Module.End.mem_eigenspace_iff, toLin'_apply] at hw ⊢
    rw [mulVec_mulVec, ← hS a, ← mulVec_mulVec, hw, mulVec_smul])
  rcases hinv with h0 | h0
  · exact absurd h0 hc
  · apply Matrix.toLin'.injective
    refine LinearMap.ext fun v => ?_
    have : v ∈ Module.End.eigenspace (Matrix.toLin' S) c := by rw [h0]; trivial
    rw [Module.End.mem_eigenspace_iff] at this
    rw [this]
    simp

theorem finrank_commutant_of_irreducible {X : Fin n → Matrix (Fin d) (Fin d) ℂ}
    (h : IrreducibleFamily X) : Module.finrank ℂ (intertwiners X X) = 1 := by
  have : Nonempty (Fin d) := ⟨⟨0, h.1⟩⟩
  rw [finrank_eq_one_iff']
  refine ⟨⟨1, one_mem_intertwiners X⟩, ?_, ?_⟩
  · intro h0
    have := congrArg Subtype.val h0
    exact one_ne_zero this
  · rintro ⟨S, hS⟩
    obtain ⟨c, hc⟩ := schur h hS
    exact ⟨c, Subtype.ext hc.symm⟩

/-- A unitary family: every generator is anti-hermitian or unitary. -/
theorem invariant_orthogonal {M : Matrix (Fin d) (Fin d) ℂ} (hM : Mᴴ = -M ∨ Mᴴ * M = 1)
    {W : Submodule ℂ (Vec d)} (hW : ∀ w ∈ W, (WithLp.toLp 2 (M *ᵥ w.ofLp) : Vec d) ∈ W) :
    ∀ w ∈ Wᗮ, (WithLp.toLp 2 (M *ᵥ w.ofLp) : Vec d) ∈ Wᗮ := by
  intro w hw
  rw [Submodule.mem_orthogonal] at hw ⊢
  intro u hu
  rw [inner_mulVec]
  apply hw
  rcases hM with h | h
  · rw [h, neg_mulVec]
    exact W.neg_mem (hW u hu)
  · -- `M` maps `W` onto `W`, and `Mᴴ` is its inverse
    let f : W →ₗ[ℂ] W :=
      { toFun := fun w => ⟨_, hW w.1 w.2⟩
        map_add' := by
          intro x y
          apply Subtype.ext
          show (WithLp.toLp 2 (M *ᵥ (x.1.ofLp + y.1.ofLp)) : Vec d) = _
          rw [mulVec_add]; rfl
        map_smul' := by
          intro c x
          apply Subtype.ext
          show (WithLp.toLp 2 (M *ᵥ (c • x.1.ofLp)) : Vec d) = _
          rw [mulVec_smul]; rfl }
    have hinj : Function.Injective f := by
      intro x y hxy
      have h1 : (WithLp.toLp 2 (M *ᵥ x.1.ofLp) : Vec d) = WithLp.toLp 2 (M *ᵥ y.1.ofLp) :=
        congrArg Subtype.val hxy
      have h2 : M *ᵥ x.1.ofLp = M *ᵥ y.1.ofLp := congrArg WithLp.ofLp h1
      have h3 := congrArg (Mᴴ *ᵥ ·) h2
      simp only [mulVec_mulVec, h, one_mulVec] at h3
      apply Subtype.ext
      ext i
      exact congrFun h3 i
    obtain ⟨⟨z, hz⟩, hzu⟩ := (LinearMap.injective_iff_surjective.1 hinj) ⟨u, hu⟩
    have h1 : (WithLp.toLp 2 (M *ᵥ z.ofLp) : Vec d) = u := congrArg Subtype.val hzu
    rw [← h1]
    simp only [mulVec_mulVec, h, one_mulVec]
    exact hz

theorem irreducible_of_finrank {X : Fin n → Matrix (Fin d) (Fin d) ℂ}
    (hX : ∀ a, (X a)ᴴ = -X a ∨ (X a)ᴴ * X a = 1)
    (h : Module.finrank ℂ (intertwiners X X) = 1) : IrreducibleFamily X := by
  have hd : 0 < d := by
    rcases Nat.eq_zero_or_pos d with h0 | h0
    · subst h0
      have : Subsingleton (intertwiners X X) := ⟨fun a b => Subtype.ext (Subsingleton.elim _ _)⟩
      rw [Module.finrank_zero_of_subsingleton] at h
      omega
    · exact h0
  refine ⟨hd, ?_⟩
  intro W₀ hW₀
  have : Nonempty (Fin d) := ⟨⟨0, hd⟩⟩
  let e : Vec d ≃ₗ[ℂ] (Fin d → ℂ) := WithLp.linearEquiv 2 ℂ (Fin d → ℂ)
  let W : Submodule ℂ (Vec d) := W₀.comap e.toLinearMap
  have hW : ∀ a, ∀ w ∈ W, (WithLp.toLp 2 (X a *ᵥ w.ofLp) : Vec d) ∈ W := fun a w hw => hW₀ a _ hw
  have hW' : ∀ a, ∀ w ∈ Wᗮ, (WithLp.toLp 2 (X a *ᵥ w.ofLp) : Vec d) ∈ Wᗮ :=
    fun a => invariant_orthogonal (hX a) (hW a)
  -- the projector on `W` as a matrix
  let P : Matrix (Fin d) (Fin d) ℂ :=
    LinearMap.toMatrix' (e.toLinearMap ∘ₗ (W.starProjection : Vec d →L[ℂ] Vec d).toLinearMap ∘ₗ
      e.symm.toLinearMap)
  have hP : ∀ v : Vec d, P *ᵥ v.ofLp = (W.starProjection v).ofLp := by
    intro v
    show (LinearMap.toMatrix' _) *ᵥ v.ofLp = _
    rw [← toLin'_apply, toLin'_toMatrix']
    rfl
  have hcomm : P ∈ intertwiners X X := by
    intro a
    apply Matrix.toLin'.injective
    refine LinearMap.ext fun v => ?_
    rw [toLin'_apply, toLin'_apply, ← mulVec_mulVec, ← mulVec_mulVec]
    have h1 := hP (WithLp.toLp 2 v)
    have h2 := hP (WithLp.toLp 2 (X a *ᵥ v))
    simp only at h1 h2
    rw [h1, h2]
    have hdec : (WithLp.toLp 2 (X a *ᵥ v) : Vec d) =
        WithLp.toLp 2 (X a *ᵥ (W.starProjection (WithLp.toLp 2 v)).ofLp) +
        WithLp.toLp 2 (X a *ᵥ ((WithLp.toLp 2 v : Vec d) - W.starProjection (WithLp.toLp 2 v)).ofLp) := by
      rw [← WithLp.toLp_add, ← mulVec_add]
      simp
    rw [hdec, map_add, Submodule.starProjection_eq_self_iff.2
        (hW a _ (Submodule.starProjection_apply_mem _ _)),
      (Submodule.starProjection_apply_eq_zero_iff _).2
        (hW' a _ (Submodule.sub_starProjection_mem_orthogonal _)), add_zero]
  -- it is a scalar
  rw [finrank_eq_one_iff_of_nonzero' (⟨1, one_mem_intertwiners X⟩ : intertwiners X X) (by
    intro h0; exact one_ne_zero (congrArg Subtype.val h0))] at h
  obtain ⟨c, hc⟩ := h ⟨P, hcomm⟩
  have hc' : P = c • 1 := (congrArg Subtype.val hc).symm
  have hPv : ∀ v : Vec d, W.starProjection v = c • v := by
    intro v
    have := hP v
    rw [hc', Matrix.smul_mulVec, one_mulVec] at this
    ext i
    exact (congrFun this i).symm
  by_cases hc0 : c = 0
  · left
    rw [eq_bot_iff]
    intro w hw
    have hw' : (WithLp.toLp 2 w : Vec d) ∈ W := hw
    have h1 := Submodule.starProjection_eq_self_iff.2 hw'
    rw [hPv, hc0, zero_smul] at h1
    exact (congrArg WithLp.ofLp h1).symm
  · right
    rw [eq_top_iff]
    intro w _
    have h1 : W.starProjection (WithLp.toLp 2 w) ∈ W := Submodule.starProjection_apply_mem _ _
    rw [hPv] at h1
    have h2 := (Submodule.smul_mem_iff _ hc0).1 h1
    exact h2

end LieNN
