import Verif.Model.Irreducible
import Verif.Proofs.IntertwinerRep
import Verif.Proofs.SemisimpleTable
import Verif.Proofs.TFOrth
/-!
# Commutants of semisimple families, and solutions that `nullspace` cannot miss
-/
namespace LieNN.Semi

open Matrix LieNN LieNN.Spec Module

variable {N d d₁ d₂ : ℕ} {X : Fin N → Matrix (Fin d) (Fin d) ℂ}

/-- If every invariant subspace has an invariant complement, a family with a commutant of dimension one is irreducible. -/
theorem irreducible_of_semisimple (hX : Semisimple X) (h : finrank ℂ (intertwiners X X) = 1) : IrreducibleFamily X := by
  have hd : 0 < d := by
    rcases Nat.eq_zero_or_pos d with h0 | h0
    · subst h0
      have : Subsingleton (intertwiners X X) := ⟨fun a b => Subtype.ext (Subsingleton.elim _ _)⟩
      rw [finrank_zero_of_subsingleton] at h
      omega
    · exact h0
  refine ⟨hd, fun W hW => ?_⟩
  obtain ⟨W', h1, h2, h3⟩ := hX W hW
  have hc : IsCompl W W' := ⟨disjoint_iff.2 h2, codisjoint_iff.2 h3⟩
  let P : Matrix (Fin d) (Fin d) ℂ := LinearMap.toMatrix' (W.projection W' hc)
  have hP : ∀ v, P *ᵥ v = W.projection W' hc v := fun v => by
    rw [← toLin'_apply, toLin'_toMatrix']
  have hcomm : P ∈ intertwiners X X := by
    intro a
    apply Matrix.toLin'.injective
    refine LinearMap.ext fun v => ?_
    rw [toLin'_apply, toLin'_apply, ← mulVec_mulVec, ← mulVec_mulVec, hP, hP]
    obtain ⟨w, hw, w', hw', rfl⟩ := Submodule.mem_sup.1 (h3 ▸ Submodule.mem_top : v ∈ W ⊔ W')
    rw [mulVec_add, map_add, map_add, Submodule.projection_apply_of_mem_left hc hw, Submodule.projection_apply_of_mem_right hc hw',
      Submodule.projection_apply_of_mem_left hc (hW a w hw), Submodule.projection_apply_of_mem_right hc (h1 a w' hw'), add_zero, add_zero]
  have : Nonempty (Fin d) := ⟨⟨0, hd⟩⟩
  obtain ⟨c, hc1⟩ : ∃ c : ℂ, P = c • (1 : Matrix (Fin d) (Fin d) ℂ) := by
    have h1' : (⟨1, one_mem_intertwiners X⟩ : intertwiners X X) ≠ 0 := fun h0 => one_ne_zero (congrArg Subtype.val h0)
    obtain ⟨c, hc⟩ := (finrank_eq_one_iff_of_nonzero' _ h1').1 h ⟨P, hcomm⟩
    exact ⟨c, (congrArg Subtype.val hc).symm⟩
  by_cases h0 : c = 0
  · left
    rw [Submodule.eq_bot_iff]
    intro w hw
    have := hP w
    rw [hc1, h0, zero_smul, zero_mulVec, Submodule.projection_apply_of_mem_left hc hw] at this
    exact this.symm
  · right
    rw [Submodule.eq_top_iff']
    intro v
    have h4 := Submodule.projection_apply_mem hc v
    rw [← hP, hc1, smul_mulVec, one_mulVec] at h4
    have := W.smul_mem c⁻¹ h4
    rwa [smul_smul, inv_mul_cancel₀ h0, one_smul] at this

/-- `nullspace` finds the whole kernel, whatever the other eigenvalues are. -/
theorem kernel_le_nullspace {eigh : EighFn} {eps : ℝ} (he : EighSpec eigh) (heps : 0 < eps) {m n : ℕ} (A : Matrix (Fin m) (Fin n) ℂ)
    (hn : n * eps ^ 2 < 1) : kernel A ≤ lspan (nullspace eigh eps A) := by
  obtain ⟨ho, hev⟩ := eigh_spec_mul he A
  rw [nullspace_span he heps A hn]
  intro x hx
  have h0 : sqNormMul A x = 0 := sqNormMul_eq_zero.2 hx
  rw [sqNormMul_spectral ho hev] at h0
  apply mem_selSpan_of_inner eps ho
  intro k hk
  have h1 := (Finset.sum_eq_zero_iff_of_nonneg
    (fun k _ => mul_nonneg (val_nonneg ho hev k) (sq_nonneg _))).1 h0 k (Finset.mem_univ k)
  rcases mul_eq_zero.1 h1 with h2 | h2
  · rw [h2, abs_zero] at hk; exact absurd heps hk
  · rw [sq_eq_zero_iff, norm_eq_zero] at h2; exact h2

/-- `infer_change_of_basis` returns at least a basis of the equivariant maps. -/
theorem infer_ge {eigh : EighFn} {eps : ℝ} (he : EighSpec eigh) (heps : 0 < eps) (hn : N ≠ 0)
    (X₁ : Fin N → Matrix (Fin d₁) (Fin d₁) ℂ) (X₂ : Fin N → Matrix (Fin d₂) (Fin d₂) ℂ) (hd : (d₁ * d₂ : ℕ) * eps ^ 2 < 1) :
    ∃ S, inferChangeOfBasis eigh eps X₁ X₂ = .ok S ∧ finrank ℂ (intertwiners X₁ X₂) ≤ S.length := by
  refine ⟨_, if_neg hn, ?_⟩
  rw [List.length_map, oList_length (nullspace_oList heps _), intertwiners_eq, LinearEquiv.finrank_map_eq]
  exact Submodule.finrank_mono (kernel_le_nullspace he heps _ hd)

theorem sqNormMul_le {m n : ℕ} (A : Matrix (Fin m) (Fin n) ℂ) {x : Vec n} (hx : ‖x‖ = 1) : sqNormMul A x ≤ ∑ i, ∑ j, ‖A i j‖ ^ 2 := by
  have h1 : ∑ j, ‖x.ofLp j‖ ^ 2 = 1 := by
    rw [← EuclideanSpace.norm_sq_eq, hx, one_pow]
  rw [sqNormMul, EuclideanSpace.norm_sq_eq]
  refine Finset.sum_le_sum fun i _ => ?_
  calc ‖(A *ᵥ x.ofLp) i‖ ^ 2 ≤ (∑ j, ‖A i j‖ * ‖x.ofLp j‖) ^ 2 := by
        gcongr
        refine (norm_sum_le Finset.univ fun j => A i j * x.ofLp j).trans (le_of_eq ?_)
        exact Finset.sum_congr rfl fun j _ => norm_mul _ _
    _ ≤ (∑ j, ‖A i j‖ ^ 2) * ∑ j, ‖x.ofLp j‖ ^ 2 := Finset.sum_mul_sq_le_sq_mul_sq _ _ _
    _ = _ := by rw [h1, mul_one]

/-- If all squares of entries sum up to less than `eps`, everything is a solution. -/
theorem nullspace_all {eigh : EighFn} {eps : ℝ} (he : EighSpec eigh) (heps : 0 < eps) {m n : ℕ} (A : Matrix (Fin m) (Fin n) ℂ)
    (hn : n * eps ^ 2 < 1) (hA : ∑ i, ∑ j, ‖A i j‖ ^ 2 < eps) : (nullspace eigh eps A).length = n := by
  obtain ⟨ho, hev⟩ := eigh_spec_mul he A
  rw [oList_length (nullspace_oList heps _), nullspace_span he heps A hn]
  have : selSpan eps (eigh n (Aᴴ * A)).1 (eigh n (Aᴴ * A)).2 = ⊤ := by
    rw [Submodule.eq_top_iff']
    intro x
    apply mem_selSpan_of_inner eps ho
    intro k hk
    exfalso
    apply hk
    rw [abs_of_nonneg (val_nonneg ho hev k)]
    refine lt_of_le_of_lt ?_ hA
    have h := sqNormMul_spectral ho hev ((eigh n (Aᴴ * A)).2 k)
    rw [Finset.sum_eq_single k (fun j _ hj => by rw [ho.2 hj]; simp) (by simp), inner_self_eq_norm_sq_to_K, ho.1 k] at h
    simp at h
    rw [← h]
    exact sqNormMul_le A (ho.1 k)
  rw [this, finrank_top]
  simp

/-! ## The number of solutions between sums of blocks -/

variable {n h : ℕ} {T : Table n h} {e k k' : ℕ}

theorem finrank_transpose (X : Fin N → Matrix (Fin d₁) (Fin d₁) ℂ) (Y : Fin N → Matrix (Fin d₂) (Fin d₂) ℂ) :
    finrank ℂ (intertwiners X Y) = finrank ℂ (intertwiners (fun a => (Y a)ᵀ) fun a => (X a)ᵀ) :=
  LinearEquiv.finrank_eq
    { toFun := fun S => ⟨S.1ᵀ, fun a => by rw [← transpose_mul, ← transpose_mul, S.2 a]⟩
      map_add' := fun S S' => rfl
      map_smul' := fun c S => rfl
      invFun := fun S => ⟨S.1ᵀ, fun a => by
        have := congrArg transpose (S.2 a)
        rw [transpose_mul, transpose_mul, transpose_transpose, transpose_transpose] at this
        exact this.symm⟩
      left_inv := fun S => rfl
      right_inv := fun S => rfl }

theorem finrank_blocks (F : Fin N → T.Mats) (Y : Fin N → Matrix (Fin e) (Fin e) ℂ) (l : List (MulIr T)) :
    finrank ℂ (intertwiners (fun a => diagMat (F a) l) Y) =
      (l.map fun m => m.mul * finrank ℂ (intertwiners (fun a => F a m.ir) Y)).sum := by
  induction l with
  | nil =>
    have : Subsingleton (intertwiners (fun a => diagMat (F a) ([] : List (MulIr T))) Y) :=
      ⟨fun S S' => Subtype.ext (Matrix.ext fun x => x.elim0)⟩
    rw [finrank_zero_of_subsingleton]
    rfl
  | cons m l ih =>
    have h1 := (dsumEquiv (fun a => kron (1 : Matrix (Fin m.mul) (Fin m.mul) ℂ) (F a m.ir)) (fun a => diagMat (F a) l) Y).finrank_eq
    rw [finrank_prod, ih, (copiesEquiv m.mul (fun a => F a m.ir) Y).finrank_eq, finrank_pi_fintype,
      Finset.sum_const, Finset.card_univ, Fintype.card_fin, smul_eq_mul] at h1
    exact h1

theorem diagMat_transpose (Y : T.Mats) (l : List (MulIr T)) : (diagMat Y l)ᵀ = diagMat (fun j => (Y j)ᵀ) l := by
  induction l with
  | nil => ext i; exact i.elim0
  | cons m l ih =>
    rw [diagMat, diagMat, ← ih, dsum_transpose', kron_transpose, transpose_one]

theorem transpose_equivalent {X : Fin N → Matrix (Fin k) (Fin k) ℂ} {X' : Fin N → Matrix (Fin k') (Fin k') ℂ} (H : Equivalent X X') :
    Equivalent (fun a => (X a)ᵀ) fun a => (X' a)ᵀ := by
  obtain ⟨Q, P, h1, h2, h3⟩ := H
  refine ⟨Pᵀ, Qᵀ, by rw [← transpose_mul, h1, transpose_one], by rw [← transpose_mul, h2, transpose_one], fun a => ?_⟩
  rw [← transpose_mul, ← transpose_mul]
  congr 1
  calc P * X a = P * (X a * Q) * P := by rw [Matrix.mul_assoc, Matrix.mul_assoc, h1, Matrix.mul_one]
    _ = _ := by rw [h3, ← Matrix.mul_assoc, h2, Matrix.one_mul]

theorem finrank_acts (hT : Schur T) (hpos : ∀ i, 0 < T.dim i) {R R' : ReducedRep T} {r : Rep n h d₁} {r' : Rep n h d₂} (hR : Acts R r)
    (hR' : Acts R' r') :
    finrank ℂ (intertwiners r.allGens r'.allGens) = (R.irreps.map fun m => m.mul * mult R'.irreps m.ir).sum := by
  classical
  have h1 : ∀ i, finrank ℂ (intertwiners (T.rep i).allGens r'.allGens) = mult R'.irreps i := by
    intro i
    rw [finrank_transpose, finrank_equivalent (transpose_equivalent (acts_equivalent hR'))]
    have e1 : (fun a => (diagMat (fun j => (T.rep j).allGens a) R'.irreps)ᵀ) =
        fun a => diagMat (fun j => ((T.rep j).allGens a)ᵀ) R'.irreps := funext fun a => diagMat_transpose _ _
    rw [e1]
    rw [finrank_blocks (fun a j => ((T.rep j).allGens a)ᵀ), mult]
    congr 1
    refine List.map_congr_left fun m _ => ?_
    rw [← finrank_transpose, finrank_schur hT hpos]
    split_ifs with h1 h2 h2
    · rw [mul_one]
    · exact absurd h1.symm h2
    · exact absurd h2.symm h1
    · rw [mul_zero]
  rw [finrank_equivalent (acts_equivalent hR), finrank_blocks (fun a j => (T.rep j).allGens a)]
  congr 1
  refine List.map_congr_left fun m _ => ?_
  rw [h1]

end LieNN.Semi
