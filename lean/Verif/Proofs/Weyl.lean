import Verif.Proofs.Semisimple
import Mathlib.LinearAlgebra.Eigenspace.Triangularizable
/-!
# Weyl's theorem

The invariant complement of an invariant subspace, by the Casimir element.
-/
namespace LieNN.Semi

open Matrix LieNN LieNN.Spec Module

variable {N : ℕ}

/-- The commutation relations. -/
def Brackets {R : Type*} [Ring R] [Algebra ℂ R] (A : Fin N → Fin N → Fin N → ℂ) (X : Fin N → R) : Prop :=
  ∀ i j, X i * X j - X j * X i = ∑ k, A i j k • X k

/-- The quadratic element. -/
def cas {R : Type*} [Ring R] [Algebra ℂ R] (g : Fin N → Fin N → ℂ) (X : Fin N → R) : R := ∑ a, ∑ b, g a b • (X a * X b)

/-- What the proof needs of the structure constants. -/
structure Reductive (A : Fin N → Fin N → Fin N → ℂ) (g : Fin N → Fin N → ℂ) : Prop where
  comm : ∀ (R : Type) [Ring R] [Algebra ℂ R] (X : Fin N → R), Brackets A X → ∀ c, X c * cas g X = cas g X * X c
  perf : ∀ (E : Type) [AddCommGroup E] [Module ℂ E] (X : Fin N → End ℂ E) (v : E), Brackets A X →
    (∀ a b, X a (X b v) = 0) → ∀ c, X c v = 0
  pos : ∀ {k : ℕ} (Y : Fin N → Matrix (Fin k) (Fin k) ℂ), Brackets A Y → IrreducibleFamily Y → cas g Y = 0 → ∀ a, Y a = 0

variable {A : Fin N → Fin N → Fin N → ℂ} {g : Fin N → Fin N → ℂ}

section
variable {E : Type} [AddCommGroup E] [Module ℂ E] {X : Fin N → End ℂ E}

theorem cas_apply (v : E) : cas g X v = ∑ a, ∑ b, g a b • X a (X b v) := by
  simp [cas, LinearMap.sum_apply, Module.End.mul_apply]

theorem cas_mem {K : Submodule ℂ E} (hK : ∀ a, ∀ x ∈ K, X a x ∈ K) {v : E} (hv : ∀ a, X a v ∈ K) : cas g X v ∈ K := by
  rw [cas_apply]
  exact Submodule.sum_mem _ fun a _ => Submodule.sum_mem _ fun b _ => K.smul_mem _ (hK a _ (hv b))

/-- The case of a smallest subspace. -/
theorem fix_minimal [FiniteDimensional ℂ E] (hg : Reductive A g) (hX : Brackets A X) {K : Submodule ℂ E}
    (hK : ∀ a, ∀ x ∈ K, X a x ∈ K) (hne : K ≠ ⊥)
    (hmin : ∀ U : Submodule ℂ E, (∀ a, ∀ x ∈ U, X a x ∈ U) → U ≤ K → U = ⊥ ∨ U = K) {v : E} (hv : ∀ a, X a v ∈ K) :
    ∃ k ∈ K, ∀ a, X a (v - k) = 0 := by
  by_cases htriv : ∀ a, ∀ x ∈ K, X a x = 0
  · refine ⟨0, K.zero_mem, ?_⟩
    rw [sub_zero]
    exact hg.perf E X v hX fun a b => htriv a _ (hv b)
  have hc := hg.comm _ X hX
  have hc' : ∀ a x, X a (cas g X x) = cas g X (X a x) := fun a x => congrArg (fun f : End ℂ E => f x) (hc a)
  have hΩK : ∀ x ∈ K, cas g X x ∈ K := fun x hx => cas_mem hK fun a => hK a x hx
  have : Nontrivial K := Submodule.nontrivial_iff_ne_bot.2 hne
  obtain ⟨c, hev⟩ := Module.End.exists_eigenvalue ((cas g X).restrict hΩK)
  obtain ⟨x₀, hx₀⟩ := hev.exists_hasEigenvector
  have hx1 : cas g X x₀ = c • (x₀ : E) := congrArg Subtype.val hx₀.apply_eq_smul
  have hscal : ∀ x ∈ K, cas g X x = c • x := by
    have := hmin (K ⊓ LinearMap.ker (cas g X - c • 1)) (fun a x hx => ⟨hK a x hx.1, by
      have h2 := hx.2
      rw [SetLike.mem_coe, LinearMap.mem_ker, LinearMap.sub_apply, LinearMap.smul_apply, Module.End.one_apply] at h2 ⊢
      rw [← hc', sub_eq_zero.1 h2, map_smul, sub_self]⟩) inf_le_left
    rcases this with h | h
    · exfalso
      have : (x₀ : E) ∈ K ⊓ LinearMap.ker (cas g X - c • 1) := ⟨x₀.2, by
        rw [SetLike.mem_coe, LinearMap.mem_ker, LinearMap.sub_apply, LinearMap.smul_apply, Module.End.one_apply, hx1, sub_self]⟩
      rw [h, Submodule.mem_bot] at this
      exact hx₀.2 (Subtype.ext this)
    · intro x hx
      rw [← h] at hx
      have h2 := hx.2
      rw [SetLike.mem_coe, LinearMap.mem_ker, LinearMap.sub_apply, LinearMap.smul_apply, Module.End.one_apply] at h2
      exact sub_eq_zero.1 h2
  have hc0 : c ≠ 0 := by
    rintro rfl
    apply htriv
    let b := finBasis ℂ K
    let X' : Fin N → End ℂ K := fun a => (X a).restrict (hK a)
    have hX' : Brackets A X' := by
      intro i j
      ext x
      have := congrArg (fun f : End ℂ E => f x) (hX i j)
      simpa [X', LinearMap.sum_apply] using this
    let Y : Fin N → Matrix (Fin (finrank ℂ K)) (Fin (finrank ℂ K)) ℂ := fun a => LinearMap.toMatrixAlgEquiv b (X' a)
    have hY : Brackets A Y := by
      intro i j
      have := congrArg (LinearMap.toMatrixAlgEquiv b) (hX' i j)
      simpa only [map_sub, map_mul, map_sum, map_smul] using this
    have hYv : ∀ a (x : K), Y a *ᵥ (b.equivFun x) = b.equivFun (X' a x) := by
      intro a x
      exact LinearMap.toMatrix_mulVec_repr b b (X' a) x
    have hirr : IrreducibleFamily Y := by
      refine ⟨finrank_pos, fun W hW => ?_⟩
      have key := hmin ((W.comap b.equivFun.toLinearMap).map K.subtype) (by
        rintro a _ ⟨x, hx, rfl⟩
        refine ⟨X' a x, ?_, rfl⟩
        have := hW a _ (Submodule.mem_comap.1 hx)
        rw [LinearEquiv.coe_coe, hYv] at this
        exact Submodule.mem_comap.2 this) (Submodule.map_subtype_le _ _)
      rcases key with h | h
      · left
        have h := Submodule.map_injective_of_injective K.injective_subtype (h.trans (Submodule.map_bot _).symm)
        rw [Submodule.eq_bot_iff]
        intro w hw
        have : b.equivFun.symm w ∈ W.comap b.equivFun.toLinearMap := by
          rw [Submodule.mem_comap, LinearEquiv.coe_coe, LinearEquiv.apply_symm_apply]
          exact hw
        rw [h, Submodule.mem_bot] at this
        exact (LinearEquiv.map_eq_zero_iff _).1 this
      · right
        rw [Submodule.eq_top_iff']
        intro w
        have : ((b.equivFun.symm w : K) : E) ∈ (W.comap b.equivFun.toLinearMap).map K.subtype := by
          rw [h]
          exact (b.equivFun.symm w).2
        obtain ⟨x, hx, he⟩ := this
        have hx' : x = b.equivFun.symm w := Subtype.ext he
        rw [hx', SetLike.mem_coe, Submodule.mem_comap, LinearEquiv.coe_coe, LinearEquiv.apply_symm_apply] at hx
        exact hx
    have hcas : cas g Y = LinearMap.toMatrixAlgEquiv b (cas g X') := by
      unfold cas
      simp only [map_sum, map_smul, map_mul]
      rfl
    have h0 : cas g X' = 0 := by
      ext x
      have := hscal x x.2
      rw [zero_smul, cas_apply] at this
      rw [cas_apply]
      simpa [X'] using this
    rw [h0, map_zero] at hcas
    intro a x hx
    have hYa := hg.pos Y hY hirr hcas a
    have : X' a = 0 := by
      have h := congrArg (LinearMap.toMatrixAlgEquiv b).symm hYa
      simpa [Y] using h
    exact congrArg (fun f : End ℂ K => ((f ⟨x, hx⟩ : K) : E)) this
  refine ⟨c⁻¹ • cas g X v, K.smul_mem _ (cas_mem hK hv), fun a => ?_⟩
  have h1 : cas g X (v - c⁻¹ • cas g X v) = 0 := by
    rw [map_sub, map_smul, hscal _ (cas_mem hK hv), smul_smul, inv_mul_cancel₀ hc0, one_smul, sub_self]
  have h2 : X a (v - c⁻¹ • cas g X v) ∈ K := by
    rw [map_sub, map_smul]
    exact K.sub_mem (hv a) (K.smul_mem _ (hK a _ (cas_mem hK hv)))
  have h3 := hscal _ h2
  rw [← hc', h1, map_zero] at h3
  exact (smul_eq_zero.1 h3.symm).resolve_left hc0
end

theorem fix_aux (hg : Reductive A g) (m : ℕ) : ∀ (E : Type) [AddCommGroup E] [Module ℂ E] [FiniteDimensional ℂ E] (X : Fin N → End ℂ E)
    (_ : Brackets A X) (K : Submodule ℂ E) (_ : ∀ a, ∀ x ∈ K, X a x ∈ K) (v : E) (_ : ∀ a, X a v ∈ K) (_ : finrank ℂ K = m),
    ∃ k ∈ K, ∀ a, X a (v - k) = 0 := by
  induction m using Nat.strong_induction_on with
  | _ m ih =>
    intro E _ _ _ X hX K hK v hv hm
    by_cases hne : K = ⊥
    · subst hne
      exact ⟨0, Submodule.zero_mem _, fun a => by rw [sub_zero]; exact (Submodule.mem_bot ℂ).1 (hv a)⟩
    by_cases hmin : ∀ U : Submodule ℂ E, (∀ a, ∀ x ∈ U, X a x ∈ U) → U ≤ K → U = ⊥ ∨ U = K
    · exact fix_minimal hg hX hK hne hmin hv
    push Not at hmin
    obtain ⟨U, hU, hUK, hU0, hU1⟩ := hmin
    let Xq : Fin N → End ℂ (E ⧸ U) := fun a => U.mapQ U (X a) (hU a)
    have hXq : ∀ a x, Xq a (U.mkQ x) = U.mkQ (X a x) := fun a x => rfl
    have hB : Brackets A Xq := by
      intro i j
      refine Submodule.linearMap_qext _ (LinearMap.ext fun x => ?_)
      have := congrArg (fun f : End ℂ E => U.mkQ (f x)) (hX i j)
      simpa [Xq, LinearMap.sum_apply] using this
    have hlt : finrank ℂ (K.map U.mkQ) < m := by
      have h1 : finrank ℂ (K.map U.mkQ) + finrank ℂ U = finrank ℂ K := by
        have := LinearMap.finrank_range_add_finrank_ker (U.mkQ.domRestrict K)
        rw [LinearMap.range_domRestrict] at this
        rw [← this]
        congr 1
        rw [LinearMap.ker_domRestrict, Submodule.ker_mkQ]
        exact (LinearEquiv.finrank_eq (Submodule.submoduleOfEquivOfLe hUK)).symm
      have h2 : 0 < finrank ℂ U := by
        have : Nontrivial U := Submodule.nontrivial_iff_ne_bot.2 hU0
        exact finrank_pos
      omega
    obtain ⟨k₁, hk₁, hk₂⟩ := ih _ hlt (E ⧸ U) Xq hB (K.map U.mkQ) (by
      rintro a _ ⟨x, hx, rfl⟩
      exact ⟨X a x, hK a x hx, rfl⟩) (U.mkQ v) (fun a => ⟨X a v, hv a, rfl⟩) rfl
    obtain ⟨k, hk, rfl⟩ := hk₁
    have h3 : ∀ a, X a (v - k) ∈ U := by
      intro a
      have := hk₂ a
      rw [← map_sub, hXq, Submodule.mkQ_apply, Submodule.Quotient.mk_eq_zero] at this
      exact this
    have hlt' : finrank ℂ U < m := hm ▸ Submodule.finrank_lt_finrank_of_lt (lt_of_le_of_ne hUK hU1)
    obtain ⟨k', hk', h4⟩ := ih _ hlt' E X hX U hU (v - k) h3 rfl
    refine ⟨k + k', K.add_mem hk (hUK hk'), fun a => ?_⟩
    rw [← sub_sub]
    exact h4 a

variable {d : ℕ}

/-- An invariant projection to an invariant subspace. -/
theorem exists_proj (hg : Reductive A g) {X : Fin N → Matrix (Fin d) (Fin d) ℂ} (hX : Brackets A X) (W : Submodule ℂ (Fin d → ℂ))
    (hW : Invariant X W) : ∃ P : Matrix (Fin d) (Fin d) ℂ, (∀ a, X a * P = P * X a) ∧ (∀ w ∈ W, P *ᵥ w = w) ∧ ∀ x, P *ᵥ x ∈ W := by
  obtain ⟨f, hf⟩ := LinearMap.exists_leftInverse_of_injective W.subtype (Submodule.ker_subtype W)
  let p : Matrix (Fin d) (Fin d) ℂ := LinearMap.toMatrix' (W.subtype ∘ₗ f)
  have hp : ∀ x, p *ᵥ x = f x := fun x => by
    change LinearMap.toMatrix' _ *ᵥ x = _
    rw [LinearMap.toMatrix'_mulVec]
    rfl
  have hfw : ∀ w : W, f w = w := fun w => congrArg (fun h : W →ₗ[ℂ] W => h w) hf
  let ad : Fin N → End ℂ (Matrix (Fin d) (Fin d) ℂ) := fun a => LinearMap.mulLeft ℂ (X a) - LinearMap.mulRight ℂ (X a)
  have had : ∀ a M, ad a M = X a * M - M * X a := fun a M => rfl
  have hB : Brackets A ad := by
    intro i j
    refine LinearMap.ext fun M => ?_
    rw [LinearMap.sub_apply, Module.End.mul_apply, Module.End.mul_apply, LinearMap.sum_apply]
    simp only [LinearMap.smul_apply, had]
    have h1 : X i * (X j * M - M * X j) - (X j * M - M * X j) * X i - (X j * (X i * M - M * X i) - (X i * M - M * X i) * X j) =
        (X i * X j - X j * X i) * M - M * (X i * X j - X j * X i) := by noncomm_ring
    rw [h1, hX i j, Finset.sum_mul, Finset.mul_sum, ← Finset.sum_sub_distrib]
    refine Finset.sum_congr rfl fun k _ => ?_
    rw [smul_mul_assoc, mul_smul_comm, smul_sub]
  let K : Submodule ℂ (Matrix (Fin d) (Fin d) ℂ) :=
    { carrier := {M | (∀ x, M *ᵥ x ∈ W) ∧ ∀ w ∈ W, M *ᵥ w = 0}
      add_mem' := fun {M M'} h h' => ⟨fun x => by rw [add_mulVec]; exact W.add_mem (h.1 x) (h'.1 x),
        fun w hw => by rw [add_mulVec, h.2 w hw, h'.2 w hw, add_zero]⟩
      zero_mem' := ⟨fun x => by rw [zero_mulVec]; exact W.zero_mem, fun w _ => zero_mulVec w⟩
      smul_mem' := fun c M h => ⟨fun x => by rw [smul_mulVec]; exact W.smul_mem c (h.1 x),
        fun w hw => by rw [smul_mulVec, h.2 w hw, smul_zero]⟩ }
  obtain ⟨k, hk, h⟩ := fix_aux hg _ _ ad hB K (by
    intro a M hM
    refine ⟨fun x => ?_, fun w hw => ?_⟩
    · rw [had, sub_mulVec, ← mulVec_mulVec, ← mulVec_mulVec]
      exact W.sub_mem (hW a _ (hM.1 x)) (hM.1 _)
    · rw [had, sub_mulVec, ← mulVec_mulVec, ← mulVec_mulVec, hM.2 w hw, hM.2 _ (hW a w hw), mulVec_zero, sub_zero]) p (by
    intro a
    refine ⟨fun x => ?_, fun w hw => ?_⟩
    · rw [had, sub_mulVec, ← mulVec_mulVec, ← mulVec_mulVec, hp, hp]
      exact W.sub_mem (hW a _ (f x).2) (f _).2
    · rw [had, sub_mulVec, ← mulVec_mulVec, ← mulVec_mulVec, hp, hp, hfw ⟨w, hw⟩, hfw ⟨_, hW a w hw⟩, sub_self]) rfl
  refine ⟨p - k, fun a => sub_eq_zero.1 (h a), fun w hw => ?_, fun x => ?_⟩
  · rw [sub_mulVec, hp, hk.2 w hw, sub_zero, hfw ⟨w, hw⟩]
  · rw [sub_mulVec, hp]
    exact W.sub_mem (f x).2 (hk.1 x)

theorem semisimple_of_proj {X : Fin N → Matrix (Fin d) (Fin d) ℂ} (h : ∀ W, Invariant X W → ∃ P : Matrix (Fin d) (Fin d) ℂ,
    (∀ a, X a * P = P * X a) ∧ (∀ w ∈ W, P *ᵥ w = w) ∧ ∀ x, P *ᵥ x ∈ W) : Semisimple X := by
  intro W hW
  obtain ⟨P, hP, h1, h2⟩ := h W hW
  refine ⟨LinearMap.ker P.mulVecLin, fun a w hw => ?_, ?_, ?_⟩
  · rw [LinearMap.mem_ker, mulVecLin_apply] at hw ⊢
    rw [mulVec_mulVec, ← hP a, ← mulVec_mulVec, hw, mulVec_zero]
  · rw [Submodule.eq_bot_iff]
    rintro x ⟨hx, hx'⟩
    rw [SetLike.mem_coe, LinearMap.mem_ker, mulVecLin_apply, h1 x hx] at hx'
    exact hx'
  · rw [Submodule.eq_top_iff']
    intro x
    have : x = P *ᵥ x + (x - P *ᵥ x) := by abel
    rw [this]
    refine Submodule.add_mem_sup (h2 x) ?_
    rw [LinearMap.mem_ker, mulVecLin_apply, mulVec_sub, h1 _ (h2 x), sub_self]

/-- Weyl's theorem. -/
theorem weyl (hg : Reductive A g) {X : Fin N → Matrix (Fin d) (Fin d) ℂ} (hX : Brackets A X) : Semisimple X :=
  semisimple_of_proj fun W hW => exists_proj hg hX W hW

/-- With an involution that commutes. -/
theorem weyl_involution (hg : Reductive A g) {r : Rep N 1 d} (hX : Brackets A r.X) (hsq : r.H 0 * r.H 0 = 1)
    (hc : ∀ a, r.H 0 * r.X a = r.X a * r.H 0) : Semisimple r.allGens := by
  refine semisimple_of_proj fun W hW => ?_
  have hWX : ∀ a, ∀ w ∈ W, r.X a *ᵥ w ∈ W := fun a w hw => by
    have := hW (Fin.castAdd 1 a) w hw
    unfold Rep.allGens at this
    rwa [Fin.append_left] at this
  have hWH : ∀ w ∈ W, r.H 0 *ᵥ w ∈ W := fun w hw => by
    have := hW (Fin.natAdd N 0) w hw
    unfold Rep.allGens at this
    rwa [Fin.append_right] at this
  obtain ⟨P, h1, h2, h3⟩ := exists_proj hg hX W hWX
  refine ⟨(1 / 2 : ℂ) • (P + r.H 0 * P * r.H 0), fun a => ?_, fun w hw => ?_, fun x => ?_⟩
  · unfold Rep.allGens
    refine Fin.addCases (fun a => ?_) (fun a => ?_) a
    · rw [Fin.append_left, Matrix.mul_smul, Matrix.smul_mul, Matrix.mul_add, Matrix.add_mul, h1 a]
      congr 2
      rw [← Matrix.mul_assoc, ← Matrix.mul_assoc, ← hc a, Matrix.mul_assoc (r.H 0), h1 a]
      simp only [Matrix.mul_assoc, hc a]
    · obtain rfl : a = 0 := Subsingleton.elim _ _
      rw [Fin.append_right, Matrix.mul_smul, Matrix.smul_mul, Matrix.mul_add, Matrix.add_mul, ← Matrix.mul_assoc, ← Matrix.mul_assoc,
        hsq, Matrix.one_mul, Matrix.mul_assoc (r.H 0 * P), hsq, Matrix.mul_one, add_comm]
  · rw [smul_mulVec, add_mulVec, ← mulVec_mulVec, ← mulVec_mulVec, h2 w hw, h2 _ (hWH w hw), mulVec_mulVec, hsq, one_mulVec,
      ← two_smul ℂ w, smul_smul]
    norm_num
  · rw [smul_mulVec, add_mulVec, ← mulVec_mulVec, ← mulVec_mulVec]
    exact W.smul_mem _ (W.add_mem (h3 x) (hWH _ (h3 _)))

end LieNN.Semi
