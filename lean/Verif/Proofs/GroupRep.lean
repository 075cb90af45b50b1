import Verif.Spec.GroupRep
import Verif.Spec.CG
import Verif.Spec.LinAlg
import Verif.Proofs.RepOps
import Verif.Proofs.IntertwinerRep
/-!
# Polynomial representations: products, subrepresentations, homomorphisms
-/
namespace LieNN

open Matrix NormedSpace Spec

variable {n h b d d₁ d₂ d₃ e₁ e₂ : ℕ}

theorem Spec.WordVal.cons_inv {r : Rep n h d} {c : Fin n → ℝ} {k : Fin h → ℤ} {w : List ((Fin n → ℝ) × (Fin h → ℤ))}
    {K : Matrix (Fin d) (Fin d) ℂ} (hw : WordVal r ((c, k) :: w) K) :
    ∃ g G, r.expMap (fun a => (c a : ℂ)) k = .ok g ∧ WordVal r w G ∧ K = g * G := by
  cases hw with
  | cons hg hG => exact ⟨_, _, hg, hG, rfl⟩

theorem Spec.WordVal.nil_inv {r : Rep n h d} {K : Matrix (Fin d) (Fin d) ℂ} (hw : WordVal r [] K) : K = 1 := by
  cases hw
  rfl

theorem Spec.WordVal.unique {r : Rep n h d} {w : List ((Fin n → ℝ) × (Fin h → ℤ))} {K K' : Matrix (Fin d) (Fin d) ℂ}
    (h1 : WordVal r w K) (h2 : WordVal r w K') : K = K' := by
  induction h1 generalizing K' with
  | nil => exact h2.nil_inv.symm
  | cons hg _ ih =>
    obtain ⟨g', G', hg', hG', rfl⟩ := WordVal.cons_inv h2
    rw [hg] at hg'
    rw [Except.ok.inj hg', ih hG']

theorem Spec.PolyOf.refl (r : Rep n h d) : PolyOf r r 1 := by
  refine ⟨fun i j => MvPolynomial.X (i, j), fun i j => MvPolynomial.isHomogeneous_X _ _, fun w G hw => ?_⟩
  have : evalMat (fun i j => MvPolynomial.X (i, j)) G = G := by
    ext i j
    simp [evalMat]
  rwa [this]

theorem wordVal_tensor {r₁ : Rep n h d₁} {r₂ : Rep n h d₂} {w : List ((Fin n → ℝ) × (Fin h → ℤ))}
    {G₁ : Matrix (Fin d₁) (Fin d₁) ℂ} {G₂ : Matrix (Fin d₂) (Fin d₂) ℂ} (h1 : WordVal r₁ w G₁)
    (h2 : WordVal r₂ w G₂) : WordVal (r₁.tensorProduct r₂) w (kron G₁ G₂) := by
  induction h1 generalizing G₂ with
  | nil => rw [h2.nil_inv, kron_one]; exact .nil
  | cons hg _ ih =>
    obtain ⟨g', G', hg', hG', rfl⟩ := WordVal.cons_inv h2
    rw [← kron_mul]
    exact .cons (expMap_tensorProduct hg hg') (ih hG')

theorem wordVal_dsum {r₁ : Rep n h d₁} {r₂ : Rep n h d₂} {w : List ((Fin n → ℝ) × (Fin h → ℤ))}
    {G₁ : Matrix (Fin d₁) (Fin d₁) ℂ} {G₂ : Matrix (Fin d₂) (Fin d₂) ℂ} (h1 : WordVal r₁ w G₁)
    (h2 : WordVal r₂ w G₂) : WordVal (r₁.directSum r₂) w (dsum G₁ G₂) := by
  induction h1 generalizing G₂ with
  | nil => rw [h2.nil_inv, dsum_one]; exact .nil
  | cons hg _ ih =>
    obtain ⟨g', G', hg', hG', rfl⟩ := WordVal.cons_inv h2
    rw [← dsum_mul]
    exact .cons (expMap_directSum hg hg') (ih hG')

/-- A polynomial representation times a polynomial representation. -/
theorem Spec.PolyOf.tensor {base : Rep n h b} {r₁ : Rep n h d₁} {r₂ : Rep n h d₂} (h1 : PolyOf base r₁ e₁)
    (h2 : PolyOf base r₂ e₂) : PolyOf base (r₁.tensorProduct r₂) (e₁ + e₂) := by
  obtain ⟨P₁, q1, h1⟩ := h1
  obtain ⟨P₂, q2, h2⟩ := h2
  refine ⟨fun i j => P₁ i.divNat j.divNat * P₂ i.modNat j.modNat, fun i j => (q1 _ _).mul (q2 _ _), fun w G hw => ?_⟩
  have : evalMat (fun i j => P₁ i.divNat j.divNat * P₂ i.modNat j.modNat) G = kron (evalMat P₁ G) (evalMat P₂ G) := by
    ext i j
    simp [evalMat, kron]
  rw [this]
  exact wordVal_tensor (h1 w G hw) (h2 w G hw)

/-- An image of a polynomial representation. -/
theorem Spec.PolyOf.image {base : Rep n h b} {r : Rep n h d₁} {s : Rep n h d} (h1 : PolyOf base r e₁)
    {T : Matrix (Fin d) (Fin d₁) ℂ} {T' : Matrix (Fin d₁) (Fin d) ℂ} (hT : T * T' = 1)
    (hX : ∀ a, s.X a * T = T * r.X a) (hH : ∀ a, s.H a * T = T * r.H a) : PolyOf base s e₁ := by
  obtain ⟨P, q1, h1⟩ := h1
  have key : ∀ w K, WordVal r w K → WordVal s w (T * K * T') ∧ T * K * T' * T = T * K := by
    intro w K hw
    induction hw with
    | nil => rw [Matrix.mul_one, hT, Matrix.one_mul]; exact ⟨.nil, rfl⟩
    | @cons c k w g G hg _ ih =>
      have hu := ((Rep.expMap_ok_iff _ _ _ _).1 hg).1
      have hu' : ∀ i, k i < 0 → IsUnit (s.H i) := by
        intro i hi
        obtain ⟨x, hx⟩ := hu i hi
        have e : s.H i * (T * (x⁻¹ : (Matrix (Fin d₁) (Fin d₁) ℂ)ˣ).1 * T') = 1 := by
          rw [← Matrix.mul_assoc, ← Matrix.mul_assoc, hH, ← hx, Matrix.mul_assoc T, Units.mul_inv, Matrix.mul_one, hT]
        exact ⟨⟨_, _, e, mul_eq_one_comm.1 e⟩, rfl⟩
      have hg' := Rep.expMap_ok s (fun a => (c a : ℂ)) k hu'
      set g' := s.discreteVal k * exp (∑ a, (c a : ℂ) • s.X a) with hg'd
      have hi : g' * T = T * g := expMap_intertwine hX hH hg hg'
      have e : T * (g * G) * T' = g' * (T * G * T') := by
        simp only [← Matrix.mul_assoc]
        rw [hi]
      refine ⟨?_, ?_⟩
      · rw [e]
        exact .cons hg' ih.1
      · rw [e, Matrix.mul_assoc, ih.2, ← Matrix.mul_assoc, hi, Matrix.mul_assoc]
  refine ⟨fun i j => ∑ x, ∑ y, MvPolynomial.C (T i x) * P x y * MvPolynomial.C (T' y j), fun i j => ?_, fun w G hw => ?_⟩
  · refine MvPolynomial.IsHomogeneous.sum _ _ _ fun x _ => MvPolynomial.IsHomogeneous.sum _ _ _ fun y _ => ?_
    simpa using ((MvPolynomial.isHomogeneous_C _ (T i x)).mul (q1 x y)).mul (MvPolynomial.isHomogeneous_C _ (T' y j))
  have : evalMat (fun i j => ∑ x, ∑ y, MvPolynomial.C (T i x) * P x y * MvPolynomial.C (T' y j)) G =
      T * evalMat P G * T' := by
    ext i j
    simp only [evalMat, of_apply, map_sum, map_mul, MvPolynomial.eval_C, mul_apply, Finset.sum_mul]
    exact Finset.sum_comm
  rw [this]
  exact (key w _ (h1 w G hw)).1

/-- The trivial representation. -/
theorem Spec.PolyOf.trivial (base : Rep n h b) {s : Rep n h 1} (hX : ∀ a, s.X a = 0) (hH : ∀ a, s.H a = 1) :
    PolyOf base s 0 := by
  refine ⟨fun _ _ => 1, fun _ _ => MvPolynomial.isHomogeneous_one _ _, fun w G hw => ?_⟩
  have e : evalMat (fun _ _ => (1 : MvPolynomial (Fin b × Fin b) ℂ)) G = (1 : Matrix (Fin 1) (Fin 1) ℂ) := by
    ext i j
    rw [Subsingleton.elim i j]
    simp [evalMat]
  rw [e]
  clear e
  induction hw with
  | nil => exact .nil
  | @cons c k w g G hg _ ih =>
    rw [← Matrix.one_mul (1 : Matrix (Fin 1) (Fin 1) ℂ)]
    refine .cons ?_ ih
    have := createTrivial_expMap s (fun a => (c a : ℂ)) k
    have e : s = s.createTrivial := by
      ext a
      · rfl
      · rw [hX]; rfl
      · rename_i i j
        rw [hH, Subsingleton.elim i j]
        exact Matrix.one_apply_eq _
    rw [e]
    exact this

theorem evalMat_smul {P : Fin d → Fin d → MvPolynomial (Fin b × Fin b) ℂ} {e : ℕ} (hP : ∀ i j, (P i j).IsHomogeneous e)
    (z : ℂ) (G : Matrix (Fin b) (Fin b) ℂ) : evalMat P (z • G) = z ^ e • evalMat P G := by
  ext i j
  simp only [evalMat, of_apply, Matrix.smul_apply, smul_eq_mul, MvPolynomial.eval_eq, Finset.mul_sum]
  refine Finset.sum_congr rfl fun m hm => ?_
  have hd := hP i j (MvPolynomial.mem_support_iff.1 hm)
  have hs : ∑ p ∈ m.support, m p = e := by
    rw [← hd, Finsupp.weight_apply, Finsupp.sum]
    simp
  simp only [mul_pow]
  rw [Finset.prod_mul_distrib, Finset.prod_pow_eq_pow_sum, hs]
  ring

/-- A homomorphism of the group whose elements are the matrices of the base. -/
theorem Spec.PolyOf.hom {base : Rep n h b} {r : Rep n h d} (hp : PolyOf base r e₁) {M : Type} [Monoid M]
    (φ : M →* Matrix (Fin b) (Fin b) ℂ)
    (onto : ∀ U, ∃ (c : Fin n → ℝ) (k : Fin h → ℤ), base.expMap (fun a => (c a : ℂ)) k = .ok (φ U)) :
    ∃ (P : Fin d → Fin d → MvPolynomial (Fin b × Fin b) ℂ) (ρ : M →* Matrix (Fin d) (Fin d) ℂ),
      (∀ i j, (P i j).IsHomogeneous e₁) ∧ (∀ U, ρ U = evalMat P (φ U)) ∧
      ∀ (c : Fin n → ℝ) (k : Fin h → ℤ) U, base.expMap (fun a => (c a : ℂ)) k = .ok (φ U) →
        r.expMap (fun a => (c a : ℂ)) k = .ok (ρ U) := by
  obtain ⟨P, hq, hP⟩ := hp
  have h1 : ∀ (c : Fin n → ℝ) (k : Fin h → ℤ) U, base.expMap (fun a => (c a : ℂ)) k = .ok (φ U) →
      r.expMap (fun a => (c a : ℂ)) k = .ok (evalMat P (φ U)) := by
    intro c k U hc
    have hw := hP [(c, k)] _ (.cons hc .nil)
    rw [Matrix.mul_one] at hw
    obtain ⟨g, G, hg, hG, e⟩ := WordVal.cons_inv hw
    rw [hg, e, hG.nil_inv, Matrix.mul_one]
  refine ⟨P, ⟨⟨fun U => evalMat P (φ U), ?_⟩, ?_⟩, hq, fun U => rfl, h1⟩
  · show evalMat P (φ 1) = 1
    rw [map_one]
    exact (hP [] 1 .nil).nil_inv
  · intro U V
    show evalMat P (φ (U * V)) = evalMat P (φ U) * evalMat P (φ V)
    obtain ⟨c, k, hc⟩ := onto U
    obtain ⟨c', k', hc'⟩ := onto V
    have hw := hP [(c, k), (c', k')] _ (.cons hc (.cons hc' .nil))
    rw [Matrix.mul_one, ← map_mul] at hw
    refine hw.unique ?_
    have := WordVal.cons (h1 c k U hc) (WordVal.cons (h1 c' k' V hc') .nil)
    rwa [Matrix.mul_one] at this

/-- The target of orthonormal equivariant arrays. -/
theorem Spec.PolyOf.of_cg {base : Rep n h b} {r₁ : Rep n h d₁} {r₂ : Rep n h d₂} {r₃ : Rep n h d₃} (h1 : PolyOf base r₁ e₁)
    (h2 : PolyOf base r₂ e₂) {C : Fin d₁ → Fin d₂ → Fin d₃ → ℂ} (hC : IsCG r₁ r₂ r₃ C)
    (hO : ∀ c c', ∑ i, ∑ j, C i j c * starRingEnd ℂ (C i j c') = if c = c' then 1 else 0) : PolyOf base r₃ (e₁ + e₂) := by
  set T := (cgL d₁ d₂ d₃).symm C with hT
  have e : cgOf T = C := (cgL d₁ d₂ d₃).apply_symm_apply C
  rw [← e, isCG_iff] at hC
  obtain ⟨hX, hH⟩ := (allGens_iff _).1 hC
  refine (h1.tensor h2).image (T := T) (T' := Tᴴ) ?_ hX hH
  ext c c'
  rw [mul_apply, one_apply, ← hO, ← finProdFinEquiv.sum_comp, Fintype.sum_prod_type]
  refine Finset.sum_congr rfl fun i _ => Finset.sum_congr rfl fun j _ => ?_
  rw [← e]
  rfl

/-- The target of an equivariant array that is not zero, when it is irreducible. -/
theorem Spec.PolyOf.of_irreducible {base : Rep n 0 b} {r₁ : Rep n 0 d₁} {r₂ : Rep n 0 d₂} {r₃ : Rep n 0 d₃}
    (h1 : PolyOf base r₁ e₁) (h2 : PolyOf base r₂ e₂) (hi : IrreducibleFamily r₃.X)
    {C : Fin d₁ → Fin d₂ → Fin d₃ → ℂ} (hC : IsCG r₁ r₂ r₃ C) (h0 : C ≠ 0) : PolyOf base r₃ (e₁ + e₂) := by
  set T := (cgL d₁ d₂ d₃).symm C with hT
  have e : cgOf T = C := (cgL d₁ d₂ d₃).apply_symm_apply C
  have hT0 : T ≠ 0 := by
    intro h
    rw [h] at e
    exact h0 e.symm
  rw [← e, isCG_iff] at hC
  obtain ⟨hX, hH⟩ := (allGens_iff _).1 hC
  have hr : LinearMap.range T.mulVecLin = ⊤ := by
    refine (hi.2 _ ?_).resolve_left ?_
    · rintro a _ ⟨v, rfl⟩
      refine ⟨(r₁.tensorProduct r₂).X a *ᵥ v, ?_⟩
      rw [mulVecLin_apply, mulVecLin_apply, mulVec_mulVec, mulVec_mulVec, hX]
    · rw [LinearMap.range_eq_bot]
      intro h
      apply hT0
      ext i j
      have := congrFun (LinearMap.congr_fun h (Pi.single j 1)) i
      simpa using this
  obtain ⟨g, hg⟩ := LinearMap.exists_rightInverse_of_surjective _ hr
  refine (h1.tensor h2).image (T := T) (T' := LinearMap.toMatrix' g) ?_ hX hH
  have := congrArg LinearMap.toMatrix' hg
  rw [LinearMap.toMatrix'_comp, LinearMap.toMatrix'_id] at this
  rw [← this]
  congr 1
  exact (LinearMap.toMatrix'_toLin' T).symm

end LieNN
