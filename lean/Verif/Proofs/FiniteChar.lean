import Verif.Proofs.DecomposeSum
import Mathlib.Algebra.Group.Conj
import Mathlib.Data.Matrix.Basis
/-!
# Characters of finite groups: the number of irreducible representations
-/
namespace LieNN.Semi

open Matrix LieNN LieNN.Spec Module

variable {n d k : ℕ} {G : Type*} [Group G] (e : Fin n ≃ G)

/-- A matrix commuting with an irreducible family is a multiple of the identity. -/
theorem commutant_scalar {X : Fin n → Matrix (Fin d) (Fin d) ℂ} (hX : IrreducibleFamily X) {S : Matrix (Fin d) (Fin d) ℂ}
    (hS : ∀ a, X a * S = S * X a) : ∃ c : ℂ, S = c • (1 : Matrix (Fin d) (Fin d) ℂ) := by
  have h1 := finrank_commutant_of_irreducible hX
  have hd := hX.1
  have h0 : (1 : Matrix (Fin d) (Fin d) ℂ) ≠ 0 := by
    intro h
    have := congrFun (congrFun h ⟨0, hd⟩) ⟨0, hd⟩
    simp at this
  have hm : (1 : Matrix (Fin d) (Fin d) ℂ) ∈ intertwiners X X := fun a => by rw [Matrix.mul_one, Matrix.one_mul]
  obtain ⟨c, hc⟩ := (finrank_eq_one_iff_of_nonzero' (⟨1, hm⟩ : intertwiners X X) (fun h => h0 (congrArg Subtype.val h))).1 h1 ⟨S, hS⟩
  exact ⟨c, (congrArg Subtype.val hc).symm⟩

/-- The average of a matrix over the group intertwines. -/
theorem average_intertwines [Fintype G] (ρ : G →* Matrix (Fin d) (Fin d) ℂ) (σ : G →* Matrix (Fin k) (Fin k) ℂ)
    (S : Matrix (Fin d) (Fin k) ℂ) (h : G) :
    ρ h * ∑ g, ρ g * S * σ g⁻¹ = (∑ g, ρ g * S * σ g⁻¹) * σ h := by
  rw [Matrix.mul_sum, Matrix.sum_mul, ← Equiv.sum_comp (Equiv.mulLeft h⁻¹)]
  refine Finset.sum_congr rfl fun g _ => ?_
  simp only [Equiv.coe_mulLeft]
  rw [← Matrix.mul_assoc, ← Matrix.mul_assoc, ← map_mul, mul_inv_cancel_left, Matrix.mul_assoc (ρ g * S), ← map_mul,
    _root_.mul_inv_rev, inv_inv]

/-- Entries of the average of a matrix unit. -/
theorem average_single [Fintype G] (ρ : G →* Matrix (Fin d) (Fin d) ℂ) (σ : G →* Matrix (Fin k) (Fin k) ℂ) (p a : Fin d) (q b : Fin k) :
    (∑ g, ρ g * Matrix.single p q (1 : ℂ) * σ g⁻¹) a b = ∑ g, ρ g a p * σ g⁻¹ q b := by
  rw [Matrix.sum_apply]
  refine Finset.sum_congr rfl fun g _ => ?_
  rw [Matrix.mul_apply, Finset.sum_eq_single q]
  · simp
  · intro j _ hj
    rw [Matrix.mul_single_apply_of_ne _ _ _ _ _ hj, zero_mul]
  · simp

variable {e}

/-- Characters of inequivalent irreducible representations are orthogonal. -/
theorem char_orthogonal [Fintype G] {ρ : G →* Matrix (Fin d) (Fin d) ℂ} {σ : G →* Matrix (Fin k) (Fin k) ℂ}
    (hρ : IrreducibleFamily fun g => ρ (e g)) (hσ : IrreducibleFamily fun g => σ (e g))
    (hne : ¬ Equivalent (fun g => ρ (e g)) fun g => σ (e g)) : ∑ g, (ρ g).trace * (σ g⁻¹).trace = 0 := by
  have h0 : ∀ p q, ∑ g, ρ g p p * σ g⁻¹ q q = 0 := by
    intro p q
    rw [← average_single]
    by_contra h
    refine hne (equivalent_of_ne_zero hρ hσ (fun a => average_intertwines ρ σ (Matrix.single p q 1) (e a)) fun h1 => h ?_)
    rw [h1]
    rfl
  simp only [Matrix.trace, Matrix.diag, Finset.sum_mul_sum]
  rw [Finset.sum_comm]
  refine Finset.sum_eq_zero fun p _ => ?_
  rw [Finset.sum_comm]
  exact Finset.sum_eq_zero fun q _ => h0 p q

/-- The norm of the character of an irreducible representation. -/
theorem char_norm [Fintype G] {ρ : G →* Matrix (Fin d) (Fin d) ℂ} (hρ : IrreducibleFamily fun g => ρ (e g)) :
    ∑ g, (ρ g).trace * (ρ g⁻¹).trace = n := by
  have hn : Fintype.card G = n := by
    have := Fintype.card_congr e
    simpa using this.symm
  have hd : (d : ℂ) ≠ 0 := by exact_mod_cast hρ.1.ne'
  have h0 : ∀ p q, ∑ g, ρ g p p * ρ g⁻¹ q q = if p = q then (n : ℂ) / d else 0 := by
    intro p q
    rw [← average_single]
    obtain ⟨c, hc⟩ := commutant_scalar hρ (fun a => average_intertwines ρ ρ (Matrix.single p q 1) (e a))
    have ht : (∑ g, ρ g * Matrix.single p q (1 : ℂ) * ρ g⁻¹).trace = if p = q then (n : ℂ) else 0 := by
      rw [Matrix.trace_sum]
      have : ∀ g, (ρ g * Matrix.single p q (1 : ℂ) * ρ g⁻¹).trace = if p = q then 1 else 0 := by
        intro g
        rw [Matrix.trace_mul_comm, ← Matrix.mul_assoc, ← map_mul, inv_mul_cancel, map_one, Matrix.one_mul]
        split_ifs with h
        · subst h; simp
        · exact Matrix.trace_single_eq_of_ne _ _ _ h
      rw [Finset.sum_congr rfl fun g _ => this g, Finset.sum_const, Finset.card_univ, hn]
      split_ifs <;> simp
    rw [hc] at ht ⊢
    rw [Matrix.trace_smul, Matrix.trace_one, Fintype.card_fin, smul_eq_mul] at ht
    rw [Matrix.smul_apply, Matrix.one_apply, smul_eq_mul]
    split_ifs at ht ⊢ with h
    · rw [mul_one, eq_div_iff hd, ht]
    · rw [mul_zero]
  simp only [Matrix.trace, Matrix.diag, Finset.sum_mul_sum]
  rw [Finset.sum_comm]
  have : ∀ p, ∑ g, ∑ q, ρ g p p * ρ g⁻¹ q q = (n : ℂ) / d := by
    intro p
    rw [Finset.sum_comm, Finset.sum_congr rfl fun q _ => h0 p q]
    simp
  rw [Finset.sum_congr rfl fun p _ => this p]
  simp
  field_simp

open Classical in
/-- The number of irreducible representations that separate the functions on the group is the number of conjugacy classes. -/
theorem card_irreps [Fintype G] {r : ℕ} (dim : Fin r → ℕ) (ρ : ∀ i, G →* Matrix (Fin (dim i)) (Fin (dim i)) ℂ)
    (hirr : ∀ i, IrreducibleFamily fun g => ρ i (e g)) (hne : ∀ i j, i ≠ j → ¬ Equivalent (fun g => ρ i (e g)) fun g => ρ j (e g))
    (hfull : ∀ f : G → ℂ, (∀ i, ∑ g, f g • ρ i g = 0) → f = 0) : r = Nat.card (ConjClasses G) := by
  have : Finite (ConjClasses G) := Finite.of_surjective ConjClasses.mk ConjClasses.mk_surjective
  have := Fintype.ofFinite (ConjClasses G)
  rw [Nat.card_eq_fintype_card]
  have hn0 : (n : ℂ) ≠ 0 := by
    have : n ≠ 0 := by
      rintro rfl
      exact (e.symm 1).elim0
    exact_mod_cast this
  let Φ : (ConjClasses G → ℂ) →ₗ[ℂ] (Fin r → ℂ) :=
    { toFun := fun f i => ∑ g, f (ConjClasses.mk g) * (ρ i g).trace
      map_add' := fun f f' => by
        funext i
        simp [add_mul, Finset.sum_add_distrib]
      map_smul' := fun c f => by
        funext i
        simp [mul_assoc, Finset.mul_sum] }
  have hinj : Function.Injective Φ := by
    rw [← LinearMap.ker_eq_bot, LinearMap.ker_eq_bot']
    intro f hf
    have h0 : (fun g => f (ConjClasses.mk g)) = 0 := by
      refine hfull _ fun i => ?_
      obtain ⟨c, hc⟩ := commutant_scalar (hirr i) (S := ∑ g, f (ConjClasses.mk g) • ρ i g) (by
        intro a
        rw [Matrix.mul_sum, Matrix.sum_mul, ← Equiv.sum_comp (MulAut.conj (e a)⁻¹).toEquiv]
        refine Finset.sum_congr rfl fun g _ => ?_
        have h1 : ConjClasses.mk ((MulAut.conj (e a)⁻¹).toEquiv g) = ConjClasses.mk g := by
          rw [ConjClasses.mk_eq_mk_iff_isConj]
          exact (isConj_iff.2 ⟨(e a)⁻¹, rfl⟩).symm
        rw [h1, Matrix.mul_smul, Matrix.smul_mul]
        congr 1
        change ρ i (e a) * ρ i ((e a)⁻¹ * g * (e a)⁻¹⁻¹) = _
        rw [← map_mul, ← map_mul]
        congr 1
        group)
      have ht : (∑ g, f (ConjClasses.mk g) • ρ i g).trace = 0 := by
        rw [Matrix.trace_sum]
        simp only [Matrix.trace_smul, smul_eq_mul]
        exact congrFun hf i
      rw [hc, Matrix.trace_smul, Matrix.trace_one, Fintype.card_fin, smul_eq_mul] at ht
      have hd : (dim i : ℂ) ≠ 0 := by exact_mod_cast (hirr i).1.ne'
      rw [hc, (mul_eq_zero.1 ht).resolve_right hd, zero_smul]
    funext c
    induction c using Quotient.inductionOn with
    | h g => exact congrFun h0 g
  have hsurj : Function.Surjective Φ := by
    have hbasis : ∀ j, ∃ f, Φ f = Pi.single j 1 := by
      intro j
      let χ : ConjClasses G → ℂ := Quotient.lift (fun g => (ρ j g⁻¹).trace) (by
        intro a b hab
        obtain ⟨c, rfl⟩ := isConj_iff.1 (show IsConj a b from hab)
        change (ρ j a⁻¹).trace = (ρ j (c * a * c⁻¹)⁻¹).trace
        rw [_root_.mul_inv_rev, _root_.mul_inv_rev, inv_inv, map_mul, map_mul, ← Matrix.mul_assoc, Matrix.trace_mul_comm,
          ← Matrix.mul_assoc, ← map_mul, inv_mul_cancel, map_one, Matrix.one_mul])
      refine ⟨(n : ℂ)⁻¹ • χ, ?_⟩
      rw [map_smul]
      funext i
      have h1 : Φ χ i = ∑ g, (ρ i g).trace * (ρ j g⁻¹).trace :=
        Finset.sum_congr rfl fun g _ => mul_comm _ _
      rw [Pi.smul_apply, h1, smul_eq_mul]
      by_cases hij : i = j
      · subst hij
        rw [char_norm (hirr i), inv_mul_cancel₀ hn0, Pi.single_eq_same]
      · rw [char_orthogonal (hirr i) (hirr j) (hne i j hij), mul_zero, Pi.single_eq_of_ne hij]
    choose F hF using hbasis
    intro v
    refine ⟨∑ j, v j • F j, ?_⟩
    rw [map_sum]
    funext i
    simp only [map_smul, hF, Finset.sum_apply, Pi.smul_apply, smul_eq_mul]
    rw [Finset.sum_eq_single i]
    · simp
    · intro j _ hj
      rw [Pi.single_eq_of_ne (Ne.symm hj), mul_zero]
    · simp
  have := (LinearEquiv.ofBijective Φ ⟨hinj, hsurj⟩).finrank_eq
  simpa using this.symm

end LieNN.Semi
