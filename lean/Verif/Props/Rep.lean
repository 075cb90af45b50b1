import Verif.Proofs.RepPower
import Verif.Proofs.RepExamples
/-!
# C22-C30: operations on representations
-/
namespace LieNN.Props

open Matrix NormedSpace Spec Examples

variable {n h d n₁ n₂ h₁ h₂ d₁ d₂ d' : ℕ}

/-! ## C22: `change_basis` -/

/-- C22 (algebra): if `Q` has a left inverse, the result of `change_basis` satisfies the same
commutation relations with the same structure constants.  `P` is `pinv(Q)`. -/
theorem C22_change_basis_algebra (r : Rep n h d) (hr : IsRep r) (Q : Matrix (Fin d') (Fin d) ℂ)
    (P : Matrix (Fin d) (Fin d') ℂ) (hP : IsPinv Q P) (hQ : ∃ L : Matrix (Fin d) (Fin d') ℂ, L * Q = 1) :
    IsRep (r.changeBasis Q P) ∧ (r.changeBasis Q P).A = r.A :=
  let ⟨_, hL⟩ := hQ
  ⟨isRep_changeBasis hr (isPinv_left hP hL), rfl⟩

/-- C22 (action, invertible `Q`): the group action is conjugated by `Q`. -/
theorem C22_change_basis_exp_map (r : Rep n h d) (Q P : Matrix (Fin d) (Fin d) ℂ)
    (hP : IsPinv Q P) (hQ : IsUnit Q) (c : Fin n → ℂ) (k : Fin h → ℤ)
    (g : Matrix (Fin d) (Fin d) ℂ) (hg : r.expMap c k = .ok g) :
    (r.changeBasis Q P).expMap c k = .ok (Q * g * Q⁻¹) := by
  have hQ' := (isUnit_iff_isUnit_det _).1 hQ
  rw [isPinv_inv hP hQ]
  exact expMap_changeBasis (nonsing_inv_mul _ hQ') hg

/-- C22 (action, `Q` with a left inverse): `Q` intertwines the two group actions. -/
theorem C22_change_basis_intertwines (r : Rep n h d) (Q : Matrix (Fin d') (Fin d) ℂ)
    (P : Matrix (Fin d) (Fin d') ℂ) (hP : IsPinv Q P) (hQ : ∃ L : Matrix (Fin d) (Fin d') ℂ, L * Q = 1)
    (c : Fin n → ℂ) (k : Fin h → ℤ) (g : Matrix (Fin d) (Fin d) ℂ)
    (g' : Matrix (Fin d') (Fin d') ℂ) (hg : r.expMap c k = .ok g)
    (hg' : (r.changeBasis Q P).expMap c k = .ok g') : g' * Q = Q * g :=
  let ⟨_, hL⟩ := hQ
  expMap_intertwine (changeBasis_X_intertwine r (isPinv_left hP hL))
    (changeBasis_H_intertwine r (isPinv_left hP hL)) hg hg'

/-- C22 (composition): changing by `Q₁` and then `Q₂` is changing by `Q₂ Q₁` (invertible). -/
theorem C22_change_basis_comp (r : Rep n h d) (Q₁ Q₂ P₁ P₂ P : Matrix (Fin d) (Fin d) ℂ)
    (h₁ : IsUnit Q₁) (h₂ : IsUnit Q₂) (hP₁ : IsPinv Q₁ P₁) (hP₂ : IsPinv Q₂ P₂)
    (hP : IsPinv (Q₂ * Q₁) P) :
    (r.changeBasis Q₁ P₁).changeBasis Q₂ P₂ = r.changeBasis (Q₂ * Q₁) P := by
  have e : P = P₁ * P₂ := by
    rw [isPinv_inv hP (h₂.mul h₁), isPinv_inv hP₁ h₁, isPinv_inv hP₂ h₂, Matrix.mul_inv_rev]
  subst e
  ext1
  · rfl
  · funext a; simp only [Rep.changeBasis, Matrix.mul_assoc]
  · funext a; simp only [Rep.changeBasis, Matrix.mul_assoc]

/-- C22 (round trip): changing by `Q` and then by `Q⁻¹` gives the representation back. -/
theorem C22_change_basis_inverse (r : Rep n h d) (Q P P' : Matrix (Fin d) (Fin d) ℂ)
    (hQ : IsUnit Q) (hP : IsPinv Q P) (hP' : IsPinv Q⁻¹ P') :
    (r.changeBasis Q P).changeBasis Q⁻¹ P' = r := by
  have hQ' := (isUnit_iff_isUnit_det _).1 hQ
  have hQi : IsUnit Q⁻¹ := by
    rw [isUnit_iff_isUnit_det, isUnit_nonsing_inv_det_iff]; exact hQ'
  have e1 := isPinv_inv hP hQ
  have e2 := isPinv_inv hP' hQi
  rw [nonsing_inv_nonsing_inv _ hQ'] at e2
  subst e1 e2
  have key : ∀ M : Matrix (Fin d) (Fin d) ℂ, P' ⁻¹ * (P' * M * P'⁻¹) * P' = M := by
    intro M
    calc P'⁻¹ * (P' * M * P'⁻¹) * P' = (P'⁻¹ * P') * M * (P'⁻¹ * P') := by
          simp only [Matrix.mul_assoc]
      _ = M := by rw [nonsing_inv_mul _ hQ', Matrix.one_mul, Matrix.mul_one]
  ext1
  · rfl
  · funext a; exact key _
  · funext a; exact key _

/-- Non-vacuity: spin 1/2 of `su(2)` and a non-unitary, non-diagonal invertible matrix, whose
pseudo-inverse is its inverse. -/
example : ∃ (Q P : Matrix (Fin 2) (Fin 2) ℂ), IsRep su2 ∧ IsUnit Q ∧ IsPinv Q P ∧ Q ≠ 1 := by
  have hQ : IsUnit (!![1, 2; 0, 1] : Matrix (Fin 2) (Fin 2) ℂ) := by
    rw [isUnit_iff_isUnit_det, det_fin_two]; simp
  refine ⟨_, _, su2_isRep, hQ, isPinv_of_inv hQ, ?_⟩
  intro h
  have := congrFun (congrFun h 0) 1
  simp at this

/-- Non-vacuity: a rectangular isometry `ℂ¹ → ℂ²` with its pseudo-inverse. -/
example : ∃ (Q : Matrix (Fin 2) (Fin 1) ℂ) (P : Matrix (Fin 1) (Fin 2) ℂ),
    IsPinv Q P ∧ ∃ L : Matrix (Fin 1) (Fin 2) ℂ, L * Q = 1 := by
  refine ⟨!![1; 0], !![1, 0], ?_, !![1, 0], ?_⟩
  · constructor <;> ext i j <;> fin_cases i <;> fin_cases j <;> simp
  · ext i j; fin_cases i; fin_cases j; simp

/-! ## C23: `change_algebra` -/

/-- C23: the generators `X'_i = Q_ia X_a` satisfy the returned structure constants; the discrete
generators are untouched. -/
theorem C23_change_algebra (r : Rep n h d) (hr : IsRep r) (Q : Matrix (Fin n₁) (Fin n) ℂ)
    (P : Matrix (Fin n) (Fin n₁) ℂ) (hP : IsPinv Q P) (hQ : ∃ L : Matrix (Fin n) (Fin n₁) ℂ, L * Q = 1) :
    IsRep (r.changeAlgebra Q P) ∧
      (∀ i, (r.changeAlgebra Q P).X i = ∑ a, Q i a • r.X a) ∧
      (r.changeAlgebra Q P).H = r.H :=
  let ⟨_, hL⟩ := hQ
  ⟨isRep_changeAlgebra hr (isPinv_left hP hL), fun i => changeAlgebra_X r Q P i, rfl⟩

/-- C23 (action): the group element with parameters `c` of the new representation is the one with
parameters `Qᵀ c` of the old one. -/
theorem C23_change_algebra_exp_map (r : Rep n h d) (Q : Matrix (Fin n₁) (Fin n) ℂ)
    (P : Matrix (Fin n) (Fin n₁) ℂ) (c : Fin n₁ → ℂ) (k : Fin h → ℤ) :
    (r.changeAlgebra Q P).expMap c k = r.expMap (Qᵀ *ᵥ c) k := by
  unfold Rep.expMap
  congr 3
  have e : ∀ a, (Qᵀ *ᵥ c) a = ∑ i, Q i a * c i := fun a => rfl
  simp only [changeAlgebra_X, Finset.smul_sum, smul_smul, e, Finset.sum_smul]
  rw [Finset.sum_comm]
  simp only [mul_comm]

example : ∃ (Q P : Matrix (Fin 3) (Fin 3) ℂ), IsRep su2 ∧ IsPinv Q P ∧ (∃ L, L * Q = 1) ∧ Q ≠ 1 := by
  have hQ : IsUnit ((2 : ℂ) • (1 : Matrix (Fin 3) (Fin 3) ℂ)) := by
    rw [isUnit_iff_isUnit_det, det_smul]; simp
  refine ⟨_, _, su2_isRep, isPinv_of_inv hQ, ⟨_, nonsing_inv_mul _ ((isUnit_iff_isUnit_det _).1 hQ)⟩, ?_⟩
  intro h
  have := congrFun (congrFun h 0) 0
  simp at this

/-! ## C24: `conjugate` -/

/-- C24: with real structure constants the conjugate satisfies the same relations; its group action
at real parameters is the entrywise conjugate; conjugating twice is the identity. -/
theorem C24_conjugate (r : Rep n h d) :
    (IsRep r → (∀ i j k, (r.A i j k).im = 0) → IsRep r.conjugate) ∧ r.conjugate.A = r.A ∧
    (∀ c k g, (∀ a, (c a).im = 0) → r.expMap c k = .ok g →
      r.conjugate.expMap c k = .ok (g.map (starRingEnd ℂ))) ∧
    r.conjugate.conjugate = r := by
  refine ⟨isRep_conjugate, rfl, fun c k g hc hg => expMap_conjugate hc hg, ?_⟩
  ext1
  · rfl
  · funext a; ext i j; simp [Rep.conjugate]
  · funext a; ext i j; simp [Rep.conjugate]

/-- C24 (the hypothesis is needed): with a complex structure constant the conjugate is not a
representation of the returned algebra. -/
theorem C24_conjugate_needs_real :
    ∃ r : Rep 2 0 2, IsRep r ∧ ¬ IsRep r.conjugate :=
  ⟨complexAlg, complexAlg_isRep, complexAlg_conj_not⟩

example : IsRep su2 ∧ ∀ i j k, (su2.A i j k).im = 0 := ⟨su2_isRep, su2_real⟩

/-! ## C25: `direct_sum` -/

/-- C25 (success): with the same algebra and the same number of discrete generators the direct sum
is a representation of that algebra, of the summed dimension, acting block-diagonally. -/
theorem C25_direct_sum (r₁ : Rep n h d₁) (r₂ : Rep n h d₂) (hA : r₁.A = r₂.A) :
    ∃ s : Rep n h (d₁ + d₂), GRep.directSum ⟨n, h, d₁, r₁⟩ ⟨n, h, d₂, r₂⟩ = .ok ⟨n, h, d₁ + d₂, s⟩ ∧
      s.A = r₁.A ∧ (IsRep r₁ → IsRep r₂ → IsRep s) ∧
      ∀ c k g₁ g₂, r₁.expMap c k = .ok g₁ → r₂.expMap c k = .ok g₂ →
        ∃ g, s.expMap c k = .ok g ∧
          g.submatrix finSumFinEquiv finSumFinEquiv = fromBlocks g₁ 0 0 g₂ := by
  refine ⟨r₁.directSum r₂, GRep.guarded_ok (by rw [hA]; exact allCloseA_refl _) _, rfl,
    isRep_directSum hA, ?_⟩
  intro c k g₁ g₂ hg₁ hg₂
  refine ⟨_, expMap_directSum hg₁ hg₂, ?_⟩
  rw [dsum_eq]
  ext i j; simp

/-- C25 (guards): `AssertionError` when the structure constants are not close or the numbers of
discrete generators differ. -/
theorem C25_direct_sum_guard (r₁ : Rep n h₁ d₁) (r₂ : Rep n h₂ d₂) :
    (¬ AllCloseA r₁.A r₂.A ∨ h₁ ≠ h₂) ↔
      GRep.directSum ⟨n, h₁, d₁, r₁⟩ ⟨n, h₂, d₂, r₂⟩ = .error .assertionError := by
  constructor
  · rintro (hA | hh)
    · exact GRep.guarded_not_close hA _
    · exact GRep.guarded_h_ne hh _
  · intro he
    by_contra hne
    push Not at hne
    obtain ⟨hA, rfl⟩ := hne
    rw [GRep.directSum, GRep.guarded_ok hA] at he
    cases he

example : ∃ r₁ r₂ : Rep 3 1 2, r₁.A = r₂.A ∧ IsRep r₁ ∧ IsRep r₂ ∧
    (∃ g, r₁.expMap (fun _ => 1) (fun _ => -1) = .ok g) :=
  ⟨su2, su2.conjugate, rfl, su2_isRep, isRep_conjugate su2_isRep su2_real,
    _, Rep.expMap_ok _ _ _ fun i _ =>
      ⟨⟨_, _, su2_unitary.1 i, mul_eq_one_comm.1 (su2_unitary.1 i)⟩, rfl⟩⟩

/-- Non-vacuity of the guard: structure constants `0` and `1` are not close. -/
example : ¬ AllCloseA (n := 1) (fun _ _ _ => 0) (fun _ _ _ => 1) := by
  intro h
  have := h 0 0 0
  simp only [IsClose, zero_sub, norm_neg, norm_one, mul_one] at this
  norm_num at this

/-! ## C26: `tensor_product` -/

/-- C26 (success): the tensor product is a representation of the common algebra, of dimension the
product, and acts by the Kronecker product of the group actions, for all continuous and discrete
parameters. -/
theorem C26_tensor_product (r₁ : Rep n h d₁) (r₂ : Rep n h d₂) (hA : r₁.A = r₂.A) :
    ∃ s : Rep n h (d₁ * d₂),
      GRep.tensorProduct ⟨n, h, d₁, r₁⟩ ⟨n, h, d₂, r₂⟩ = .ok ⟨n, h, d₁ * d₂, s⟩ ∧
      s.A = r₁.A ∧ (IsRep r₁ → IsRep r₂ → IsRep s) ∧
      ∀ c k g₁ g₂, r₁.expMap c k = .ok g₁ → r₂.expMap c k = .ok g₂ →
        ∃ g, s.expMap c k = .ok g ∧
          g.submatrix finProdFinEquiv finProdFinEquiv = kroneckerMap (· * ·) g₁ g₂ := by
  refine ⟨r₁.tensorProduct r₂, GRep.guarded_ok (by rw [hA]; exact allCloseA_refl _) _, rfl,
    isRep_tensorProduct hA, ?_⟩
  intro c k g₁ g₂ hg₁ hg₂
  refine ⟨_, expMap_tensorProduct hg₁ hg₂, ?_⟩
  ext ⟨i, k⟩ ⟨j, l⟩
  simp [kron_apply]

/-- C26 (guards): `AssertionError` when the structure constants are not close or the numbers of
discrete generators differ. -/
theorem C26_tensor_product_guard (r₁ : Rep n h₁ d₁) (r₂ : Rep n h₂ d₂) :
    (¬ AllCloseA r₁.A r₂.A ∨ h₁ ≠ h₂) ↔
      GRep.tensorProduct ⟨n, h₁, d₁, r₁⟩ ⟨n, h₂, d₂, r₂⟩ = .error .assertionError := by
  constructor
  · rintro (hA | hh)
    · exact GRep.guarded_not_close hA _
    · exact GRep.guarded_h_ne hh _
  · intro he
    by_contra hne
    push Not at hne
    obtain ⟨hA, rfl⟩ := hne
    rw [GRep.tensorProduct, GRep.guarded_ok hA] at he
    cases he

/-! ## C27: `tensor_power` -/

/-- C27: for every `N ≥ 0` the loop of `tensor_power` returns after finitely many iterations; the
result has dimension `d ^ N`, the same algebra, is a representation if the argument is one, and acts
by the `N`-fold Kronecker power (`kronPow`, the `1 × 1` identity for `N = 0`). -/
theorem C27_tensor_power (r : Rep n h d) (N : ℕ) :
    ∃ fuel, ∃ t : Rep n h (d ^ N),
      GRep.tensorPower fuel ⟨n, h, d, r⟩ N = some (.ok ⟨n, h, d ^ N, t⟩) ∧
      t.A = r.A ∧ (IsRep r → IsRep t) ∧
      ∀ c k g, r.expMap c k = .ok g →
        ∃ g', t.expMap c k = .ok g' ∧ (⟨d ^ N, d ^ N, g'⟩ : SMat) = kronPow ⟨d, d, g⟩ N := by
  obtain ⟨t, ht, htp⟩ := tensorPowerLoop_spec r N _ _ 1 0 N (isTensorPower_one r)
    (isTensorPower_zero r) Nat.lt_two_pow_self
  obtain ⟨e, s, rfl, he, hA, hr, -, hg⟩ := htp
  simp only [one_mul, add_zero] at he hg
  subst he
  exact ⟨N + 1, s, ht, hA, hr, hg⟩

/-- C27 (zero): the zeroth power is the trivial representation. -/
theorem C27_tensor_power_zero (r : Rep n h d) :
    GRep.tensorPower 1 ⟨n, h, d, r⟩ 0 = some (.ok (GRep.createTrivial ⟨n, h, d, r⟩)) := by
  simp [GRep.tensorPower, GRep.tensorPowerLoop]

/-- C27 (negative exponents): the loop never returns. -/
theorem C27_tensor_power_negative (r : Rep n h d) (N : ℤ) (hN : N < 0) (fuel : ℕ) :
    GRep.tensorPower fuel ⟨n, h, d, r⟩ N = none :=
  GRep.tensorPowerLoop_neg fuel _ _ hN (r := r) ⟨d, r, rfl, rfl⟩ ⟨1, r.createTrivial, rfl, rfl⟩

/-! ## C28: `group_product` -/

/-- C28: block algebra, commutation relations, commuting factors and the Kronecker product action on
concatenated parameters. -/
theorem C28_group_product (r₁ : Rep n₁ h₁ d₁) (r₂ : Rep n₂ h₂ d₂) :
    (IsRep r₁ → IsRep r₂ → IsRep (r₁.groupProduct r₂)) ∧
    (∀ i j k, (r₁.groupProduct r₂).A (Fin.castAdd n₂ i) (Fin.castAdd n₂ j) (Fin.castAdd n₂ k) =
      r₁.A i j k) ∧
    (∀ i j k, (r₁.groupProduct r₂).A (Fin.natAdd n₁ i) (Fin.natAdd n₁ j) (Fin.natAdd n₁ k) =
      r₂.A i j k) ∧
    (∀ i j k, (r₁.groupProduct r₂).A i j k ≠ 0 →
      (i.1 < n₁ ∧ j.1 < n₁ ∧ k.1 < n₁) ∨ (n₁ ≤ i.1 ∧ n₁ ≤ j.1 ∧ n₁ ≤ k.1)) ∧
    (∀ a b, Commute ((r₁.groupProduct r₂).H (Fin.castAdd h₂ a))
      ((r₁.groupProduct r₂).X (Fin.natAdd n₁ b))) ∧
    (∀ a b, Commute ((r₁.groupProduct r₂).H (Fin.natAdd h₁ a))
      ((r₁.groupProduct r₂).X (Fin.castAdd n₂ b))) ∧
    (∀ a b, Commute ((r₁.groupProduct r₂).H (Fin.castAdd h₂ a))
      ((r₁.groupProduct r₂).H (Fin.natAdd h₁ b))) ∧
    (∀ c₁ c₂ k₁ k₂ g₁ g₂, r₁.expMap c₁ k₁ = .ok g₁ → r₂.expMap c₂ k₂ = .ok g₂ →
      ∃ g, (r₁.groupProduct r₂).expMap (Fin.append c₁ c₂) (Fin.append k₁ k₂) = .ok g ∧
        g.submatrix finProdFinEquiv finProdFinEquiv = kroneckerMap (· * ·) g₁ g₂) := by
  have comm : ∀ (a : Matrix (Fin d₁) (Fin d₁) ℂ) (b : Matrix (Fin d₂) (Fin d₂) ℂ),
      Commute (kron a 1) (kron 1 b) := by
    intro a b
    show _ * _ = _ * _
    rw [kron_mul, kron_mul]; simp
  refine ⟨isRep_groupProduct, ?_, ?_, ?_, ?_, ?_, ?_, ?_⟩
  · intro i j k; simp [Rep.groupProduct]
  · intro i j k; simp [Rep.groupProduct]
  · intro i j k
    refine Fin.addCases (fun i => ?_) (fun i => ?_) i <;>
      refine Fin.addCases (fun j => ?_) (fun j => ?_) j <;>
      refine Fin.addCases (fun k => ?_) (fun k => ?_) k <;> simp [Rep.groupProduct]
  · intro a b
    simp only [Rep.groupProduct, Fin.addCases_left, Fin.addCases_right]
    exact comm _ _
  · intro a b
    simp only [Rep.groupProduct, Fin.addCases_left, Fin.addCases_right]
    exact (comm _ _).symm
  · intro a b
    simp only [Rep.groupProduct, Fin.addCases_left, Fin.addCases_right]
    exact comm _ _
  · intro c₁ c₂ k₁ k₂ g₁ g₂ hg₁ hg₂
    refine ⟨_, expMap_groupProduct hg₁ hg₂, ?_⟩
    ext ⟨i, k⟩ ⟨j, l⟩
    simp [kron_apply]

/-- C28 (tabulated): `TabulatedIrrepProduct` has the same `A`, `X`, `H`. -/
theorem C28_tabulated_product (r₁ : Rep n₁ h₁ d₁) (r₂ : Rep n₂ h₂ d₂) :
    r₁.tabulatedProduct r₂ = r₁.groupProduct r₂ := by
  ext1
  · funext i j k
    refine Fin.addCases (fun i => ?_) (fun i => ?_) i <;>
      refine Fin.addCases (fun j => ?_) (fun j => ?_) j <;>
      refine Fin.addCases (fun k => ?_) (fun k => ?_) k <;>
      simp [Rep.groupProduct, Rep.tabulatedProduct]
  · funext a
    refine Fin.addCases (fun a => ?_) (fun a => ?_) a <;>
      simp [Rep.groupProduct, Rep.tabulatedProduct]
  · funext a
    refine Fin.addCases (fun a => ?_) (fun a => ?_) a <;>
      simp [Rep.groupProduct, Rep.tabulatedProduct]

/-- Non-vacuity: two different groups, `su(2)` with one discrete generator and a one-dimensional
abelian algebra. -/
example : ∃ (r₁ : Rep 3 1 2) (r₂ : Rep 1 0 1), IsRep r₁ ∧ IsRep r₂ ∧ r₂.X 0 ≠ 0 := by
  refine ⟨su2, ⟨fun _ _ _ => 0, fun _ => 1, fun a => a.elim0⟩, su2_isRep, ?_, ?_⟩
  · intro i j; simp
  · exact one_ne_zero

/-! ## C29: unitarity -/

/-- C29: the constructions preserve exact unitarity. -/
theorem C29_unitary_constructions (r₁ : Rep n h d₁) (r₂ : Rep n h d₂) (r₃ : Rep n₂ h₂ d')
    (u₁ : IsUnitaryRep r₁) (u₂ : IsUnitaryRep r₂) (u₃ : IsUnitaryRep r₃) :
    IsUnitaryRep (r₁.directSum r₂) ∧ IsUnitaryRep (r₁.tensorProduct r₂) ∧
    IsUnitaryRep (r₁.groupProduct r₃) ∧ IsUnitaryRep r₁.conjugate ∧
    (∀ Q P : Matrix (Fin d₁) (Fin d₁) ℂ, Q * Qᴴ = 1 → IsPinv Q P → IsUnitaryRep (r₁.changeBasis Q P)) := by
  refine ⟨unitary_directSum u₁ u₂, unitary_tensorProduct u₁ u₂, unitary_groupProduct u₁ u₃,
    unitary_conjugate u₁, ?_⟩
  intro Q P hQ hP
  have hQu : IsUnit Q := ⟨⟨Q, Qᴴ, hQ, mul_eq_one_comm.1 hQ⟩, rfl⟩
  have : P = Qᴴ := by rw [isPinv_inv hP hQu]; exact inv_eq_right_inv hQ
  rw [this]
  exact unitary_changeBasis u₁ hQ

/-- C29 (`tensor_power`): every tensor power of a unitary representation is unitary. -/
theorem C29_unitary_tensor_power (r : Rep n h d) (u : IsUnitaryRep r) (N fuel : ℕ)
    (t : Rep n h d') (ht : GRep.tensorPower fuel ⟨n, h, d, r⟩ N = some (.ok ⟨n, h, d', t⟩)) :
    IsUnitaryRep t := by
  obtain ⟨s, hs, hsp⟩ := tensorPowerLoop_spec r N _ _ 1 0 N (isTensorPower_one r)
    (isTensorPower_zero r) Nat.lt_two_pow_self
  obtain ⟨e, s, rfl, -, -, -, hu, -⟩ := hsp
  have mono : ∀ (f f' : ℕ) (a b : GRep) (M : ℤ) (x y : Py GRep),
      GRep.tensorPowerLoop f a b M = some x → GRep.tensorPowerLoop f' a b M = some y → x = y := by
    intro f
    induction f with
    | zero => intro f' a b M x y hx; simp [GRep.tensorPowerLoop] at hx
    | succ f ih =>
      intro f' a b M x y hx hy
      cases f' with
      | zero => simp [GRep.tensorPowerLoop] at hy
      | succ f' =>
        rw [GRep.tensorPowerLoop] at hx hy
        revert hx hy
        generalize (if M % 2 = 1 then GRep.tensorProduct a b else .ok b) = q
        cases q with
        | error e => intro hx hy; simp at hx hy; rw [← hx, ← hy]
        | ok b' =>
          dsimp only
          split_ifs
          · intro hx hy; simp at hx hy; rw [← hx, ← hy]
          · generalize GRep.tensorProduct a a = p
            cases p with
            | error e => intro hx hy; simp at hx hy; rw [← hx, ← hy]
            | ok a' => exact ih f' a' b' (M / 2) x y
  have hEq := mono _ _ _ _ _ _ _ ht hs
  have hEq' := Except.ok.inj hEq
  simp only [GRep.mk.injEq, true_and] at hEq'
  obtain ⟨rfl, hst⟩ := hEq'
  rw [eq_of_heq hst]
  exact hu u

/-- C29 (action): a unitary representation acts by unitary matrices at real parameters, for all
integer discrete parameters. -/
theorem C29_unitary_action (r : Rep n h d) (u : IsUnitaryRep r) (c : Fin n → ℂ)
    (hc : ∀ a, (c a).im = 0) (k : Fin h → ℤ) : ∃ g, r.expMap c k = .ok g ∧ g * gᴴ = 1 :=
  unitary_expMap u hc k

/-- C29 (the test): exact unitarity implies that `is_unitary` returns `True`. -/
theorem C29_is_unitary_accepts (r : Rep n h d) (u : IsUnitaryRep r) : r.isUnitary :=
  isUnitary_of_exact u

example : IsUnitaryRep su2 := su2_unitary

/-! ## C30: `create_trivial` -/

/-- C30: same algebra, `is_trivial`, identity action, representation of the algebra. -/
theorem C30_create_trivial (r : Rep n h d) :
    r.createTrivial.A = r.A ∧ r.createTrivial.isTrivial ∧ IsRep r.createTrivial ∧
    (∀ c k, r.createTrivial.expMap c k = .ok 1) := by
  refine ⟨rfl, ⟨rfl, fun _ _ _ => rfl, fun _ _ _ => rfl⟩, ?_, createTrivial_expMap r⟩
  intro i j
  simp [createTrivial_X]

/-- C30 (tensor unit): tensoring with the trivial representation on either side leaves the generators
unchanged (same shape, same entries). -/
theorem C30_tensor_unit (r : Rep n h d) :
    ∃ (e₁ : d * 1 = d) (e₂ : 1 * d = d),
      (r.tensorProduct r.createTrivial).A = r.A ∧ (r.createTrivial.tensorProduct r).A = r.A ∧
      (∀ a i j, (r.tensorProduct r.createTrivial).X a i j = r.X a (Fin.cast e₁ i) (Fin.cast e₁ j)) ∧
      (∀ a i j, (r.tensorProduct r.createTrivial).H a i j = r.H a (Fin.cast e₁ i) (Fin.cast e₁ j)) ∧
      (∀ a i j, (r.createTrivial.tensorProduct r).X a i j = r.X a (Fin.cast e₂ i) (Fin.cast e₂ j)) ∧
      (∀ a i j, (r.createTrivial.tensorProduct r).H a i j = r.H a (Fin.cast e₂ i) (Fin.cast e₂ j)) := by
  have kr : ∀ (M : Matrix (Fin d) (Fin d) ℂ) (i j : Fin (d * 1)),
      kron M (1 : Matrix (Fin 1) (Fin 1) ℂ) i j = M (Fin.cast (by simp) i) (Fin.cast (by simp) j) := by
    intro M i j
    have : (1 : Matrix (Fin 1) (Fin 1) ℂ) i.modNat j.modNat = 1 := by
      rw [Subsingleton.elim i.modNat j.modNat]; simp
    rw [kron, this, mul_one]
    congr 1 <;> (apply Fin.ext; simp)
  have kl : ∀ (M : Matrix (Fin d) (Fin d) ℂ) (i j : Fin (1 * d)),
      kron (1 : Matrix (Fin 1) (Fin 1) ℂ) M i j = M (Fin.cast (by simp) i) (Fin.cast (by simp) j) := by
    intro M i j
    have : (1 : Matrix (Fin 1) (Fin 1) ℂ) i.divNat j.divNat = 1 := by
      rw [Subsingleton.elim i.divNat j.divNat]; simp
    rw [kron, this, one_mul]
    congr 1 <;> (apply Fin.ext; simp; exact Nat.mod_eq_of_lt (by omega))
  refine ⟨by simp, by simp, rfl, rfl, ?_, ?_, ?_, ?_⟩
  · intro a i j
    simp only [Rep.tensorProduct, createTrivial_X, kron_zero_right, add_zero]
    exact kr _ i j
  · intro a i j
    simp only [Rep.tensorProduct, createTrivial_H]
    exact kr _ i j
  · intro a i j
    simp only [Rep.tensorProduct, createTrivial_X, kron_zero_left, zero_add]
    exact kl _ i j
  · intro a i j
    simp only [Rep.tensorProduct, createTrivial_H]
    exact kl _ i j

end LieNN.Props
