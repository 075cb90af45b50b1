import Verif.Proofs.Rep
/-!
# The operations on representations: commutation relations, group action, unitarity
-/
namespace LieNN

open Matrix NormedSpace Spec

variable {n h d n₁ n₂ h₁ h₂ d₁ d₂ d' : ℕ}

/-! ## Pseudo-inverses -/

theorem isPinv_left {m n : ℕ} {Q : Matrix (Fin m) (Fin n) ℂ} {P L : Matrix (Fin n) (Fin m) ℂ}
    (hP : IsPinv Q P) (hL : L * Q = 1) : P * Q = 1 := by
  have := congrArg (L * ·) hP.qpq
  rwa [Matrix.mul_assoc, ← Matrix.mul_assoc, hL, Matrix.one_mul] at this

theorem isPinv_inv {Q P : Matrix (Fin d) (Fin d) ℂ} (hP : IsPinv Q P) (hQ : IsUnit Q) :
    P = Q⁻¹ := by
  have hQ' := (isUnit_iff_isUnit_det _).1 hQ
  exact (inv_eq_left_inv (isPinv_left hP (nonsing_inv_mul _ hQ'))).symm

theorem isPinv_of_inv {Q : Matrix (Fin d) (Fin d) ℂ} (hQ : IsUnit Q) : IsPinv Q Q⁻¹ := by
  have hQ' := (isUnit_iff_isUnit_det _).1 hQ
  constructor <;> simp [mul_nonsing_inv _ hQ', nonsing_inv_mul _ hQ']

/-- The Penrose equations determine the pseudo-inverse. -/
theorem isPinv_unique {m n : ℕ} {Q : Matrix (Fin m) (Fin n) ℂ} {P P' : Matrix (Fin n) (Fin m) ℂ}
    (hP : IsPinv Q P) (hP' : IsPinv Q P') : P = P' := by
  have e1 : Q * P = Q * P' := by
    calc Q * P = (Q * P)ᴴ := hP.qp_herm.symm
      _ = (Q * P' * Q * P)ᴴ := by rw [hP'.qpq]
      _ = ((Q * P') * (Q * P))ᴴ := by rw [Matrix.mul_assoc (Q * P')]
      _ = (Q * P)ᴴ * (Q * P')ᴴ := conjTranspose_mul _ _
      _ = (Q * P) * (Q * P') := by rw [hP.qp_herm, hP'.qp_herm]
      _ = Q * P' := by rw [← Matrix.mul_assoc, hP.qpq]
  have e2 : P * Q = P' * Q := by
    calc P * Q = (P * Q)ᴴ := hP.pq_herm.symm
      _ = (P * (Q * P' * Q))ᴴ := by rw [hP'.qpq]
      _ = ((P * Q) * (P' * Q))ᴴ := by simp only [Matrix.mul_assoc]
      _ = (P' * Q)ᴴ * (P * Q)ᴴ := conjTranspose_mul _ _
      _ = (P' * Q) * (P * Q) := by rw [hP.pq_herm, hP'.pq_herm]
      _ = P' * Q := by rw [Matrix.mul_assoc, ← Matrix.mul_assoc Q, hP.qpq]
  calc P = P * Q * P := hP.pqp.symm
    _ = P' * (Q * P) := by rw [e2, Matrix.mul_assoc]
    _ = P' * Q * P' := by rw [e1, Matrix.mul_assoc]
    _ = P' := hP'.pqp

/-! ## Commutation relations -/

theorem isRep_changeBasis {r : Rep n h d} (hr : IsRep r) {Q : Matrix (Fin d') (Fin d) ℂ}
    {P : Matrix (Fin d) (Fin d') ℂ} (hPQ : P * Q = 1) : IsRep (r.changeBasis Q P) := by
  intro i j
  show Q * r.X i * P * (Q * r.X j * P) - Q * r.X j * P * (Q * r.X i * P) =
    ∑ k, r.A i j k • (Q * r.X k * P)
  have e : ∀ U V : Matrix (Fin d) (Fin d) ℂ, Q * U * P * (Q * V * P) = Q * (U * V) * P := by
    intro U V
    calc Q * U * P * (Q * V * P) = Q * U * (P * Q) * V * P := by simp only [Matrix.mul_assoc]
      _ = _ := by rw [hPQ]; simp only [Matrix.mul_one, Matrix.mul_assoc]
  rw [e, e, ← Matrix.sub_mul, ← Matrix.mul_sub, hr i j]
  simp [Matrix.mul_sum, Matrix.sum_mul]

theorem changeAlgebra_X (r : Rep n h d) (Q : Matrix (Fin n₁) (Fin n) ℂ)
    (P : Matrix (Fin n) (Fin n₁) ℂ) (i : Fin n₁) :
    (r.changeAlgebra Q P).X i = ∑ a, Q i a • r.X a := by
  ext u v
  simp [Rep.changeAlgebra, Matrix.sum_apply]

theorem isRep_changeAlgebra {r : Rep n h d} (hr : IsRep r) {Q : Matrix (Fin n₁) (Fin n) ℂ}
    {P : Matrix (Fin n) (Fin n₁) ℂ} (hPQ : P * Q = 1) : IsRep (r.changeAlgebra Q P) := by
  intro i j
  simp only [changeAlgebra_X]
  have hl : (∑ a, Q i a • r.X a) * (∑ b, Q j b • r.X b) - (∑ b, Q j b • r.X b) * (∑ a, Q i a • r.X a)
      = ∑ a, ∑ b, (Q i a * Q j b) • ∑ c, r.A a b c • r.X c := by
    rw [Finset.sum_mul_sum, Finset.sum_mul_sum, Finset.sum_comm (s := Finset.univ (α := Fin n))
      (f := fun b a => Q j b • r.X b * Q i a • r.X a), ← Finset.sum_sub_distrib]
    refine Finset.sum_congr rfl fun a _ => ?_
    rw [← Finset.sum_sub_distrib]
    refine Finset.sum_congr rfl fun b _ => ?_
    rw [← hr a b, smul_sub, smul_mul_smul_comm, smul_mul_smul_comm, mul_comm (Q j b)]
  rw [hl]
  have hPQ' : ∀ c e, ∑ k, P c k * Q k e = if c = e then 1 else 0 := by
    intro c e
    have := congrFun (congrFun hPQ c) e
    rwa [Matrix.mul_apply, Matrix.one_apply] at this
  symm
  calc ∑ k, (r.changeAlgebra Q P).A i j k • ∑ e, Q k e • r.X e
      = ∑ k, ∑ a, ∑ b, ∑ c, ∑ e, (Q i a * Q j b * r.A a b c * (P c k * Q k e)) • r.X e := by
        refine Finset.sum_congr rfl fun k _ => ?_
        show (∑ a, ∑ b, ∑ c, Q i a * Q j b * r.A a b c * P c k) • _ = _
        rw [Finset.sum_smul]
        refine Finset.sum_congr rfl fun a _ => ?_
        rw [Finset.sum_smul]
        refine Finset.sum_congr rfl fun b _ => ?_
        rw [Finset.sum_smul]
        refine Finset.sum_congr rfl fun c _ => ?_
        rw [Finset.smul_sum]
        refine Finset.sum_congr rfl fun e _ => ?_
        rw [smul_smul, mul_assoc (Q i a * Q j b * r.A a b c)]
    _ = ∑ a, ∑ b, ∑ c, ∑ e, (Q i a * Q j b * r.A a b c * ∑ k, (P c k * Q k e)) • r.X e := by
        rw [Finset.sum_comm]
        refine Finset.sum_congr rfl fun a _ => ?_
        rw [Finset.sum_comm]
        refine Finset.sum_congr rfl fun b _ => ?_
        rw [Finset.sum_comm]
        refine Finset.sum_congr rfl fun c _ => ?_
        rw [Finset.sum_comm]
        refine Finset.sum_congr rfl fun e _ => ?_
        rw [Finset.mul_sum, Finset.sum_smul]
    _ = ∑ a, ∑ b, (Q i a * Q j b) • ∑ c, r.A a b c • r.X c := by
        refine Finset.sum_congr rfl fun a _ => Finset.sum_congr rfl fun b _ => ?_
        rw [Finset.smul_sum]
        refine Finset.sum_congr rfl fun c _ => ?_
        simp only [hPQ', mul_ite, mul_one, mul_zero, ite_smul, zero_smul, Finset.sum_ite_eq,
          Finset.mem_univ, if_true, smul_smul]

theorem conjugate_X (r : Rep n h d) (a : Fin n) :
    r.conjugate.X a = (starRingEnd ℂ).mapMatrix (r.X a) := rfl

theorem conjugate_H (r : Rep n h d) (a : Fin h) :
    r.conjugate.H a = (starRingEnd ℂ).mapMatrix (r.H a) := rfl

theorem isRep_conjugate {r : Rep n h d} (hr : IsRep r)
    (hA : ∀ i j k, (r.A i j k).im = 0) : IsRep r.conjugate := by
  intro i j
  simp only [conjugate_X]
  rw [← map_mul, ← map_mul, ← map_sub, hr i j, map_sum]
  refine Finset.sum_congr rfl fun k _ => ?_
  ext u v
  simp only [RingHom.mapMatrix_apply, Matrix.map_apply, Matrix.smul_apply, smul_eq_mul, map_mul]
  congr 1
  exact Complex.conj_eq_iff_im.2 (hA i j k)

theorem isRep_directSum {r₁ : Rep n h d₁} {r₂ : Rep n h d₂} (hA : r₁.A = r₂.A) (h₁ : IsRep r₁)
    (h₂ : IsRep r₂) : IsRep (r₁.directSum r₂) := by
  intro i j
  show dsum _ _ * dsum _ _ - dsum _ _ * dsum _ _ = ∑ k, r₁.A i j k • dsum (r₁.X k) (r₂.X k)
  rw [dsum_mul, dsum_mul, ← dsum_sub, h₁ i j, h₂ i j, ← hA, dsum_sum]
  simp only [dsum_smul]

theorem isRep_tensorProduct {r₁ : Rep n h d₁} {r₂ : Rep n h d₂} (hA : r₁.A = r₂.A) (h₁ : IsRep r₁)
    (h₂ : IsRep r₂) : IsRep (r₁.tensorProduct r₂) := by
  intro i j
  show (kron (r₁.X i) 1 + kron 1 (r₂.X i)) * (kron (r₁.X j) 1 + kron 1 (r₂.X j)) -
    (kron (r₁.X j) 1 + kron 1 (r₂.X j)) * (kron (r₁.X i) 1 + kron 1 (r₂.X i)) =
    ∑ k, r₁.A i j k • (kron (r₁.X k) 1 + kron 1 (r₂.X k))
  have e1 : kron (r₁.X i * r₁.X j) 1 - kron (r₁.X j * r₁.X i) 1 =
      ∑ k, r₁.A i j k • kron (r₁.X k) (1 : Matrix (Fin d₂) (Fin d₂) ℂ) := by
    rw [← kron_sub_left, h₁ i j, kron_sum_left]
    simp only [kron_smul_left]
  have e2 : kron 1 (r₂.X i * r₂.X j) - kron 1 (r₂.X j * r₂.X i) =
      ∑ k, r₁.A i j k • kron (1 : Matrix (Fin d₁) (Fin d₁) ℂ) (r₂.X k) := by
    rw [← kron_sub_right, h₂ i j, kron_sum_right, hA]
    simp only [kron_smul_right]
  simp only [smul_add, Finset.sum_add_distrib, ← e1, ← e2]
  simp only [mul_add, add_mul, kron_mul, Matrix.mul_one, Matrix.one_mul]
  abel

theorem isRep_groupProduct {r₁ : Rep n₁ h₁ d₁} {r₂ : Rep n₂ h₂ d₂} (hr₁ : IsRep r₁)
    (hr₂ : IsRep r₂) : IsRep (r₁.groupProduct r₂) := by
  intro i j
  rw [Fin.sum_univ_add]
  refine Fin.addCases (fun i => ?_) (fun i => ?_) i <;>
    refine Fin.addCases (fun j => ?_) (fun j => ?_) j <;>
    simp only [Rep.groupProduct, Fin.addCases_left, Fin.addCases_right, zero_smul,
      Finset.sum_const_zero, add_zero, zero_add, kron_mul, Matrix.one_mul, Matrix.mul_one, sub_self]
  · rw [← kron_sub_left, hr₁ i j, kron_sum_left]
    simp only [kron_smul_left]
  · rw [← kron_sub_right, hr₂ i j, kron_sum_right]
    simp only [kron_smul_right]

/-! ## Group action -/

theorem sum_smul_changeBasis (r : Rep n h d) (Q : Matrix (Fin d') (Fin d) ℂ)
    (P : Matrix (Fin d) (Fin d') ℂ) (c : Fin n → ℂ) :
    ∑ a, c a • (r.changeBasis Q P).X a = Q * (∑ a, c a • r.X a) * P := by
  simp [Rep.changeBasis, Matrix.mul_sum, Matrix.sum_mul]

theorem zpow_intertwine {Y : Matrix (Fin d') (Fin d') ℂ} {X : Matrix (Fin d) (Fin d) ℂ}
    {Q : Matrix (Fin d') (Fin d) ℂ} (hYX : Y * Q = Q * X) (k : ℤ)
    (hY : k < 0 → IsUnit Y) (hX : k < 0 → IsUnit X) : Y ^ k * Q = Q * X ^ k := by
  have hpow : ∀ j : ℕ, Y ^ j * Q = Q * X ^ j := by
    intro j
    induction j with
    | zero => simp
    | succ j ih => rw [pow_succ, Matrix.mul_assoc, hYX, ← Matrix.mul_assoc, ih, Matrix.mul_assoc, ← pow_succ]
  rcases lt_or_ge k 0 with hk | hk
  · obtain ⟨j, hj⟩ := Int.eq_ofNat_of_zero_le (show 0 ≤ -k by omega)
    have : k = -(j : ℤ) := by omega
    subst this
    have hY' := (isUnit_iff_isUnit_det _).1 (hY hk)
    have hX' := (isUnit_iff_isUnit_det _).1 (hX hk)
    have hYj : IsUnit (Y ^ j).det := by rw [det_pow]; exact hY'.pow j
    have hXj : IsUnit (X ^ j).det := by rw [det_pow]; exact hX'.pow j
    rw [Matrix.zpow_neg hY', Matrix.zpow_neg hX', _root_.zpow_natCast, _root_.zpow_natCast]
    calc (Y ^ j)⁻¹ * Q = (Y ^ j)⁻¹ * (Q * (X ^ j * (X ^ j)⁻¹)) := by
          rw [mul_nonsing_inv _ hXj, Matrix.mul_one]
      _ = (Y ^ j)⁻¹ * (Y ^ j * Q * (X ^ j)⁻¹) := by rw [hpow j]; simp only [Matrix.mul_assoc]
      _ = Q * (X ^ j)⁻¹ := by
          simp only [Matrix.mul_assoc]
          rw [← Matrix.mul_assoc (Y ^ j)⁻¹, nonsing_inv_mul _ hYj, Matrix.one_mul]
  · obtain ⟨j, rfl⟩ := Int.eq_ofNat_of_zero_le hk
    simp [hpow]

/-- An intertwiner of the generators of two representations intertwines their group actions. -/
theorem expMap_intertwine {r : Rep n h d} {s : Rep n h d'} {Q : Matrix (Fin d') (Fin d) ℂ}
    (hX : ∀ a, s.X a * Q = Q * r.X a) (hH : ∀ a, s.H a * Q = Q * r.H a) {c : Fin n → ℂ}
    {k : Fin h → ℤ} {g : Matrix (Fin d) (Fin d) ℂ} {g' : Matrix (Fin d') (Fin d') ℂ}
    (hg : r.expMap c k = .ok g) (hg' : s.expMap c k = .ok g') : g' * Q = Q * g := by
  rw [Rep.expMap_ok_iff] at hg hg'
  obtain ⟨hu, rfl⟩ := hg
  obtain ⟨hu', rfl⟩ := hg'
  have hD : s.discreteVal k * Q = Q * r.discreteVal k := by
    unfold Rep.discreteVal
    induction List.finRange h with
    | nil => simp
    | cons i l ih =>
      simp only [List.map_cons, List.prod_cons]
      rw [Matrix.mul_assoc, ih, ← Matrix.mul_assoc, zpow_intertwine (hH i) _ (hu' i) (hu i),
        Matrix.mul_assoc]
  have hE : exp (∑ a, c a • s.X a) * Q = Q * exp (∑ a, c a • r.X a) := by
    apply exp_intertwine
    rw [Matrix.sum_mul, Matrix.mul_sum]
    refine Finset.sum_congr rfl fun a _ => ?_
    rw [Matrix.smul_mul, hX a, Matrix.mul_smul]
  rw [Matrix.mul_assoc, hE, ← Matrix.mul_assoc, hD, Matrix.mul_assoc]

theorem changeBasis_X_intertwine (r : Rep n h d) {Q : Matrix (Fin d') (Fin d) ℂ}
    {P : Matrix (Fin d) (Fin d') ℂ} (hPQ : P * Q = 1) (a : Fin n) :
    (r.changeBasis Q P).X a * Q = Q * r.X a := by
  show Q * r.X a * P * Q = _
  rw [Matrix.mul_assoc, hPQ, Matrix.mul_one]

theorem changeBasis_H_intertwine (r : Rep n h d) {Q : Matrix (Fin d') (Fin d) ℂ}
    {P : Matrix (Fin d) (Fin d') ℂ} (hPQ : P * Q = 1) (a : Fin h) :
    (r.changeBasis Q P).H a * Q = Q * r.H a := by
  show Q * r.H a * P * Q = _
  rw [Matrix.mul_assoc, hPQ, Matrix.mul_one]

theorem expMap_changeBasis {r : Rep n h d} {Q P : Matrix (Fin d) (Fin d) ℂ} (hPQ : P * Q = 1)
    {c : Fin n → ℂ} {k : Fin h → ℤ} {g : Matrix (Fin d) (Fin d) ℂ}
    (hg : r.expMap c k = .ok g) : (r.changeBasis Q P).expMap c k = .ok (Q * g * P) := by
  have hQP : Q * P = 1 := mul_eq_one_comm.1 hPQ
  have hu := ((Rep.expMap_ok_iff _ _ _ _).1 hg).1
  have hu' : ∀ i, k i < 0 → IsUnit ((r.changeBasis Q P).H i) := by
    intro i hi
    have hQu : IsUnit Q := ⟨⟨Q, P, hQP, hPQ⟩, rfl⟩
    have hPu : IsUnit P := ⟨⟨P, Q, hPQ, hQP⟩, rfl⟩
    exact (hQu.mul (hu i hi)).mul hPu
  have h2 := Rep.expMap_ok (r.changeBasis Q P) c k hu'
  have h3 := expMap_intertwine (changeBasis_X_intertwine r hPQ) (changeBasis_H_intertwine r hPQ) hg h2
  rw [h2, ← h3, Matrix.mul_assoc, hQP, Matrix.mul_one]

theorem expMap_conjugate {r : Rep n h d} {c : Fin n → ℂ} (hc : ∀ a, (c a).im = 0) {k : Fin h → ℤ}
    {g : Matrix (Fin d) (Fin d) ℂ} (hg : r.expMap c k = .ok g) :
    r.conjugate.expMap c k = .ok (g.map (starRingEnd ℂ)) := by
  rw [Rep.expMap_ok_iff] at hg ⊢
  obtain ⟨hu, rfl⟩ := hg
  constructor
  · intro i hi
    rw [conjugate_H]
    exact (hu i hi).map _
  · show (starRingEnd ℂ).mapMatrix _ = _
    rw [map_mul]
    congr 1
    · unfold Rep.discreteVal
      rw [Rep.map_list_prod' (F := fun M => (starRingEnd ℂ).mapMatrix M) (map_one _)
        (fun A B => map_mul _ _ _)]
      congr 1
      apply List.map_congr_left
      intro i _
      exact Rep.map_zpow_matrix (F := fun M => (starRingEnd ℂ).mapMatrix M) (map_one _)
        (fun A B => map_mul _ _ _) _ _ (hu i)
    · rw [RingHom.mapMatrix_apply, ← exp_map_conj]
      congr 1
      rw [← RingHom.mapMatrix_apply, map_sum]
      refine Finset.sum_congr rfl fun a _ => ?_
      rw [conjugate_X]
      ext u v
      simp only [RingHom.mapMatrix_apply, Matrix.map_apply, Matrix.smul_apply, smul_eq_mul, map_mul]
      rw [Complex.conj_eq_iff_im.2 (hc a)]

theorem expMap_directSum {r₁ : Rep n h d₁} {r₂ : Rep n h d₂} {c : Fin n → ℂ} {k : Fin h → ℤ}
    {g₁ : Matrix (Fin d₁) (Fin d₁) ℂ} {g₂ : Matrix (Fin d₂) (Fin d₂) ℂ}
    (hg₁ : r₁.expMap c k = .ok g₁) (hg₂ : r₂.expMap c k = .ok g₂) :
    (r₁.directSum r₂).expMap c k = .ok (dsum g₁ g₂) := by
  rw [Rep.expMap_ok_iff] at hg₁ hg₂ ⊢
  obtain ⟨hu₁, rfl⟩ := hg₁
  obtain ⟨hu₂, rfl⟩ := hg₂
  refine ⟨fun i hi => Rep.dsum_isUnit (hu₁ i hi) (hu₂ i hi), ?_⟩
  rw [Rep.discreteVal_directSum _ _ _ hu₁ hu₂, ← dsum_mul, ← exp_dsum, dsum_sum]
  simp only [dsum_smul, Rep.directSum]

theorem expMap_tensorProduct {r₁ : Rep n h d₁} {r₂ : Rep n h d₂} {c : Fin n → ℂ} {k : Fin h → ℤ}
    {g₁ : Matrix (Fin d₁) (Fin d₁) ℂ} {g₂ : Matrix (Fin d₂) (Fin d₂) ℂ}
    (hg₁ : r₁.expMap c k = .ok g₁) (hg₂ : r₂.expMap c k = .ok g₂) :
    (r₁.tensorProduct r₂).expMap c k = .ok (kron g₁ g₂) := by
  rw [Rep.expMap_ok_iff] at hg₁ hg₂ ⊢
  obtain ⟨hu₁, rfl⟩ := hg₁
  obtain ⟨hu₂, rfl⟩ := hg₂
  refine ⟨fun i hi => kron_isUnit (hu₁ i hi) (hu₂ i hi), ?_⟩
  rw [Rep.discreteVal_tensorProduct _ _ _ hu₁ hu₂, ← kron_mul, ← exp_kron_sum, kron_sum_left,
    kron_sum_right]
  simp only [kron_smul_left, kron_smul_right, Rep.tensorProduct, smul_add, Finset.sum_add_distrib]

theorem expMap_groupProduct {r₁ : Rep n₁ h₁ d₁} {r₂ : Rep n₂ h₂ d₂} {c₁ : Fin n₁ → ℂ}
    {c₂ : Fin n₂ → ℂ} {k₁ : Fin h₁ → ℤ} {k₂ : Fin h₂ → ℤ}
    {g₁ : Matrix (Fin d₁) (Fin d₁) ℂ} {g₂ : Matrix (Fin d₂) (Fin d₂) ℂ}
    (hg₁ : r₁.expMap c₁ k₁ = .ok g₁) (hg₂ : r₂.expMap c₂ k₂ = .ok g₂) :
    (r₁.groupProduct r₂).expMap (Fin.addCases c₁ c₂) (Fin.addCases k₁ k₂) = .ok (kron g₁ g₂) := by
  rw [Rep.expMap_ok_iff] at hg₁ hg₂ ⊢
  obtain ⟨hu₁, rfl⟩ := hg₁
  obtain ⟨hu₂, rfl⟩ := hg₂
  constructor
  · intro i
    refine Fin.addCases (fun i hi => ?_) (fun i hi => ?_) i
    · simp only [Fin.addCases_left] at hi
      simp only [Rep.groupProduct, Fin.addCases_left]
      exact kron_isUnit (hu₁ i hi) isUnit_one
    · simp only [Fin.addCases_right] at hi
      simp only [Rep.groupProduct, Fin.addCases_right]
      exact kron_isUnit isUnit_one (hu₂ i hi)
  · rw [Rep.discreteVal_groupProduct _ _ _ _ hu₁ hu₂, ← kron_mul, ← exp_kron_sum, kron_sum_left,
      kron_sum_right, Fin.sum_univ_add]
    simp only [kron_smul_left, kron_smul_right, Rep.groupProduct, Fin.addCases_left,
      Fin.addCases_right]

/-! ## Unitarity -/

theorem unitary_directSum {r₁ : Rep n h d₁} {r₂ : Rep n h d₂} (h₁ : IsUnitaryRep r₁)
    (h₂ : IsUnitaryRep r₂) : IsUnitaryRep (r₁.directSum r₂) := by
  refine ⟨fun a => ?_, fun a => ?_⟩
  · show dsum _ _ * (dsum _ _)ᴴ = 1
    rw [dsum_conjTranspose, dsum_mul, h₁.1, h₂.1, dsum_one]
  · show (dsum _ _)ᴴ = - dsum _ _
    rw [dsum_conjTranspose, h₁.2, h₂.2, dsum_neg]

theorem unitary_tensorProduct {r₁ : Rep n h d₁} {r₂ : Rep n h d₂} (h₁ : IsUnitaryRep r₁)
    (h₂ : IsUnitaryRep r₂) : IsUnitaryRep (r₁.tensorProduct r₂) := by
  refine ⟨fun a => ?_, fun a => ?_⟩
  · show kron _ _ * (kron _ _)ᴴ = 1
    rw [kron_conjTranspose, kron_mul, h₁.1, h₂.1, kron_one]
  · show (kron _ _ + kron _ _)ᴴ = - (kron _ _ + kron _ _)
    rw [conjTranspose_add, kron_conjTranspose, kron_conjTranspose, h₁.2, h₂.2, kron_neg_left,
      kron_neg_right, conjTranspose_one, conjTranspose_one, neg_add]

theorem unitary_groupProduct {r₁ : Rep n₁ h₁ d₁} {r₂ : Rep n₂ h₂ d₂} (hr₁ : IsUnitaryRep r₁)
    (hr₂ : IsUnitaryRep r₂) : IsUnitaryRep (r₁.groupProduct r₂) := by
  refine ⟨fun a => ?_, fun a => ?_⟩ <;> refine Fin.addCases (fun a => ?_) (fun a => ?_) a <;>
    simp only [Rep.groupProduct, Fin.addCases_left, Fin.addCases_right, kron_conjTranspose, kron_mul,
      conjTranspose_one, hr₁.1, hr₂.1, hr₁.2, hr₂.2, Matrix.one_mul, kron_one, kron_neg_left,
      kron_neg_right]

theorem unitary_conjugate {r : Rep n h d} (hr : IsUnitaryRep r) : IsUnitaryRep r.conjugate := by
  have hs : ∀ M : Matrix (Fin d) (Fin d) ℂ,
      ((starRingEnd ℂ).mapMatrix M)ᴴ = (starRingEnd ℂ).mapMatrix Mᴴ := by
    intro M; ext u v; simp
  refine ⟨fun a => ?_, fun a => ?_⟩
  · rw [conjugate_H, hs, ← map_mul, hr.1, map_one]
  · rw [conjugate_X, hs, hr.2, map_neg]

theorem unitary_changeBasis {r : Rep n h d} (hr : IsUnitaryRep r) {Q : Matrix (Fin d) (Fin d) ℂ}
    (hQ : Q * Qᴴ = 1) : IsUnitaryRep (r.changeBasis Q Qᴴ) := by
  have hQ' : Qᴴ * Q = 1 := mul_eq_one_comm.1 hQ
  refine ⟨fun a => ?_, fun a => ?_⟩
  · show Q * r.H a * Qᴴ * (Q * r.H a * Qᴴ)ᴴ = 1
    rw [conjTranspose_mul, conjTranspose_mul, conjTranspose_conjTranspose]
    calc Q * r.H a * Qᴴ * (Q * ((r.H a)ᴴ * Qᴴ)) = Q * (r.H a * (Qᴴ * Q) * (r.H a)ᴴ) * Qᴴ := by
          simp only [Matrix.mul_assoc]
      _ = 1 := by rw [hQ', Matrix.mul_one, hr.1, Matrix.mul_one, hQ]
  · show (Q * r.X a * Qᴴ)ᴴ = - (Q * r.X a * Qᴴ)
    rw [conjTranspose_mul, conjTranspose_mul, conjTranspose_conjTranspose, hr.2]
    simp [Matrix.mul_assoc]

theorem unitary_expMap {r : Rep n h d} (hr : IsUnitaryRep r) {c : Fin n → ℂ}
    (hc : ∀ a, (c a).im = 0) (k : Fin h → ℤ) :
    ∃ g, r.expMap c k = .ok g ∧ g * gᴴ = 1 := by
  have hHu : ∀ a, IsUnit (r.H a) := fun a =>
    ⟨⟨r.H a, (r.H a)ᴴ, hr.1 a, mul_eq_one_comm.1 (hr.1 a)⟩, rfl⟩
  refine ⟨_, Rep.expMap_ok r c k fun i _ => hHu i, ?_⟩
  have hmul : ∀ A B : Matrix (Fin d) (Fin d) ℂ, A * Aᴴ = 1 → B * Bᴴ = 1 → (A * B) * (A * B)ᴴ = 1 := by
    intro A B hA hB
    rw [conjTranspose_mul]
    calc A * B * (Bᴴ * Aᴴ) = A * (B * Bᴴ) * Aᴴ := by simp only [Matrix.mul_assoc]
      _ = 1 := by rw [hB, Matrix.mul_one, hA]
  apply hmul
  · unfold Rep.discreteVal
    induction List.finRange h with
    | nil => simp
    | cons i l ih =>
      simp only [List.map_cons, List.prod_cons]
      apply hmul _ _ _ ih
      have h0 : (r.H i)ᴴ = (r.H i)⁻¹ := (inv_eq_right_inv (hr.1 i)).symm
      have hd := (isUnit_iff_isUnit_det _).1 (hHu i)
      rw [conjTranspose_zpow, h0, Matrix.inv_zpow' hd, ← Matrix.zpow_add hd, add_neg_cancel, _root_.zpow_zero]
  · rw [← Matrix.exp_conjTranspose]
    have : (∑ a, c a • r.X a)ᴴ = - ∑ a, c a • r.X a := by
      rw [conjTranspose_sum, ← Finset.sum_neg_distrib]
      refine Finset.sum_congr rfl fun a _ => ?_
      rw [conjTranspose_smul, hr.2 a, smul_neg]
      congr 2
      exact Complex.conj_eq_iff_im.2 (hc a)
    rw [this, Matrix.exp_neg, mul_nonsing_inv]
    exact (isUnit_iff_isUnit_det _).1 (Matrix.isUnit_exp _)

theorem isUnitary_of_exact {r : Rep n h d} (hr : IsUnitaryRep r) : r.isUnitary := by
  refine ⟨fun a i j => ?_, fun a i j => ?_⟩
  · rw [hr.1]
    simp only [IsClose, sub_self, norm_zero]
    positivity
  · rw [hr.2]
    simp [IsClose]

/-! ## Trivial representation -/

theorem createTrivial_expMap (r : Rep n h d) (c : Fin n → ℂ) (k : Fin h → ℤ) :
    r.createTrivial.expMap c k = .ok 1 := by
  have hH : ∀ a, r.createTrivial.H a = 1 := by
    intro a; ext i j
    rw [Subsingleton.elim i j]; simp [Rep.createTrivial]
  have hX : ∀ a, r.createTrivial.X a = 0 := by intro a; rfl
  rw [Rep.expMap_ok_iff]
  refine ⟨fun i _ => by rw [hH]; exact isUnit_one, ?_⟩
  have : r.createTrivial.discreteVal k = 1 := by
    unfold Rep.discreteVal
    induction List.finRange h with
    | nil => simp
    | cons i l ih => simp [hH]
  rw [this]
  simp [hX]

end LieNN
