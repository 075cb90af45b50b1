import Verif.Spec.Rep
import Verif.Proofs.Exp
/-!
# Lemmas about representations
-/
namespace LieNN

open Matrix NormedSpace

theorem matrixPower_ok {d : ℕ} {M : Matrix (Fin d) (Fin d) ℂ} {k : ℤ} (hk : k < 0 → IsUnit M) :
    matrixPower M k = .ok (M ^ k) := by
  unfold matrixPower
  by_cases h : 0 ≤ k
  · rw [if_pos h]
    obtain ⟨n, rfl⟩ := Int.eq_ofNat_of_zero_le h
    simp
  · rw [if_neg h, if_pos (hk (by omega))]
    obtain ⟨n, hn⟩ := Int.eq_ofNat_of_zero_le (show 0 ≤ -k by omega)
    have : k = -(n : ℤ) := by omega
    subst this
    simp [inv_pow']

theorem matrixPower_error {d : ℕ} {M : Matrix (Fin d) (Fin d) ℂ} {k : ℤ} (hk : k < 0)
    (hM : ¬ IsUnit M) : matrixPower M k = .error .valueError := by
  unfold matrixPower
  rw [if_neg (by omega), if_neg hM]

namespace Rep

variable {n h d n₁ n₂ h₁ h₂ d₁ d₂ d' : ℕ}

/-- The product of powers of the discrete generators, from the first to the last. -/
noncomputable def discreteVal (r : Rep n h d) (k : Fin h → ℤ) : Matrix (Fin d) (Fin d) ℂ :=
  ((List.finRange h).map fun i => r.H i ^ k i).prod

theorem expMap_foldr_ok (r : Rep n h d) (k : Fin h → ℤ) (E : Matrix (Fin d) (Fin d) ℂ)
    (hk : ∀ i, k i < 0 → IsUnit (r.H i)) (l : List (Fin h)) :
    l.foldr (fun i (out : Py (Matrix (Fin d) (Fin d) ℂ)) => do
      let o ← out
      let p ← matrixPower (r.H i) (k i)
      pure (p * o)) (.ok E) = .ok ((l.map fun i => r.H i ^ k i).prod * E) := by
  induction l with
  | nil => simp
  | cons i l ih =>
    rw [List.foldr_cons, ih, matrixPower_ok (hk i)]
    simp only [List.map_cons, List.prod_cons, mul_assoc]
    rfl

theorem expMap_foldr_unit (r : Rep n h d) (k : Fin h → ℤ) (E g : Matrix (Fin d) (Fin d) ℂ)
    (l : List (Fin h))
    (hg : l.foldr (fun i (out : Py (Matrix (Fin d) (Fin d) ℂ)) => do
      let o ← out
      let p ← matrixPower (r.H i) (k i)
      pure (p * o)) (.ok E) = .ok g) :
    ∀ i ∈ l, k i < 0 → IsUnit (r.H i) := by
  induction l generalizing g with
  | nil => simp
  | cons i l ih =>
    rw [List.foldr_cons] at hg
    revert hg
    generalize hq : List.foldr _ _ l = q
    intro hg
    match q with
    | .error e => exact absurd hg (by intro h; cases h)
    | .ok o =>
      intro j hj hkj
      rcases List.mem_cons.1 hj with rfl | hj
      · by_contra hne
        rw [matrixPower_error hkj hne] at hg
        cases hg
      · exact ih o hq j hj hkj

theorem expMap_ok_iff (r : Rep n h d) (c : Fin n → ℂ) (k : Fin h → ℤ)
    (g : Matrix (Fin d) (Fin d) ℂ) :
    r.expMap c k = .ok g ↔
      (∀ i, k i < 0 → IsUnit (r.H i)) ∧ g = r.discreteVal k * exp (∑ a, c a • r.X a) := by
  constructor
  · intro hg
    have hu := expMap_foldr_unit r k _ g _ hg
    have hu' : ∀ i, k i < 0 → IsUnit (r.H i) := fun i => hu i (List.mem_finRange i)
    refine ⟨hu', ?_⟩
    have := expMap_foldr_ok r k (exp (∑ a, c a • r.X a)) hu' (List.finRange h)
    unfold expMap at hg
    rw [this] at hg
    exact (Except.ok.inj hg).symm
  · rintro ⟨hu, rfl⟩
    exact expMap_foldr_ok r k _ hu _

theorem expMap_ok (r : Rep n h d) (c : Fin n → ℂ) (k : Fin h → ℤ)
    (hu : ∀ i, k i < 0 → IsUnit (r.H i)) :
    r.expMap c k = .ok (r.discreteVal k * exp (∑ a, c a • r.X a)) :=
  (expMap_ok_iff r c k _).2 ⟨hu, rfl⟩

theorem expMap_error_iff (r : Rep n h d) (c : Fin n → ℂ) (k : Fin h → ℤ) :
    (∃ e, r.expMap c k = .error e) ↔ ∃ i, k i < 0 ∧ ¬ IsUnit (r.H i) := by
  constructor
  · rintro ⟨e, he⟩
    by_contra hne
    push Not at hne
    rw [expMap_ok r c k hne] at he
    cases he
  · rintro ⟨i, hi, hu⟩
    match hq : r.expMap c k with
    | .error e => exact ⟨e, rfl⟩
    | .ok g => exact absurd (((expMap_ok_iff r c k g).1 hq).1 i hi) hu

/-- A monoid homomorphism commutes with integer powers of invertible matrices. -/
theorem map_zpow_matrix {d d' : ℕ} {F : Matrix (Fin d) (Fin d) ℂ → Matrix (Fin d') (Fin d') ℂ}
    (h1 : F 1 = 1) (hm : ∀ A B, F (A * B) = F A * F B) (M : Matrix (Fin d) (Fin d) ℂ) (k : ℤ)
    (hu : k < 0 → IsUnit M) : F (M ^ k) = F M ^ k := by
  have hp : ∀ (A : Matrix (Fin d) (Fin d) ℂ) (j : ℕ), F (A ^ j) = F A ^ j := by
    intro A j
    induction j with
    | zero => simp [h1]
    | succ j ih => rw [pow_succ, hm, ih, pow_succ]
  rcases lt_or_ge k 0 with hk | hk
  · obtain ⟨j, hj⟩ := Int.eq_ofNat_of_zero_le (show 0 ≤ -k by omega)
    have : k = -(j : ℤ) := by omega
    subst this
    have hM := (isUnit_iff_isUnit_det _).1 (hu hk)
    rw [Matrix.zpow_neg hM, _root_.zpow_natCast]
    have hFM : IsUnit (F M).det := by
      rw [← isUnit_iff_isUnit_det]
      exact ⟨⟨F M, F M⁻¹, by rw [← hm, mul_nonsing_inv _ hM, h1],
        by rw [← hm, nonsing_inv_mul _ hM, h1]⟩, rfl⟩
    rw [Matrix.zpow_neg hFM, _root_.zpow_natCast, ← hp]
    symm
    apply inv_eq_right_inv
    rw [← hm, mul_nonsing_inv, h1]
    rw [det_pow]; exact hM.pow j
  · obtain ⟨j, rfl⟩ := Int.eq_ofNat_of_zero_le hk
    simp [hp]

theorem map_list_prod' {d d' : ℕ} {F : Matrix (Fin d) (Fin d) ℂ → Matrix (Fin d') (Fin d') ℂ}
    (h1 : F 1 = 1) (hm : ∀ A B, F (A * B) = F A * F B) {ι : Type*} (l : List ι)
    (f : ι → Matrix (Fin d) (Fin d) ℂ) : F (l.map f).prod = (l.map fun i => F (f i)).prod := by
  induction l with
  | nil => simp [h1]
  | cons a l ih => simp [hm, ih]

theorem kron_zpow (A : Matrix (Fin d₁) (Fin d₁) ℂ) (B : Matrix (Fin d₂) (Fin d₂) ℂ) (k : ℤ)
    (hA : k < 0 → IsUnit A) (hB : k < 0 → IsUnit B) :
    kron (A ^ k) (B ^ k) = kron A B ^ k := by
  have h1 : kron A B = kron A 1 * kron 1 B := by rw [kron_mul]; simp
  have h2 : kron (A ^ k) (B ^ k) = kron (A ^ k) 1 * kron 1 (B ^ k) := by rw [kron_mul]; simp
  have hc : Commute (kron A (1 : Matrix (Fin d₂) (Fin d₂) ℂ)) (kron 1 B) := by
    show _ * _ = _ * _
    rw [kron_mul, kron_mul]; simp
  have e1 := map_zpow_matrix (F := fun M => kron M (1 : Matrix (Fin d₂) (Fin d₂) ℂ)) kron_one
    (fun A B => by rw [kron_mul, one_mul]) A k hA
  have e2 := map_zpow_matrix (F := fun M => kron (1 : Matrix (Fin d₁) (Fin d₁) ℂ) M) kron_one
    (fun A B => by rw [kron_mul, one_mul]) B k hB
  rw [h2, h1, e1, e2, Matrix.Commute.mul_zpow hc]

theorem dsum_pow (A : Matrix (Fin d₁) (Fin d₁) ℂ) (B : Matrix (Fin d₂) (Fin d₂) ℂ) (k : ℕ) :
    dsum (A ^ k) (B ^ k) = dsum A B ^ k := by
  induction k with
  | zero => simp [dsum_one]
  | succ k ih => rw [pow_succ, pow_succ, ← dsum_mul, ih, pow_succ]

theorem dsum_isUnit {A : Matrix (Fin d₁) (Fin d₁) ℂ} {B : Matrix (Fin d₂) (Fin d₂) ℂ}
    (hA : IsUnit A) (hB : IsUnit B) : IsUnit (dsum A B) := by
  obtain ⟨u, rfl⟩ := hA
  obtain ⟨v, rfl⟩ := hB
  exact ⟨⟨dsum u v, dsum ↑u⁻¹ ↑v⁻¹, by rw [dsum_mul]; simp [dsum_one],
    by rw [dsum_mul]; simp [dsum_one]⟩, rfl⟩

theorem dsum_zpow (A : Matrix (Fin d₁) (Fin d₁) ℂ) (B : Matrix (Fin d₂) (Fin d₂) ℂ) (k : ℤ)
    (hA : k < 0 → IsUnit A) (hB : k < 0 → IsUnit B) :
    dsum (A ^ k) (B ^ k) = dsum A B ^ k := by
  rcases lt_or_ge k 0 with hk | hk
  · obtain ⟨j, hj⟩ := Int.eq_ofNat_of_zero_le (show 0 ≤ -k by omega)
    have : k = -(j : ℤ) := by omega
    subst this
    have hA' := (isUnit_iff_isUnit_det _).1 (hA hk)
    have hB' := (isUnit_iff_isUnit_det _).1 (hB hk)
    have hAB := (isUnit_iff_isUnit_det _).1 (dsum_isUnit (hA hk) (hB hk))
    rw [Matrix.zpow_neg hA', Matrix.zpow_neg hB', Matrix.zpow_neg hAB]
    simp only [_root_.zpow_natCast]
    symm
    apply inv_eq_right_inv
    rw [← dsum_pow, dsum_mul, mul_nonsing_inv, mul_nonsing_inv, dsum_one]
    · rw [det_pow]; exact hB'.pow j
    · rw [det_pow]; exact hA'.pow j
  · obtain ⟨j, rfl⟩ := Int.eq_ofNat_of_zero_le hk
    simp [dsum_pow]

theorem discreteVal_tensorProduct (r₁ : Rep n h d₁) (r₂ : Rep n h d₂) (k : Fin h → ℤ)
    (hA : ∀ i, k i < 0 → IsUnit (r₁.H i)) (hB : ∀ i, k i < 0 → IsUnit (r₂.H i)) :
    (r₁.tensorProduct r₂).discreteVal k = kron (r₁.discreteVal k) (r₂.discreteVal k) := by
  unfold discreteVal
  induction List.finRange h with
  | nil => simp [kron_one]
  | cons i l ih =>
    simp only [List.map_cons, List.prod_cons]
    rw [ih, ← kron_mul, kron_zpow _ _ _ (hA i) (hB i)]
    rfl

theorem discreteVal_directSum (r₁ : Rep n h d₁) (r₂ : Rep n h d₂) (k : Fin h → ℤ)
    (hA : ∀ i, k i < 0 → IsUnit (r₁.H i)) (hB : ∀ i, k i < 0 → IsUnit (r₂.H i)) :
    (r₁.directSum r₂).discreteVal k = dsum (r₁.discreteVal k) (r₂.discreteVal k) := by
  unfold discreteVal
  induction List.finRange h with
  | nil => simp [dsum_one]
  | cons i l ih =>
    simp only [List.map_cons, List.prod_cons]
    rw [ih, ← dsum_mul, dsum_zpow _ _ _ (hA i) (hB i)]
    rfl

theorem finRange_add_map {α : Type*} (a b : ℕ) (f : Fin (a + b) → α) :
    (List.finRange (a + b)).map f =
      ((List.finRange a).map fun i => f (Fin.castAdd b i)) ++
      ((List.finRange b).map fun i => f (Fin.natAdd a i)) := by
  simp only [← List.ofFn_eq_map]
  rw [List.ofFn_add]
  rfl

theorem discreteVal_groupProduct (r₁ : Rep n₁ h₁ d₁) (r₂ : Rep n₂ h₂ d₂) (k₁ : Fin h₁ → ℤ)
    (k₂ : Fin h₂ → ℤ)
    (hA : ∀ i, k₁ i < 0 → IsUnit (r₁.H i)) (hB : ∀ i, k₂ i < 0 → IsUnit (r₂.H i)) :
    (r₁.groupProduct r₂).discreteVal (Fin.addCases k₁ k₂) =
      kron (r₁.discreteVal k₁) (r₂.discreteVal k₂) := by
  have hsplit : kron (r₁.discreteVal k₁) (r₂.discreteVal k₂) =
      kron (r₁.discreteVal k₁) 1 * kron 1 (r₂.discreteVal k₂) := by rw [kron_mul]; simp
  rw [hsplit]
  unfold discreteVal
  rw [finRange_add_map, List.prod_append]
  congr 1
  · rw [map_list_prod' (F := fun M => kron M (1 : Matrix (Fin d₂) (Fin d₂) ℂ)) kron_one
      (fun A B => by rw [kron_mul, one_mul])]
    congr 1
    apply List.map_congr_left
    intro i _
    rw [map_zpow_matrix (F := fun M => kron M (1 : Matrix (Fin d₂) (Fin d₂) ℂ)) kron_one
      (fun A B => by rw [kron_mul, one_mul]) _ _ (hA i)]
    simp [groupProduct]
  · rw [map_list_prod' (F := fun M => kron (1 : Matrix (Fin d₁) (Fin d₁) ℂ) M) kron_one
      (fun A B => by rw [kron_mul, one_mul])]
    congr 1
    apply List.map_congr_left
    intro i _
    rw [map_zpow_matrix (F := fun M => kron (1 : Matrix (Fin d₁) (Fin d₁) ℂ) M) kron_one
      (fun A B => by rw [kron_mul, one_mul]) _ _ (hB i)]
    simp [groupProduct]

end Rep

end LieNN
