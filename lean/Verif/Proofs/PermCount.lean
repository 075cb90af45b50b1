import Verif.Proofs.TFSym
import Mathlib.LinearAlgebra.Trace
import Mathlib.GroupTheory.Perm.Cycle.Basic
import Mathlib.GroupTheory.Perm.Sign
import Mathlib.Data.Fin.Tuple.Sort

/-!
# The dimension of the space of tensors with a symmetry
-/
namespace LieNN.PermCount

open LieNN.Spec Module

variable {m : ℕ} {K : Type} [Field K] [CharZero K]

/-- `ξ ↦ ξ ∘ g`. -/
def act {δ : Fin m → ℕ} (p : Equiv.Perm (Fin m)) (hp : ∀ k, δ (p k) = δ k) (ξ : Box δ) : Box δ :=
  ⟨ξ.1 ∘ p, by
    have h := ξ.2
    simp only [Fintype.mem_piFinset, Finset.mem_range, Function.comp_apply] at h ⊢
    intro k
    rw [← hp k]
    exact h (p k)⟩

/-- The tensors with a symmetry over any field. -/
def symK (K : Type) [Field K] (G : Set (SignedPerm m)) (δ : Fin m → ℕ) : Submodule K (Box δ → K) where
  carrier := {t | ∀ g ∈ G, ∀ ξ η : Box δ, η.1 = ξ.1 ∘ g.2 → t η = ((g.1 : ℤ) : K) * t ξ}
  add_mem' := fun {a b} ha hb g hg ξ η h => by
    simp only [Pi.add_apply, ha g hg ξ η h, hb g hg ξ η h]; ring
  zero_mem' := fun g _ ξ η _ => by simp
  smul_mem' := fun c a ha g hg ξ η h => by
    simp only [Pi.smul_apply, ha g hg ξ η h, smul_eq_mul]; ring

theorem symC_eq (G : Set (SignedPerm m)) (δ : Fin m → ℕ) : symC G δ = symK ℂ G δ := rfl

theorem symTensors_eq (G : Set (SignedPerm m)) (δ : Fin m → ℕ) : symTensors G δ = symK ℝ G δ := rfl

omit [CharZero K] in
theorem trace_act {δ : Fin m → ℕ} (f : Box δ → Box δ) :
    LinearMap.trace K (Box δ → K) (LinearMap.funLeft K K f) =
      ((Finset.univ.filter fun ξ : Box δ => f ξ = ξ).card : K) := by
  rw [LinearMap.trace_eq_matrix_trace K (Pi.basisFun K (Box δ)), Matrix.trace, Finset.card_filter]
  push_cast
  refine Finset.sum_congr rfl fun ξ _ => ?_
  rw [Matrix.diag_apply, LinearMap.toMatrix_apply]
  simp only [Pi.basisFun_apply, Pi.basisFun_repr, LinearMap.funLeft_apply]
  rw [Pi.single_apply]

/-- The average of the tensors over the group. -/
noncomputable def proj (K : Type) [Field K] (G : Subgroup (SignedPerm m)) {δ : Fin m → ℕ}
    (hδ : ∀ g ∈ G, ∀ k, δ (g.2 k) = δ k) : (Box δ → K) →ₗ[K] (Box δ → K) := by
  classical
  exact ((Fintype.card G : K))⁻¹ • ∑ g : G, ((g.1.1 : ℤ) : K) • LinearMap.funLeft K K (act g.1.2 (hδ g.1 g.2))

omit [CharZero K] in
theorem proj_apply (G : Subgroup (SignedPerm m)) [Fintype G] {δ : Fin m → ℕ} (hδ : ∀ g ∈ G, ∀ k, δ (g.2 k) = δ k)
    (t : Box δ → K) (ξ : Box δ) : proj K G hδ t ξ =
      (Fintype.card G : K)⁻¹ * ∑ g : G, ((g.1.1 : ℤ) : K) * t (act g.1.2 (hδ g.1 g.2) ξ) := by
  rw [proj]
  simp only [LinearMap.smul_apply, LinearMap.sum_apply, Pi.smul_apply, Finset.sum_apply, smul_eq_mul,
    LinearMap.funLeft_apply]
  congr!

omit [CharZero K] in
theorem sign_sq (s : ℤˣ) : ((s : ℤ) : K) * ((s : ℤ) : K) = 1 := by
  rcases Int.units_eq_one_or s with rfl | rfl <;> simp

theorem proj_isProj (G : Subgroup (SignedPerm m)) {δ : Fin m → ℕ} (hδ : ∀ g ∈ G, ∀ k, δ (g.2 k) = δ k) :
    LinearMap.IsProj (symK K (G : Set (SignedPerm m)) δ) (proj K G hδ) := by
  classical
  constructor
  · intro t h hh ξ η he
    rw [proj_apply, proj_apply, mul_left_comm]
    congr 1
    rw [Finset.mul_sum]
    refine Fintype.sum_equiv (Equiv.mulLeft (⟨h, hh⟩ : G))
      (fun g : G => ((g.1.1 : ℤ) : K) * t (act g.1.2 (hδ g.1 g.2) η))
      (fun g : G => ((h.1 : ℤ) : K) * (((g.1.1 : ℤ) : K) * t (act g.1.2 (hδ g.1 g.2) ξ))) fun g => ?_
    have e1 : ((((⟨h, hh⟩ : G) * g : G).1.1 : ℤ) : K) = ((h.1 : ℤ) : K) * ((g.1.1 : ℤ) : K) := by
      simp
    have e2 : act g.1.2 (hδ g.1 g.2) η = act ((⟨h, hh⟩ : G) * g : G).1.2 (hδ _ ((⟨h, hh⟩ : G) * g : G).2) ξ := by
      apply Subtype.ext
      simp only [act, he]
      rfl
    rw [Equiv.coe_mulLeft, e1, e2, ← mul_assoc, ← mul_assoc, sign_sq, one_mul]
  · intro t ht
    funext ξ
    rw [proj_apply]
    have : ∀ g : G, ((g.1.1 : ℤ) : K) * t (act g.1.2 (hδ g.1 g.2) ξ) = t ξ := by
      intro g
      rw [ht g.1 g.2 ξ _ rfl, ← mul_assoc, sign_sq, one_mul]
    simp only [this, Finset.sum_const, Finset.card_univ, nsmul_eq_mul]
    rw [← mul_assoc, inv_mul_cancel₀ (Nat.cast_ne_zero.2 Fintype.card_ne_zero), one_mul]

/-- Burnside's count with signs. -/
theorem burnside (G : Subgroup (SignedPerm m)) [Fintype G] {δ : Fin m → ℕ}
    (hδ : ∀ g ∈ G, ∀ k, δ (g.2 k) = δ k) :
    (Fintype.card G * finrank K (symK K (G : Set (SignedPerm m)) δ) : ℤ) =
      ∑ g : G, (g.1.1 : ℤ) * ((Finset.univ.filter fun ξ : Box δ => ξ.1 ∘ g.1.2 = ξ.1).card : ℤ) := by
  classical
  have h1 := (proj_isProj (K := K) G hδ).trace
  have h2 : LinearMap.trace K (Box δ → K) (proj K G hδ) = (Fintype.card G : K)⁻¹ *
      ∑ g : G, ((g.1.1 : ℤ) : K) * ((Finset.univ.filter fun ξ : Box δ => ξ.1 ∘ g.1.2 = ξ.1).card : K) := by
    rw [proj, map_smul, map_sum, smul_eq_mul]
    congr 1
    · congr!
    · refine Finset.sum_congr (by congr!) fun g _ => ?_
      rw [map_smul, smul_eq_mul, trace_act]
      congr 3
      ext ξ
      simp only [Finset.mem_filter, Finset.mem_univ, true_and]
      exact Subtype.ext_iff
  have hc : (Fintype.card G : K) ≠ 0 := Nat.cast_ne_zero.2 Fintype.card_ne_zero
  rw [h2, inv_mul_eq_iff_eq_mul₀ hc] at h1
  have h3 : (((Fintype.card G * finrank K (symK K (G : Set (SignedPerm m)) δ) : ℤ)) : K) =
      ((∑ g : G, (g.1.1 : ℤ) * ((Finset.univ.filter fun ξ : Box δ => ξ.1 ∘ g.1.2 = ξ.1).card : ℤ) : ℤ) : K) := by
    push_cast
    exact h1.symm
  exact_mod_cast h3

/-- The multi-indices fixed by a permutation: one digit per cycle. -/
theorem card_fixed (d : ℕ) (p : Equiv.Perm (Fin m)) :
    (Finset.univ.filter fun ξ : Box (fun _ : Fin m => d) => ξ.1 ∘ p = ξ.1).card =
      d ^ Nat.card (Quotient (Equiv.Perm.SameCycle.setoid p)) := by
  classical
  rw [← Fintype.card_subtype]
  have hz : ∀ ξ : Fin m → ℕ, ξ ∘ p = ξ → ∀ i j, p.SameCycle i j → ξ i = ξ j := by
    intro ξ h i j ⟨z, hz⟩
    have h1 : ∀ k, ξ (p k) = ξ k := fun k => congrFun h k
    have h2 : ∀ k, ξ (p⁻¹ k) = ξ k := fun k => by
      have := h1 (p⁻¹ k)
      simpa using this.symm
    rw [← hz]
    have h3 : ∀ n : ℕ, ∀ k, ξ ((p ^ n) k) = ξ k := by
      intro n
      induction n with
      | zero => simp
      | succ n ih => intro k; rw [pow_succ', Equiv.Perm.mul_apply, h1, ih]
    have h4 : ∀ n : ℕ, ∀ k, ξ ((p⁻¹ ^ n) k) = ξ k := by
      intro n
      induction n with
      | zero => simp
      | succ n ih => intro k; rw [pow_succ', Equiv.Perm.mul_apply, h2, ih]
    rcases Int.eq_nat_or_neg z with ⟨n, rfl | rfl⟩
    · rw [zpow_natCast, h3]
    · rw [zpow_neg, zpow_natCast, ← inv_pow, h4]
  have hb : ∀ ξ : Box (fun _ : Fin m => d), ∀ k, ξ.1 k < d := fun ξ k => by
    simpa using Fintype.mem_piFinset.1 ξ.2 k
  let e : {ξ : Box (fun _ : Fin m => d) // ξ.1 ∘ p = ξ.1} ≃
      (Quotient (Equiv.Perm.SameCycle.setoid p) → Fin d) :=
    { toFun := fun ξ q => Quotient.lift (fun k => (⟨ξ.1.1 k, hb ξ.1 k⟩ : Fin d))
        (fun i j h => Fin.ext (hz ξ.1.1 ξ.2 i j h)) q
      invFun := fun f => ⟨⟨fun k => f ⟦k⟧, by simp⟩, by
        funext k
        show ((f ⟦p k⟧ : Fin d) : ℕ) = f ⟦k⟧
        have : (⟦p k⟧ : Quotient (Equiv.Perm.SameCycle.setoid p)) = ⟦k⟧ :=
          Quotient.sound (show p.SameCycle (p k) k from (Equiv.Perm.sameCycle_apply_left).2 (Equiv.Perm.SameCycle.refl p k))
        rw [this]⟩
      left_inv := fun ξ => rfl
      right_inv := fun f => by
        funext q
        induction q using Quotient.inductionOn with
        | h k => rfl }
  rw [Fintype.card_congr e, Fintype.card_fun, Fintype.card_fin, Nat.card_eq_fintype_card]

/-! ## Antisymmetric tensors -/

/-- All permutations with their signs. -/
def signPerms (m : ℕ) : Subgroup (SignedPerm m) where
  carrier := {g | g.1 = Equiv.Perm.sign g.2}
  mul_mem' := by
    intro a b ha hb
    simp only [Set.mem_ofPred_eq, Prod.fst_mul, Prod.snd_mul, map_mul] at *
    rw [ha, hb]
  one_mem' := by simp
  inv_mem' := by
    intro a ha
    simp only [Set.mem_ofPred_eq, Prod.fst_inv, Prod.snd_inv, map_inv] at *
    rw [ha]

theorem mem_signPerms {g : SignedPerm m} : g ∈ signPerms m ↔ g.1 = Equiv.Perm.sign g.2 := Iff.rfl

variable {d : ℕ}

/-- The increasing enumeration of a set of `m` digits. -/
def inc (s : {s : Finset (Fin d) // s.card = m}) : Box (fun _ : Fin m => d) :=
  ⟨fun k => s.1.orderEmbOfFin s.2 k, by simp⟩

theorem digits_inc (s : {s : Finset (Fin d) // s.card = m}) :
    TFront.digits (inc s) = s.1.orderEmbOfFin s.2 := rfl

theorem digits_comp {ξ η : Box (fun _ : Fin m => d)} {p : Equiv.Perm (Fin m)} (h : η.1 = ξ.1 ∘ p) :
    TFront.digits η = TFront.digits ξ ∘ p := by
  funext k
  exact Fin.ext (congrFun h k)

theorem antisym_zero {t : Box (fun _ : Fin m => d) → K}
    (ht : t ∈ symK K (signPerms m : Set (SignedPerm m)) (fun _ => d)) {ξ : Box (fun _ : Fin m => d)}
    (hξ : ¬ Function.Injective (TFront.digits ξ)) : t ξ = 0 := by
  simp only [Function.Injective] at hξ
  push Not at hξ
  obtain ⟨i, j, h, hij⟩ := hξ
  have hv : ξ.1 i = ξ.1 j := congrArg Fin.val h
  have := ht (-1, Equiv.swap i j) (by
    show (-1 : ℤˣ) = Equiv.Perm.sign (Equiv.swap i j)
    rw [Equiv.Perm.sign_swap hij]) ξ ξ (by
      funext k
      simp only [Function.comp_apply]
      rcases Equiv.swap_apply_eq_iff.1 (rfl : Equiv.swap i j k = Equiv.swap i j k) with _
      by_cases hi : k = i
      · subst hi; rw [Equiv.swap_apply_left, hv]
      · by_cases hj : k = j
        · subst hj; rw [Equiv.swap_apply_right, hv]
        · rw [Equiv.swap_apply_of_ne_of_ne hi hj])
  simp only [Units.val_neg, Units.val_one, Int.cast_neg, Int.cast_one] at this
  have h2 : (2 : K) * t ξ = 0 := by linear_combination this
  exact (mul_eq_zero.1 h2).resolve_left two_ne_zero

/-- An injective multi-index is a permutation of an increasing one. -/
theorem exists_inc {ξ : Box (fun _ : Fin m => d)} (hξ : Function.Injective (TFront.digits ξ)) :
    (inc ⟨Finset.univ.image (TFront.digits ξ), by
      rw [Finset.card_image_of_injective _ hξ, Finset.card_fin]⟩).1 = ξ.1 ∘ Tuple.sort (TFront.digits ξ) := by
  have hm : StrictMono (TFront.digits ξ ∘ Tuple.sort (TFront.digits ξ)) :=
    (Tuple.monotone_sort _).strictMono_of_injective (hξ.comp (Equiv.injective _))
  have h := Finset.orderEmbOfFin_unique (s := Finset.univ.image (TFront.digits ξ)) (k := m) (by
      rw [Finset.card_image_of_injective _ hξ, Finset.card_fin])
    (f := TFront.digits ξ ∘ Tuple.sort (TFront.digits ξ)) (fun x => by simp) hm
  funext k
  have := congrArg Fin.val (congrFun h k)
  exact this.symm

theorem finrank_antisym :
    finrank K (symK K (signPerms m : Set (SignedPerm m)) (fun _ => d)) = d.choose m := by
  classical
  let f : symK K (signPerms m : Set (SignedPerm m)) (fun _ => d) →ₗ[K]
      ({s : Finset (Fin d) // s.card = m} → K) :=
    { toFun := fun t s => t.1 (inc s)
      map_add' := fun _ _ => rfl
      map_smul' := fun _ _ => rfl }
  have hinj : Function.Injective f := by
    rw [injective_iff_map_eq_zero]
    intro t h
    apply Subtype.ext
    funext ξ
    by_cases hξ : Function.Injective (TFront.digits ξ)
    · have h1 := t.2 (Equiv.Perm.sign (Tuple.sort (TFront.digits ξ)), Tuple.sort (TFront.digits ξ)) rfl ξ _
        (exists_inc hξ)
      rw [show t.1 (inc _) = 0 from congrFun h _] at h1
      have h2 := congrArg (((Equiv.Perm.sign (Tuple.sort (TFront.digits ξ)) : ℤˣ) : ℤ) * · : K → K) h1
      simp only [mul_zero] at h2
      rw [← mul_assoc, sign_sq, one_mul] at h2
      exact h2.symm
    · exact antisym_zero t.2 hξ
  have hsurj : Function.Surjective f := by
    intro u
    refine ⟨⟨fun ξ => if hξ : Function.Injective (TFront.digits ξ) then
      ((Equiv.Perm.sign (Tuple.sort (TFront.digits ξ)) : ℤ) : K) *
        u ⟨Finset.univ.image (TFront.digits ξ), by
          rw [Finset.card_image_of_injective _ hξ, Finset.card_fin]⟩ else 0, ?_⟩, ?_⟩
    · intro g hg ξ η he
      have hd := digits_comp he
      by_cases hξ : Function.Injective (TFront.digits ξ)
      · have hη : Function.Injective (TFront.digits η) := by
          rw [hd]; exact hξ.comp (Equiv.injective _)
        simp only [hξ, hη, dif_pos]
        have hs : g.2 * Tuple.sort (TFront.digits η) = Tuple.sort (TFront.digits ξ) := by
          have h1 : Monotone (TFront.digits ξ ∘ (g.2 * Tuple.sort (TFront.digits η) : Equiv.Perm _)) := by
            have := Tuple.monotone_sort (TFront.digits η)
            rw [hd] at this ⊢
            exact this
          have h2 := Tuple.unique_monotone h1 (Tuple.monotone_sort (TFront.digits ξ))
          ext k
          exact congrArg Fin.val (hξ (congrFun h2 k))
        have hi : Finset.univ.image (TFront.digits η) = Finset.univ.image (TFront.digits ξ) := by
          rw [hd]
          ext x
          simp only [Finset.mem_image, Finset.mem_univ, true_and, Function.comp_apply]
          constructor
          · rintro ⟨a, rfl⟩; exact ⟨_, rfl⟩
          · rintro ⟨a, rfl⟩; exact ⟨g.2⁻¹ a, by simp⟩
        have hg' : g.1 = Equiv.Perm.sign g.2 := hg
        rw [← hs, map_mul, ← hg']
        simp only [hi]
        push_cast
        rw [← mul_assoc, ← mul_assoc, sign_sq, one_mul]
      · have hη : ¬ Function.Injective (TFront.digits η) := by
          intro h
          apply hξ
          have : TFront.digits ξ = TFront.digits η ∘ (g.2⁻¹ : Equiv.Perm (Fin m)) := by
            rw [hd]; funext k; simp
          rw [this]
          exact h.comp (Equiv.injective _)
        simp [hξ, hη]
    · funext s
      have hinj : Function.Injective (TFront.digits (inc s)) := by
        rw [digits_inc]; exact (s.1.orderEmbOfFin s.2).injective
      show (if hξ : Function.Injective (TFront.digits (inc s)) then _ else _) = u s
      rw [dif_pos hinj]
      have hs : Tuple.sort (TFront.digits (inc s)) = 1 := by
        apply Equiv.ext
        intro k
        have h2 := Tuple.unique_monotone (f := TFront.digits (inc s)) (σ := 1)
          (by rw [digits_inc]; exact (s.1.orderEmbOfFin s.2).monotone) (Tuple.monotone_sort (TFront.digits (inc s)))
        exact (hinj (congrFun h2 k)).symm
      rw [hs]
      simp only [Equiv.Perm.sign_one, Units.val_one, Int.cast_one, one_mul]
      congr 1
      apply Subtype.ext
      show Finset.univ.image (TFront.digits (inc s)) = s.1
      rw [digits_inc]
      exact Finset.image_orderEmbOfFin_univ s.1 s.2
  rw [LinearEquiv.finrank_eq (LinearEquiv.ofBijective f ⟨hinj, hsurj⟩), finrank_fintype_fun_eq_card,
    Fintype.card_finset_len, Fintype.card_fin]

end LieNN.PermCount
