import Verif.Proofs.Perm
import Mathlib.Algebra.Group.Pointwise.Finset.Basic

namespace LieNN.Perm
open LieNN.Spec
open scoped Pointwise

variable {n : ℕ}

theorem mapM_ok_inv {α β : Type} (f : α → Py β) : ∀ (l : List α) (r : List β),
    l.mapM f = .ok r → ∀ a ∈ l, ∃ b, f a = .ok b := by
  intro l
  induction l with
  | nil => simp
  | cons a l ih =>
    intro r h
    rw [List.mapM_cons] at h
    cases ha : f a with
    | error e => rw [ha] at h; cases h
    | ok b =>
      cases hl : l.mapM f with
      | error e => rw [ha, hl] at h; cases h
      | ok r' =>
        intro x hx
        rcases List.mem_cons.1 hx with rfl | hx
        · exact ⟨b, ha⟩
        · exact ih r' hl x hx

theorem imagePy_ok {α β : Type} [DecidableEq β] (s : Finset α) (f : α → Py β) (g : α → β)
    (h : ∀ a ∈ s, f a = .ok (g a)) : imagePy s f = .ok (s.image g) := by
  rw [imagePy, mapM_ok _ _ g (fun a ha => h a (by simpa using ha))]
  show Except.ok _ = _
  congr 1
  ext b
  simp

/-- The inverse can be formed exactly for permutation tuples. -/
theorem inverse_ok_iff (p : List ℕ) : (∃ q, inverse p = .ok q) ↔ isPerm p = true := by
  constructor
  · rintro ⟨q, h⟩
    have h1 := mapM_ok_inv _ _ _ h
    rw [isPerm_iff_perm_range]
    have h2 : ∀ i ∈ List.range p.length, i ∈ p := by
      intro i hi
      obtain ⟨b, hb⟩ := h1 i hi
      by_contra hc
      simp [index, hc] at hb
    have h3 : List.Subperm (List.range p.length) p :=
      List.subperm_of_subset List.nodup_range h2
    exact (h3.perm_of_length_le (by simp)).symm
  · intro h
    obtain ⟨σ, hσ⟩ := (isPerm_iff p).1 h
    exact ⟨tup σ⁻¹, by rw [← inverse_tup, hσ]⟩

/-- The step of `germinate`, on bijections. -/
def stepSet (S : Finset (Equiv.Perm (Fin n))) : Finset (Equiv.Perm (Fin n)) :=
  (S ∪ S.image (·⁻¹)) ∪ ((S ∪ S.image (·⁻¹)) ×ˢ (S ∪ S.image (·⁻¹))).image fun q => q.1 * q.2

theorem germinateStep_tup (S : Finset (Equiv.Perm (Fin n))) :
    germinateStep (S.image tup) = .ok ((stepSet S).image tup) := by
  have h1 : imagePy (S.image tup) inverse = .ok ((S.image (·⁻¹)).image tup) := by
    have : ∀ a ∈ S.image tup, inverse a =
        .ok (if h : ∃ σ : Equiv.Perm (Fin n), tup σ = a then tup (h.choose⁻¹) else []) := by
      intro a ha
      obtain ⟨σ, hσ, rfl⟩ := Finset.mem_image.1 ha
      have hex : ∃ τ : Equiv.Perm (Fin n), tup τ = tup σ := ⟨σ, rfl⟩
      rw [dif_pos hex, inverse_tup, tup_injective hex.choose_spec]
    rw [imagePy_ok _ _ _ this]
    congr 1
    rw [Finset.image_image, Finset.image_image]
    apply Finset.image_congr
    intro σ hσ
    have hex : ∃ τ : Equiv.Perm (Fin n), tup τ = tup σ := ⟨σ, rfl⟩
    simp only [Function.comp]
    rw [dif_pos hex, tup_injective hex.choose_spec]
  have h2 : ∀ S1 : Finset (Equiv.Perm (Fin n)),
      imagePy (S1.image tup ×ˢ S1.image tup) (fun q => compose q.1 q.2) =
      .ok (((S1 ×ˢ S1).image fun q => q.1 * q.2).image tup) := by
    intro S1
    have : ∀ a ∈ S1.image tup ×ˢ S1.image tup, compose a.1 a.2 =
        .ok (if h : ∃ q : Equiv.Perm (Fin n) × Equiv.Perm (Fin n), tup q.1 = a.1 ∧ tup q.2 = a.2
          then tup (h.choose.1 * h.choose.2) else []) := by
      rintro ⟨a, b⟩ hab
      obtain ⟨ha, hb⟩ := Finset.mem_product.1 hab
      obtain ⟨σ, hσ, rfl⟩ := Finset.mem_image.1 ha
      obtain ⟨τ, hτ, rfl⟩ := Finset.mem_image.1 hb
      have hex : ∃ q : Equiv.Perm (Fin n) × Equiv.Perm (Fin n), tup q.1 = tup σ ∧ tup q.2 = tup τ :=
        ⟨(σ, τ), rfl, rfl⟩
      rw [dif_pos hex, compose_tup, tup_injective hex.choose_spec.1,
        tup_injective hex.choose_spec.2]
    rw [imagePy_ok _ _ _ this]
    congr 1
    ext p
    simp only [Finset.mem_image, Finset.mem_product]
    constructor
    · rintro ⟨⟨_, _⟩, ⟨⟨σ, hσ, rfl⟩, ⟨τ, hτ, rfl⟩⟩, rfl⟩
      have hex : ∃ q : Equiv.Perm (Fin n) × Equiv.Perm (Fin n), tup q.1 = tup σ ∧ tup q.2 = tup τ :=
        ⟨(σ, τ), rfl, rfl⟩
      refine ⟨σ * τ, ⟨(σ, τ), ⟨hσ, hτ⟩, rfl⟩, ?_⟩
      rw [dif_pos hex, tup_injective hex.choose_spec.1, tup_injective hex.choose_spec.2]
    · rintro ⟨_, ⟨⟨σ, τ⟩, ⟨hσ, hτ⟩, rfl⟩, rfl⟩
      have hex : ∃ q : Equiv.Perm (Fin n) × Equiv.Perm (Fin n), tup q.1 = tup σ ∧ tup q.2 = tup τ :=
        ⟨(σ, τ), rfl, rfl⟩
      refine ⟨(tup σ, tup τ), ⟨⟨σ, hσ, rfl⟩, ⟨τ, hτ, rfl⟩⟩, ?_⟩
      rw [dif_pos hex, tup_injective hex.choose_spec.1, tup_injective hex.choose_spec.2]
  rw [germinateStep, h1]
  show (imagePy ((S.image tup ∪ (S.image (·⁻¹)).image tup) ×ˢ _) _ >>= _) = _
  rw [← Finset.image_union, h2]
  show Except.ok _ = _
  rw [← Finset.image_union]
  rfl

theorem subset_stepSet (S : Finset (Equiv.Perm (Fin n))) : S ⊆ stepSet S :=
  Finset.subset_union_left.trans Finset.subset_union_left

theorem stepSet_subset_closure (S : Finset (Equiv.Perm (Fin n))) :
    (stepSet S : Set (Equiv.Perm (Fin n))) ⊆ Subgroup.closure (S : Set (Equiv.Perm (Fin n))) := by
  have h1 : ∀ σ ∈ S ∪ S.image (·⁻¹), σ ∈ Subgroup.closure (S : Set (Equiv.Perm (Fin n))) := by
    intro σ hσ
    rcases Finset.mem_union.1 hσ with h | h
    · exact Subgroup.subset_closure h
    · obtain ⟨τ, hτ, rfl⟩ := Finset.mem_image.1 h
      exact inv_mem (Subgroup.subset_closure hτ)
  intro σ hσ
  rcases Finset.mem_union.1 hσ with h | h
  · exact h1 σ h
  · obtain ⟨⟨a, b⟩, hab, rfl⟩ := Finset.mem_image.1 h
    obtain ⟨ha, hb⟩ := Finset.mem_product.1 hab
    exact mul_mem (h1 a ha) (h1 b hb)

theorem closure_stepSet (S : Finset (Equiv.Perm (Fin n))) :
    Subgroup.closure (stepSet S : Set (Equiv.Perm (Fin n))) = Subgroup.closure (S : Set _) := by
  apply le_antisymm
  · rw [Subgroup.closure_le]; exact stepSet_subset_closure S
  · exact Subgroup.closure_mono (by exact_mod_cast subset_stepSet S)

theorem eq_closure_of_stepSet_eq (S : Finset (Equiv.Perm (Fin n))) (hne : S.Nonempty)
    (h : stepSet S = S) : (S : Set (Equiv.Perm (Fin n))) =
      (Subgroup.closure (S : Set (Equiv.Perm (Fin n))) : Set (Equiv.Perm (Fin n))) := by
  have hinv : ∀ σ ∈ S, σ⁻¹ ∈ S := fun σ hσ => by
    rw [← h]
    exact Finset.mem_union_left _ (Finset.mem_union_right _ (Finset.mem_image.2 ⟨σ, hσ, rfl⟩))
  have hmul : ∀ σ ∈ S, ∀ τ ∈ S, σ * τ ∈ S := fun σ hσ τ hτ => by
    rw [← h]
    refine Finset.mem_union_right _ (Finset.mem_image.2 ⟨(σ, τ), ?_, rfl⟩)
    exact Finset.mem_product.2 ⟨Finset.mem_union_left _ hσ, Finset.mem_union_left _ hτ⟩
  let H : Subgroup (Equiv.Perm (Fin n)) :=
    { carrier := S
      mul_mem' := fun {a b} ha hb => hmul a ha b hb
      one_mem' := by
        obtain ⟨σ, hσ⟩ := hne
        have := hmul σ hσ _ (hinv σ hσ)
        simpa using this
      inv_mem' := fun {a} ha => hinv a ha }
  have : Subgroup.closure (S : Set (Equiv.Perm (Fin n))) = H := Subgroup.closure_eq H
  rw [this]
  rfl

theorem germinate_spec (S : Finset (Equiv.Perm (Fin n))) (hne : S.Nonempty) :
    ∀ fuel, Fintype.card (Equiv.Perm (Fin n)) < fuel + S.card →
    ∃ R : Finset (Equiv.Perm (Fin n)), germinate fuel (S.image tup) = some (.ok (R.image tup)) ∧
      (R : Set (Equiv.Perm (Fin n))) = Subgroup.closure (S : Set (Equiv.Perm (Fin n))) := by
  intro fuel
  induction fuel generalizing S with
  | zero =>
    intro h
    have := Finset.card_le_univ S
    omega
  | succ fuel ih =>
    intro h
    have hc : ∀ T : Finset (Equiv.Perm (Fin n)), (T.image tup).card = T.card :=
      fun T => Finset.card_image_of_injective _ tup_injective
    simp only [germinate, germinateStep_tup, hc]
    by_cases hcard : (stepSet S).card = S.card
    · rw [if_pos hcard]
      have heq : stepSet S = S :=
        (Finset.eq_of_subset_of_card_le (subset_stepSet S) hcard.le).symm
      refine ⟨stepSet S, rfl, ?_⟩
      rw [heq]
      exact eq_closure_of_stepSet_eq S hne heq
    · rw [if_neg hcard]
      have hlt : S.card < (stepSet S).card :=
        lt_of_le_of_ne (Finset.card_le_card (subset_stepSet S)) (Ne.symm hcard)
      obtain ⟨R, h1, h2⟩ := ih (stepSet S) (hne.mono (subset_stepSet S)) (by omega)
      exact ⟨R, h1, by rw [h2, closure_stepSet]⟩

/-! ### is_group -/

theorem allPy_true {α : Type} (f : α → Py Bool) (l : List α) :
    allPy f l = .ok true ↔ ∀ a ∈ l, f a = .ok true := by
  induction l with
  | nil => simp [allPy]
  | cons a l ih =>
    simp only [allPy, List.mem_cons, forall_eq_or_imp]
    cases ha : f a with
    | error e => 
      constructor
      · intro h; cases h
      · intro h; cases h.1
    | ok b =>
      cases b with
      | false =>
        constructor
        · intro h; cases h
        · intro h; cases h.1
      | true =>
        rw [← ih]
        constructor
        · intro h; exact ⟨rfl, h⟩
        · intro h; exact h.2

theorem allPy_ok {α : Type} (f : α → Py Bool) (g : α → Bool) (l : List α)
    (h : ∀ a ∈ l, f a = .ok (g a)) : allPy f l = .ok (l.all g) := by
  induction l with
  | nil => rfl
  | cons a l ih =>
    have ih := ih (fun b hb => h b (by simp [hb]))
    simp only [allPy, h a (by simp), List.all_cons]
    cases hg : g a with
    | false => rfl
    | true =>
      show allPy f l = _
      rw [ih]; rfl

theorem forIn_assert (c : P → Prop) [DecidablePred c] (l : List P) :
    (forIn l PUnit.unit (fun p (_ : PUnit) => do
        pyAssert (c p); pure (ForInStep.yield PUnit.unit)) : Py PUnit) =
      if ∀ p ∈ l, c p then .ok PUnit.unit else .error .assertionError := by
  induction l with
  | nil => rfl
  | cons a l ih =>
    rw [List.forIn_cons]
    by_cases ha : c a
    · simp only [pyAssert, List.mem_cons, forall_eq_or_imp, ha, true_and]
      exact ih
    · simp only [pyAssert, List.mem_cons, forall_eq_or_imp, ha, false_and, if_false]
      rfl

theorem isGroup_unfold (g : Finset P) (p0 : P) (l : List P) (hg : g.toList = p0 :: l) :
    isGroup g =
      if ∀ p ∈ g, p.length = p0.length then
        (if identity p0.length ∈ g then
        match allPy (fun p => do let q ← inverse p; return decide (q ∈ g)) g.toList with
        | .error e => .error e
        | .ok false => .ok false
        | .ok true => allPy (fun p1 => allPy (fun p2 => do
            let q ← compose p1 p2; return decide (q ∈ g)) g.toList) g.toList
        else .ok false)
      else .error .assertionError := by
  have hmem : (∀ p ∈ g, p.length = p0.length) ↔ ∀ p ∈ p0 :: l, p.length = p0.length := by
    rw [← hg]; simp
  unfold isGroup
  rw [hg]
  simp only []
  have := forIn_assert (fun p => p.length = p0.length) (p0 :: l)
  rw [if_congr hmem rfl rfl]
  by_cases hA : ∀ p ∈ p0 :: l, p.length = p0.length
  · rw [if_pos hA] at this ⊢
    simp only [this]
    by_cases hI : identity p0.length ∈ g
    swap
    · rw [if_neg hI]
      show (if identity p0.length ∉ g then _ else _) = _
      rw [if_pos hI]; rfl
    · rw [if_pos hI]
      show (if identity p0.length ∉ g then _ else _) = _
      rw [if_neg (not_not.2 hI)]
      generalize allPy (fun p => do let q ← inverse p; return decide (q ∈ g)) (p0 :: l) = x
      cases x with
      | error e => rfl
      | ok b => cases b <;> rfl
  · rw [if_neg hA] at this ⊢
    simp only [this]
    rfl

theorem inverse_test (g : Finset P) (p : P) :
    ((do let q ← inverse p; return decide (q ∈ g)) : Py Bool) = .ok true ↔
      ∃ q ∈ g, inverse p = .ok q := by
  cases h : inverse p with
  | error e =>
    constructor
    · intro h; cases h
    · rintro ⟨q, _, h⟩; cases h
  | ok q =>
    constructor
    · intro h
      have : decide (q ∈ g) = true := Except.ok.inj h
      exact ⟨q, by simpa using this, rfl⟩
    · rintro ⟨q', hq, h⟩
      cases h
      show Except.ok _ = _
      simp [hq]

theorem compose_test (g : Finset P) (p p' : P) :
    ((do let q ← compose p p'; return decide (q ∈ g)) : Py Bool) = .ok true ↔
      ∃ q ∈ g, compose p p' = .ok q := by
  cases h : compose p p' with
  | error e =>
    constructor
    · intro h; cases h
    · rintro ⟨q, _, h⟩; cases h
  | ok q =>
    constructor
    · intro h
      have : decide (q ∈ g) = true := Except.ok.inj h
      exact ⟨q, by simpa using this, rfl⟩
    · rintro ⟨q', hq, h⟩
      cases h
      show Except.ok _ = _
      simp [hq]

theorem isGroup_true_iff (g : Finset P) : isGroup g = .ok true ↔
    ∃ (n : ℕ) (H : Subgroup (Equiv.Perm (Fin n))), (g : Set P) = tup '' (H : Set (Equiv.Perm (Fin n))) := by
  cases hg : g.toList with
  | nil =>
    have : g = ∅ := Finset.toList_eq_nil.1 hg
    subst this
    simp only [isGroup, Finset.toList_empty]
    constructor
    · intro h; cases h
    · rintro ⟨n, H, h⟩
      have : tup (1 : Equiv.Perm (Fin n)) ∈ ((∅ : Finset P) : Set P) := by
        rw [h]; exact ⟨1, H.one_mem, rfl⟩
      simp at this
  | cons p0 l =>
    have hp0 : p0 ∈ g := by rw [← Finset.mem_toList, hg]; simp
    rw [isGroup_unfold g p0 l hg]
    constructor
    · intro h
      split_ifs at h with hA hI
      swap
      · cases h
      have hInv : allPy (fun p => do let q ← inverse p; return decide (q ∈ g)) g.toList = .ok true := by
        revert h
        generalize allPy (fun p => do let q ← inverse p; return decide (q ∈ g)) g.toList = x
        intro h
        cases x with
        | error e => cases h
        | ok b => cases b with
          | false => cases h
          | true => rfl
      rw [hInv] at h
      simp only [allPy_true, Finset.mem_toList, inverse_test, compose_test] at h hInv
      refine ⟨p0.length, ⟨⟨⟨{σ | tup σ ∈ g}, ?_⟩, ?_⟩, ?_⟩, ?_⟩
      · intro a b ha hb
        obtain ⟨q, hq, h'⟩ := h _ ha _ hb
        rw [compose_tup] at h'
        cases h'
        exact hq
      · show tup 1 ∈ g
        rw [← identity_eq]
        exact hI
      · intro a ha
        obtain ⟨q, hq, h'⟩ := hInv _ ha
        rw [inverse_tup] at h'
        cases h'
        exact hq
      · ext p
        constructor
        · intro hp
          obtain ⟨q, _, hq⟩ := hInv p hp
          obtain ⟨σ, hσ⟩ := (isPerm_iff p).1 ((inverse_ok_iff p).1 ⟨q, hq⟩)
          have hl := hA p hp
          clear hq
          revert σ
          rw [hl]
          intro σ hσ
          exact ⟨σ, by show tup σ ∈ g; rw [hσ]; exact hp, hσ⟩
        · rintro ⟨σ, hσ, rfl⟩
          exact hσ
    · rintro ⟨n, H, h⟩
      have hm : ∀ p, p ∈ g ↔ ∃ σ ∈ H, tup σ = p := by
        intro p
        rw [← Finset.mem_coe, h]
        rfl
      have hlen : ∀ p ∈ g, p.length = n := by
        intro p hp
        obtain ⟨σ, _, rfl⟩ := (hm p).1 hp
        simp
      have hn : p0.length = n := hlen p0 hp0
      have hA : ∀ p ∈ g, p.length = p0.length := fun p hp => by rw [hlen p hp, hn]
      have hI : identity p0.length ∈ g := by
        rw [hn, identity_eq]
        exact (hm _).2 ⟨1, H.one_mem, rfl⟩
      rw [if_pos hA, if_pos hI]
      have hInv : allPy (fun p => do let q ← inverse p; return decide (q ∈ g)) g.toList = .ok true := by
        simp only [allPy_true, Finset.mem_toList, inverse_test]
        intro p hp
        obtain ⟨σ, hσ, rfl⟩ := (hm p).1 hp
        exact ⟨_, (hm _).2 ⟨σ⁻¹, H.inv_mem hσ, rfl⟩, inverse_tup σ⟩
      rw [hInv]
      simp only [allPy_true, Finset.mem_toList, compose_test]
      intro p hp p' hp'
      obtain ⟨σ, hσ, rfl⟩ := (hm p).1 hp
      obtain ⟨τ, hτ, rfl⟩ := (hm p').1 hp'
      exact ⟨_, (hm _).2 ⟨σ * τ, H.mul_mem hσ hτ, rfl⟩, compose_tup σ τ⟩

/-- On permutation tuples of one length `is_group` never raises. -/
theorem isGroup_no_error (S : Finset (Equiv.Perm (Fin n))) :
    ∃ b, isGroup (S.image tup) = .ok b := by
  set g := S.image tup with hgdef
  cases hg : g.toList with
  | nil => exact ⟨false, by simp [isGroup, hg]⟩
  | cons p0 l =>
    have hp0 : p0 ∈ g := by rw [← Finset.mem_toList, hg]; simp
    have hlen : ∀ p ∈ g, p.length = n := by
      intro p hp
      obtain ⟨σ, _, rfl⟩ := Finset.mem_image.1 hp
      simp
    rw [isGroup_unfold g p0 l hg]
    have hA : ∀ p ∈ g, p.length = p0.length := fun p hp => by rw [hlen p hp, hlen p0 hp0]
    rw [if_pos hA]
    split_ifs with hI
    swap
    · exact ⟨false, rfl⟩
    · obtain ⟨b, hb⟩ : ∃ b, allPy (fun p => do let q ← inverse p; return decide (q ∈ g)) g.toList
          = .ok b := by
        refine ⟨_, allPy_ok _ (fun p => match inverse p with
          | .ok q => decide (q ∈ g) | .error _ => false) _ ?_⟩
        intro p hp
        obtain ⟨σ, _, rfl⟩ := Finset.mem_image.1 (Finset.mem_toList.1 hp)
        rw [inverse_tup]; rfl
      rw [hb]
      cases b with
      | false => exact ⟨false, rfl⟩
      | true =>
        refine ⟨_, allPy_ok _ (fun p => g.toList.all fun p' => match compose p p' with
          | .ok q => decide (q ∈ g) | .error _ => false) _ ?_⟩
        intro p hp
        refine allPy_ok _ (fun p' => match compose p p' with
          | .ok q => decide (q ∈ g) | .error _ => false) _ ?_
        intro p' hp'
        obtain ⟨σ, _, rfl⟩ := Finset.mem_image.1 (Finset.mem_toList.1 hp)
        obtain ⟨τ, _, rfl⟩ := Finset.mem_image.1 (Finset.mem_toList.1 hp')
        rw [compose_tup]; rfl

end LieNN.Perm
