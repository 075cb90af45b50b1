import Verif.Proofs.PermGroup
import Verif.Model.PermRepr
import Verif.Spec.PermRepr

/-! # Signed permutation groups: `germinate_perm_repr` -/
namespace LieNN.PermRepr
open LieNN.Spec LieNN.Perm

variable {n : ℕ}

theorem stup_injective : Function.Injective (stup : SignedPerm n → SP) := by
  rintro ⟨u, σ⟩ ⟨v, τ⟩ h
  simp only [stup, Prod.mk.injEq] at h
  exact Prod.ext (Units.ext h.1) (tup_injective h.2)

section generic
variable {G : Type} [Group G] [Fintype G] [DecidableEq G]

/-- The step of the loop, on group elements. -/
def gstep (S : Finset G) : Finset G :=
  (S ∪ S.image (·⁻¹)) ∪ ((S ∪ S.image (·⁻¹)) ×ˢ (S ∪ S.image (·⁻¹))).image fun q => q.1 * q.2

omit [Fintype G] in
theorem subset_gstep (S : Finset G) : S ⊆ gstep S :=
  Finset.subset_union_left.trans Finset.subset_union_left

omit [Fintype G] in
theorem gstep_subset_closure (S : Finset G) : (gstep S : Set G) ⊆ Subgroup.closure (S : Set G) := by
  have h1 : ∀ σ ∈ S ∪ S.image (·⁻¹), σ ∈ Subgroup.closure (S : Set G) := by
    intro σ hσ
    rcases Finset.mem_union.1 hσ with h | h
    · exact Subgroup.subset_closure h
    · obtain ⟨τ, hτ, rfl⟩ := Finset.mem_image.1 h
      exact inv_mem (Subgroup.subset_closure hτ)
  intro σ hσ
  rcases Finset.mem_union.1 hσ with h | h
  · exact h1 σ h
  · obtain ⟨⟨a, b⟩, hab, rfl⟩ := Finset.mem_image.1 h
    obtain ⟨ha, hb⟩ := Finset.mem_product.1 hab
    exact mul_mem (h1 a ha) (h1 b hb)

omit [Fintype G] in
theorem closure_gstep (S : Finset G) :
    Subgroup.closure (gstep S : Set G) = Subgroup.closure (S : Set _) := by
  apply le_antisymm
  · rw [Subgroup.closure_le]; exact gstep_subset_closure S
  · exact Subgroup.closure_mono (by exact_mod_cast subset_gstep S)

omit [Fintype G] in
theorem eq_closure_of_gstep_eq (S : Finset G) (hne : S.Nonempty) (h : gstep S = S) :
    (S : Set G) = (Subgroup.closure (S : Set G) : Set G) := by
  have hinv : ∀ σ ∈ S, σ⁻¹ ∈ S := fun σ hσ => by
    rw [← h]
    exact Finset.mem_union_left _ (Finset.mem_union_right _ (Finset.mem_image.2 ⟨σ, hσ, rfl⟩))
  have hmul : ∀ σ ∈ S, ∀ τ ∈ S, σ * τ ∈ S := fun σ hσ τ hτ => by
    rw [← h]
    refine Finset.mem_union_right _ (Finset.mem_image.2 ⟨(σ, τ), ?_, rfl⟩)
    exact Finset.mem_product.2 ⟨Finset.mem_union_left _ hσ, Finset.mem_union_left _ hτ⟩
  let H : Subgroup G :=
    { carrier := S
      mul_mem' := fun {a b} ha hb => hmul a ha b hb
      one_mem' := by
        obtain ⟨σ, hσ⟩ := hne
        have := hmul σ hσ _ (hinv σ hσ)
        simpa using this
      inv_mem' := fun {a} ha => hinv a ha }
  have : Subgroup.closure (S : Set G) = H := Subgroup.closure_eq H
  rw [this]
  rfl

end generic

theorem imagePy_image {α β γ : Type} [DecidableEq β] [DecidableEq γ] (S : Finset α) (e : α → γ)
    (f : γ → Py β) (g : α → β) (h : ∀ a ∈ S, f (e a) = .ok (g a)) :
    imagePy (S.image e) f = .ok (S.image g) := by
  rcases S.eq_empty_or_nonempty with rfl | ⟨a0, _⟩
  · simp [imagePy]; rfl
  · have h2 : ∀ c ∈ S.image e, f c = .ok (match f c with | .ok b => b | .error _ => g a0) := by
      intro c hc
      obtain ⟨a, ha, rfl⟩ := Finset.mem_image.1 hc
      rw [h a ha]
    rw [imagePy_ok _ _ _ h2, Finset.image_image]
    congr 1
    apply Finset.image_congr
    intro a ha
    simp only [Function.comp, h a ha]

theorem step_stup (S : Finset (SignedPerm n)) :
    step (S.image stup) = .ok ((gstep S).image stup) := by
  have hu : ∀ u : ℤˣ, ((u⁻¹ : ℤˣ) : ℤ) = u := fun u => by
    rcases Int.units_eq_one_or u with rfl | rfl <;> rfl
  have h1 : imagePy (S.image stup) (fun x : SP => do return (x.1, ← inverse x.2)) =
      .ok ((S.image (·⁻¹)).image stup) := by
    rw [imagePy_image S stup _ (fun g => stup g⁻¹)]
    · rw [Finset.image_image]; rfl
    · rintro ⟨u, σ⟩ _
      simp only [stup, inverse_tup, Prod.inv_mk, hu]
      rfl
  have h2 : ∀ S1 : Finset (SignedPerm n),
      imagePy (S1.image stup ×ˢ S1.image stup)
        (fun q : SP × SP => do return (q.1.1 * q.2.1, ← compose q.1.2 q.2.2)) =
      .ok (((S1 ×ˢ S1).image fun q => q.1 * q.2).image stup) := by
    intro S1
    have : S1.image stup ×ˢ S1.image stup =
        (S1 ×ˢ S1).image fun q => (stup q.1, stup q.2) := by
      ext ⟨a, b⟩
      simp only [Finset.mem_product, Finset.mem_image, Prod.mk.injEq, Prod.exists]
      constructor
      · rintro ⟨⟨u, σ, h, rfl⟩, ⟨v, τ, h', rfl⟩⟩
        exact ⟨_, _, _, _, ⟨h, h'⟩, rfl, rfl⟩
      · rintro ⟨u, σ, v, τ, ⟨h, h'⟩, rfl, rfl⟩
        exact ⟨⟨_, _, h, rfl⟩, ⟨_, _, h', rfl⟩⟩
    rw [this, imagePy_image _ _ _ (fun q => stup (q.1 * q.2))]
    · rw [Finset.image_image]; rfl
    · rintro ⟨⟨u, σ⟩, ⟨v, τ⟩⟩ _
      simp only [stup, compose_tup, Prod.mk_mul_mk, Units.val_mul]
      rfl
  rw [step, h1]
  show (imagePy ((S.image stup ∪ (S.image (·⁻¹)).image stup) ×ˢ _) _ >>= _) = _
  rw [← Finset.image_union, h2]
  show Except.ok _ = _
  rw [← Finset.image_union]
  rfl

theorem loop_spec (S : Finset (SignedPerm n)) (hne : S.Nonempty) :
    ∀ fuel, Fintype.card (SignedPerm n) < fuel + S.card →
    ∃ R : Finset (SignedPerm n), loop fuel (S.image stup) = some (.ok (R.image stup)) ∧
      (R : Set (SignedPerm n)) = Subgroup.closure (S : Set (SignedPerm n)) := by
  intro fuel
  induction fuel generalizing S with
  | zero =>
    intro h
    have := Finset.card_le_univ S
    omega
  | succ fuel ih =>
    intro h
    have hc : ∀ T : Finset (SignedPerm n), (T.image stup).card = T.card :=
      fun T => Finset.card_image_of_injective _ stup_injective
    simp only [loop, step_stup, hc]
    by_cases hcard : (gstep S).card = S.card
    · rw [if_pos hcard]
      have heq : gstep S = S :=
        (Finset.eq_of_subset_of_card_le (subset_gstep S) hcard.le).symm
      refine ⟨gstep S, rfl, ?_⟩
      rw [heq]
      exact eq_closure_of_gstep_eq S hne heq
    · rw [if_neg hcard]
      have hlt : S.card < (gstep S).card :=
        lt_of_le_of_ne (Finset.card_le_card (subset_gstep S)) (Ne.symm hcard)
      obtain ⟨R, h1, h2⟩ := ih (gstep S) (hne.mono (subset_gstep S)) (by omega)
      exact ⟨R, h1, by rw [h2, closure_gstep]⟩

/-! ### The formula -/

theorem ok_bind1 {α β : Type} (a : α) (f : α → Py β) : ((.ok a : Py α) >>= f) = f a := rfl


/-- The words of the terms are arrangements of the letters of `f0` without repetition. -/
def WordsOk (f0 : List Char) (ts : List (List Char)) : Prop :=
  ∀ t ∈ ts, (termWord t).Nodup ∧ ∀ c, c ∈ termWord t ↔ c ∈ f0

theorem checkTerm_ok {f0 f : List Char} (h0 : f0.Nodup) (h1 : f.Nodup) (h2 : ∀ c, c ∈ f ↔ c ∈ f0) :
    checkTerm f0 f = .ok () := by
  have h3 : f.toFinset = f0.toFinset := by ext c; simp [h2]
  have h4 : f.length = f0.length := by
    rw [← List.toFinset_card_of_nodup h1, ← List.toFinset_card_of_nodup h0, h3]
  simp [checkTerm, h3, h4, List.toFinset_card_of_nodup h0]

theorem checkTerm_error {f0 f : List Char} (h : ¬ (f.Nodup ∧ ∀ c, c ∈ f ↔ c ∈ f0)) :
    checkTerm f0 f = .error .runtimeError := by
  rw [checkTerm, if_pos]
  by_contra hc
  push Not at hc
  refine h ⟨?_, fun c => ?_⟩
  · have := hc.1
    rw [List.card_toFinset] at this
    have h5 := List.Sublist.eq_of_length (List.dedup_sublist f) this
    rw [← h5]; exact List.nodup_dedup f
  · have := congrArg (c ∈ ·) hc.2
    simpa using this

theorem forIn_check (f0 : List Char) (l : List (ℤ × List Char)) :
    (forIn l PUnit.unit fun t _ => do checkTerm f0 t.2; pure (ForInStep.yield PUnit.unit) : Py PUnit) =
      if ∀ t ∈ l, checkTerm f0 t.2 = .ok () then .ok PUnit.unit else .error .runtimeError := by
  induction l with
  | nil => simp; rfl
  | cons t l ih =>
    rw [List.forIn_cons]
    by_cases ht : checkTerm f0 t.2 = .ok ()
    · rw [ht]
      simp only [List.forall_mem_cons, ht, true_and]
      exact ih
    · have : checkTerm f0 t.2 = .error .runtimeError := by
        unfold checkTerm at ht ⊢
        split_ifs at ht ⊢ <;> simp_all
      rw [this]
      simp [this]
      rfl

theorem indices_ok {f0 f : List Char} (h0 : f0.Nodup) (h1 : f.Nodup) (h2 : ∀ c, c ∈ f ↔ c ∈ f0) :
    ∃ σ : Equiv.Perm (Fin f0.length), indices f f0 = .ok (tup σ) ∧
      ∀ i : Fin f0.length, f[(σ i : ℕ)]? = f0[(i : ℕ)]? := by
  have h3 : f.toFinset = f0.toFinset := by ext c; simp [h2]
  have h4 : f.length = f0.length := by
    rw [← List.toFinset_card_of_nodup h1, ← List.toFinset_card_of_nodup h0, h3]
  have h5 : indices f f0 = .ok (f0.map fun c => f.idxOf c) := by
    apply mapM_ok
    intro c hc
    rw [if_pos ((h2 c).2 hc)]
  have h6 : (f0.map fun c => f.idxOf c).Perm (List.range f0.length) := by
    have hnd : (f0.map fun c => f.idxOf c).Nodup := by
      apply List.Nodup.map_on _ h0
      intro a ha b hb hab
      exact (List.idxOf_inj ((h2 a).2 ha)).1 hab
    apply (List.subperm_of_subset hnd ?_).perm_of_length_le (by simp)
    intro i hi
    obtain ⟨c, hc, rfl⟩ := List.mem_map.1 hi
    rw [List.mem_range, ← h4]
    exact List.idxOf_lt_length_of_mem ((h2 c).2 hc)
  obtain ⟨σ, hσ⟩ := exists_tup_of_perm_range h6
  refine ⟨σ, by rw [h5, hσ], fun i => ?_⟩
  have := congrArg (·[(i : ℕ)]?) hσ
  simp only [tup_getElem?, List.getElem?_map] at this
  rw [List.getElem?_eq_getElem i.2] at this ⊢
  simp only [Option.map_some, Option.some.injEq] at this
  rw [this, List.getElem?_idxOf ((h2 _).2 (List.getElem_mem _))]

theorem terms_eq (ts : List (List Char)) (hne : ts ≠ []) (h : ∀ t ∈ ts, '=' ∉ t) :
    terms (['='].intercalate ts) = ts.map fun t => ((termSign t : ℤ), termWord t) := by
  rw [terms, List.splitOn_intercalate _ h hne]
  apply List.map_congr_left
  intro t _
  simp only [termSign, termWord, Prod.mk.injEq, and_true]
  split_ifs <;> rfl

theorem generators_neg (t0 : List Char) (l : List (List Char)) (h : ∀ t ∈ t0 :: l, '=' ∉ t)
    (h0 : termSign t0 = -1) :
    generators (['='].intercalate (t0 :: l)) = .error .assertionError := by
  rw [generators, terms_eq _ (by simp) h]
  simp [h0, pyAssert]
  rfl

theorem generators_bad (t0 : List Char) (l : List (List Char)) (h : ∀ t ∈ t0 :: l, '=' ∉ t)
    (h0 : termSign t0 = 1) (hw : ¬ WordsOk (termWord t0) (t0 :: l)) :
    generators (['='].intercalate (t0 :: l)) = .error .runtimeError := by
  rw [generators, terms_eq _ (by simp) h]
  simp only [List.map_cons, h0, Units.val_one]
  show (do
    pyAssert ((1 : ℤ) = 1)
    (forIn ((1, termWord t0) :: l.map fun t => ((termSign t : ℤ), termWord t)) PUnit.unit fun t _ => do
      checkTerm (termWord t0) t.2; pure (ForInStep.yield PUnit.unit) : Py PUnit)
    _ : Py _) = _
  rw [show pyAssert ((1 : ℤ) = 1) = .ok () from if_pos rfl, ok_bind1, forIn_check, if_neg]
  · rfl
  · intro hall
    apply hw
    intro t ht
    by_contra hc
    have := checkTerm_error hc
    rcases List.mem_cons.1 ht with rfl | ht
    · have h2 := hall (1, termWord t) (by simp)
      simp only at h2
      rw [this] at h2; cases h2
    · have h2 := hall ((termSign t : ℤ), termWord t) (by
        simp only [List.mem_cons, List.mem_map]
        exact Or.inr ⟨t, ht, rfl⟩)
      simp only at h2
      rw [this] at h2; cases h2

theorem generators_good (t0 : List Char) (l : List (List Char)) (h : ∀ t ∈ t0 :: l, '=' ∉ t)
    (h0 : termSign t0 = 1) (hw : WordsOk (termWord t0) (t0 :: l)) :
    ∃ S : Finset (SignedPerm (termWord t0).length),
      generators (['='].intercalate (t0 :: l)) = .ok (termWord t0, S.image stup) ∧
      S.Nonempty ∧ (S : Set _) = termPerms (termWord t0).length (termWord t0) (t0 :: l) := by
  have hn0 : (termWord t0).Nodup := (hw t0 (by simp)).1
  have hex : ∀ t : {t // t ∈ t0 :: l}, ∃ σ : Equiv.Perm (Fin (termWord t0).length),
      indices (termWord t.1) (termWord t0) = .ok (tup σ) ∧
      ∀ i : Fin (termWord t0).length, (termWord t.1)[(σ i : ℕ)]? = (termWord t0)[(i : ℕ)]? :=
    fun t => indices_ok hn0 (hw t.1 t.2).1 (hw t.1 t.2).2
  choose σ hσ1 hσ2 using hex
  let S : Finset (SignedPerm (termWord t0).length) :=
    ((t0 :: l).attach.map fun t => ((termSign t.1, σ t) : SignedPerm _)).toFinset
  refine ⟨S, ?_, ⟨(termSign t0, σ ⟨t0, by simp⟩), ?_⟩, ?_⟩
  · rw [generators, terms_eq _ (by simp) h]
    have hmap : ((t0 :: l).map fun t => ((termSign t : ℤ), termWord t)).mapM
        (fun t : ℤ × List Char => do return (t.1, ← indices t.2 (termWord t0))) =
        (.ok ((t0 :: l).attach.map fun t => stup (termSign t.1, σ t)) : Py _) := by
      rw [List.mapM_map]
      have : ∀ (L : List (List Char)) (hL : ∀ t ∈ L, t ∈ t0 :: l),
          L.mapM ((fun t : ℤ × List Char => do return (t.1, ← indices t.2 (termWord t0))) ∘
            fun t => ((termSign t : ℤ), termWord t)) =
          (.ok (L.attach.map fun t => stup (termSign t.1, σ ⟨t.1, hL t.1 t.2⟩)) : Py _) := by
        intro L
        induction L with
        | nil => intro _; rfl
        | cons a L ih =>
          intro hL
          rw [List.mapM_cons, ih (fun t ht => hL t (by simp [ht]))]
          simp only [Function.comp, hσ1 ⟨a, hL a (by simp)⟩, List.attach_cons, List.map_cons,
            List.map_map]
          rfl
      exact this _ (fun _ h => h)
    simp only [List.map_cons, h0, Units.val_one] at hmap ⊢
    show (do
      pyAssert ((1 : ℤ) = 1)
      (forIn ((1, termWord t0) :: l.map fun t => ((termSign t : ℤ), termWord t)) PUnit.unit fun t _ => do
        checkTerm (termWord t0) t.2; pure (ForInStep.yield PUnit.unit) : Py PUnit)
      _ : Py _) = _
    rw [show pyAssert ((1 : ℤ) = 1) = .ok () from if_pos rfl, ok_bind1, forIn_check, if_pos, hmap]
    · show Except.ok _ = Except.ok _
      congr 2
      ext x
      simp [S]
    · intro t ht
      rcases List.mem_cons.1 ht with rfl | ht
      · exact checkTerm_ok hn0 hn0 (fun _ => Iff.rfl)
      · obtain ⟨u, hu, rfl⟩ := List.mem_map.1 ht
        exact checkTerm_ok hn0 (hw u (by simp [hu])).1 (hw u (by simp [hu])).2
  · simp only [S, List.mem_toFinset, List.mem_map]
    exact ⟨⟨t0, by simp⟩, List.mem_attach _ _, rfl⟩
  · ext ⟨u, τ⟩
    simp only [S, Finset.mem_coe, List.mem_toFinset, List.mem_map, termPerms, Set.mem_ofPred_eq]
    constructor
    · rintro ⟨⟨t, ht⟩, _, h⟩
      obtain ⟨rfl, rfl⟩ := Prod.mk.inj h
      exact ⟨t, ht, rfl, hσ2 ⟨t, ht⟩⟩
    · rintro ⟨t, ht, rfl, hτ⟩
      refine ⟨⟨t, ht⟩, List.mem_attach _ _, ?_⟩
      congr 1
      ext i
      have h1 := hσ2 ⟨t, ht⟩ i
      have h2 := hτ i
      simp only at h1
      have hnd := (hw t ht).1
      rw [← h1] at h2
      have hlt : (σ ⟨t, ht⟩ i : ℕ) < (termWord t).length := by
        by_contra hge
        rw [List.getElem?_eq_none (by omega), List.getElem?_eq_getElem i.2] at h1
        cases h1
      exact (List.getElem?_inj hlt hnd).1 h2.symm

end LieNN.PermRepr
