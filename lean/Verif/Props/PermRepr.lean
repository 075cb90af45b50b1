import Verif.Proofs.PermBase
import Verif.Proofs.PermRestrict

/-!
# Properties of the signed permutation groups of `reduced_tensor_product.py` (C50-C52)
-/
namespace LieNN.Props
open LieNN.Spec LieNN.Perm LieNN.PermRepr

/-! ### C50: `germinate_perm_repr` -/

/-- **C50.** Every formula is a list of terms joined by `=`. -/
theorem C50_formula (formula : List Char) :
    ∃ (t0 : List Char) (l : List (List Char)),
      (∀ t ∈ t0 :: l, '=' ∉ t) ∧ formula = ['='].intercalate (t0 :: l) := by
  induction formula with
  | nil => exact ⟨[], [], by simp, rfl⟩
  | cons c f ih =>
    obtain ⟨t0, l, h, rfl⟩ := ih
    by_cases hc : c = '='
    · subst hc
      refine ⟨[], t0 :: l, ?_, ?_⟩
      · intro t ht
        rcases List.mem_cons.1 ht with rfl | ht
        · simp
        · exact h t ht
      · cases l <;> simp [List.intercalate]
    · refine ⟨c :: t0, l, ?_, ?_⟩
      · intro t ht
        rcases List.mem_cons.1 ht with rfl | ht
        · have := h t0 (by simp)
          simp only [List.mem_cons, not_or]
          exact ⟨fun e => hc e.symm, this⟩
        · exact h t (by simp [ht])
      · cases l <;> simp [List.intercalate]

/-- **C50.** A formula whose first term has the sign `-` is rejected by the assertion. -/
theorem C50_negative (t0 : List Char) (l : List (List Char)) (h : ∀ t ∈ t0 :: l, '=' ∉ t)
    (h0 : t0.head? = some '-') (fuel : ℕ) :
    germinatePermRepr fuel (['='].intercalate (t0 :: l)) = some (.error .assertionError) := by
  rw [germinatePermRepr, generators_neg t0 l h (by simp [termSign, h0])]

/-- **C50.** A formula with a term that repeats a letter or does not use the letters of the first term
raises `RuntimeError`. -/
theorem C50_malformed (t0 : List Char) (l : List (List Char)) (h : ∀ t ∈ t0 :: l, '=' ∉ t)
    (h0 : t0.head? ≠ some '-')
    (hw : ∃ t ∈ t0 :: l, ¬ ((termWord t).Nodup ∧ ∀ c, c ∈ termWord t ↔ c ∈ termWord t0)) (fuel : ℕ) :
    germinatePermRepr fuel (['='].intercalate (t0 :: l)) = some (.error .runtimeError) := by
  rw [germinatePermRepr, generators_bad t0 l h (by simp [termSign, h0])]
  obtain ⟨t, ht, hn⟩ := hw
  exact fun hw => hn (hw t ht)

/-- **C50.** Every other formula is accepted: the loop halts and returns the letters of the first term
and the subgroup of signed permutations generated by the terms. -/
theorem C50_germinate (t0 : List Char) (l : List (List Char)) (h : ∀ t ∈ t0 :: l, '=' ∉ t)
    (h0 : t0.head? ≠ some '-')
    (hw : ∀ t ∈ t0 :: l, (termWord t).Nodup ∧ ∀ c, c ∈ termWord t ↔ c ∈ termWord t0) :
    ∃ (N : ℕ) (R : Finset SP),
      (∀ fuel ≥ N, germinatePermRepr fuel (['='].intercalate (t0 :: l)) =
        some (.ok (termWord t0, R))) ∧
      (R : Set SP) = stup (n := (termWord t0).length) '' (Subgroup.closure
        (termPerms (termWord t0).length (termWord t0) (t0 :: l))) := by
  obtain ⟨S, h1, hne, h2⟩ := generators_good t0 l h (by simp [termSign, h0]) hw
  have hl := fun fuel (hf : Fintype.card (SignedPerm (termWord t0).length) < fuel + S.card) =>
    loop_spec S hne fuel hf
  obtain ⟨R, hR1, hR2⟩ := hl (Fintype.card (SignedPerm (termWord t0).length) + 1) (by omega)
  refine ⟨Fintype.card (SignedPerm (termWord t0).length) + 1, R.image stup, ?_, ?_⟩
  · intro fuel hf
    obtain ⟨R', hR1', hR2'⟩ := hl fuel (by omega)
    have : R' = R := Finset.coe_injective (hR2'.trans hR2.symm)
    rw [germinatePermRepr, h1]
    simp only [hR1', this]
  · rw [Finset.coe_image, hR2, h2]

/-- A formula in the scope of `C50_germinate`: `ijk=jik=-ikj`. -/
example : let t0 := "ijk".toList; let l := ["jik".toList, "-ikj".toList]
    "ijk=jik=-ikj".toList = ['='].intercalate (t0 :: l) ∧ (∀ t ∈ t0 :: l, '=' ∉ t) ∧
    t0.head? ≠ some '-' ∧
    ∀ t ∈ t0 :: l, (termWord t).Nodup ∧ termWord t ⊆ termWord t0 ∧ termWord t0 ⊆ termWord t := by
  decide

/-- The antisymmetry formula `ij=-ji` names the signed transposition. -/
example : ((-1, Equiv.swap 0 1) : SignedPerm 2) ∈
    termPerms 2 "ij".toList ["ij".toList, "-ji".toList] :=
  ⟨"-ji".toList, by simp, rfl, by decide⟩

/-- Malformed formulas: a repeated letter, a missing letter. -/
example : ¬ (termWord "ii".toList).Nodup := by decide
example : ¬ ∀ c, c ∈ termWord "ik".toList ↔ c ∈ termWord "ij".toList := by
  intro h; have := h 'k'; revert this; decide

/-! ### C51: `reduce_permutation_base`, `reduce_permutation_matrix` -/

/-- **C51.** For every signed permutation group and compatible dimensions both functions return, the
assertion on `Q Qᵀ` never fails, the rows are orthonormal and span exactly the tensors with the
required symmetry; `len(base)` is the number of rows and the dimension of that space. -/
theorem C51_matrix {n : ℕ} (G : Subgroup (SignedPerm n)) (Gs : Finset SP)
    (hGs : (Gs : Set SP) = stup '' (G : Set (SignedPerm n))) (δ : Fin n → ℕ)
    (hδ : ∀ g ∈ G, ∀ k, δ (g.2 k) = δ k) :
    ∃ b Q, base Gs (List.ofFn δ) = .ok b ∧ matrix b (List.ofFn δ) = .ok Q ∧ Q.length = b.card ∧
      (∀ i j (hi : i < Q.length) (hj : j < Q.length),
        ∑ ξ : Box δ, Q[i] (rowMajor δ ξ.1) * Q[j] (rowMajor δ ξ.1) = if i = j then 1 else 0) ∧
      Submodule.span ℝ (Set.range fun i : Fin Q.length => fun ξ : Box δ => Q[i] (rowMajor δ ξ.1)) =
        symTensors (G : Set (SignedPerm n)) δ ∧
      Module.finrank ℝ (symTensors (G : Set (SignedPerm n)) δ) = b.card := by
  obtain ⟨Gf, hG, rfl⟩ := exists_finset hGs
  obtain ⟨b, Q, h1, h2, h3, h4, h5⟩ := matrix_spec hG δ fun g hg => funext (hδ g hg)
  refine ⟨b, Q, h1, h2, h3, h4, h5, ?_⟩
  rw [← h5, finrank_of_orthonormal, Fintype.card_fin, h3]
  intro i j
  rw [Fin.getElem_fin, Fin.getElem_fin, h4 i j i.2 j.2]
  simp [Fin.ext_iff]

/-- **C51.** Of an orbit and its negative, the one with the larger sum of signs gives the row: the
entries of a row never have a negative sum. -/
theorem C51_sign {n : ℕ} (G : Subgroup (SignedPerm n)) (Gs : Finset SP)
    (hGs : (Gs : Set SP) = stup '' (G : Set (SignedPerm n))) (δ : Fin n → ℕ)
    (hδ : ∀ g ∈ G, ∀ k, δ (g.2 k) = δ k) :
    ∃ b Q, base Gs (List.ofFn δ) = .ok b ∧ matrix b (List.ofFn δ) = .ok Q ∧
      ∀ i (hi : i < Q.length), 0 ≤ ∑ ξ : Box δ, Q[i] (rowMajor δ ξ.1) := by
  obtain ⟨Gf, hG, rfl⟩ := exists_finset hGs
  obtain ⟨b, Q, h1, h2, -, -, -, -, h3⟩ := matrix_spec_disj hG δ fun g hg => funext (hδ g hg)
  exact ⟨b, Q, h1, h2, h3⟩

/-- **C51.** The flat index runs over the whole array once: the rows of `Q` have no other entries. -/
theorem C51_rowMajor {n : ℕ} (δ : Fin n → ℕ) :
    Set.BijOn (rowMajor δ) {ξ | ∀ k, ξ k < δ k} {j | j < ∏ k, δ k} := by
  refine ⟨fun ξ h => rowMajor_lt h, fun ξ h η h' he => rowMajor_inj h h' he, fun j hj => ?_⟩
  by_contra hc
  have h1 := sum_rowMajor (δ := δ) fun k => if k = j then 1 else 0
  rw [Finset.sum_ite_eq' _ _ fun _ => (1 : ℝ), if_pos (Finset.mem_range.2 hj),
    Finset.sum_eq_zero] at h1
  · exact one_ne_zero h1
  · intro ξ _
    rw [if_neg]
    intro h
    exact hc ⟨ξ.1, mem_box.1 ξ.2, h⟩

/-- The group of `ij=-ji` and the dimensions `(3, 3)`. -/
example : ∃ G : Subgroup (SignedPerm 2), G ≠ ⊥ ∧ ((-1, Equiv.swap 0 1) : SignedPerm 2) ∈ G ∧
    ∀ g ∈ G, ∀ k, (fun _ => 3 : Fin 2 → ℕ) (g.2 k) = (fun _ => 3 : Fin 2 → ℕ) k :=
  ⟨⊤, top_ne_bot, Subgroup.mem_top _, fun _ _ _ => rfl⟩

/-- An antisymmetric tensor of shape `(2, 2)` that is not zero. -/
example : ∃ T ∈ symTensors {((-1, Equiv.swap 0 1) : SignedPerm 2)} (fun _ => 2 : Fin 2 → ℕ), T ≠ 0 := by
  refine ⟨fun ξ => (ξ.1 0 : ℝ) - ξ.1 1, ?_, ?_⟩
  · rintro g rfl ξ η h
    simp [h]
  · intro h
    have := congrFun h ⟨![1, 0], by decide⟩
    simp at this

/-- The row-major index of `(1, 2)` in shape `(2, 3)` is `5`. -/
example : rowMajor ![2, 3] ![1, 2] = 5 := by decide

/-! ### C52: `subrepr_permutation` -/

/-- **C52.** The result is the set of the elements fixing all the other indices, relabelled by rank. -/
theorem C52_subrepr {n : ℕ} (sub : Finset (Fin n)) (G : Finset (SignedPerm n)) :
    (subrepr (sub.image Fin.val) (G.image stup) : Set SP) =
      stup '' restrictPerms sub (G : Set (SignedPerm n)) :=
  subrepr_stup sub G

/-- **C52.** The restriction of a signed permutation group is a signed permutation group. -/
theorem C52_group {n : ℕ} (sub : Finset (Fin n)) (G : Subgroup (SignedPerm n)) (Gs : Finset SP)
    (hGs : (Gs : Set SP) = stup '' (G : Set (SignedPerm n))) :
    ∃ H : Subgroup (SignedPerm sub.card),
      (subrepr (sub.image Fin.val) Gs : Set SP) = stup '' (H : Set (SignedPerm sub.card)) ∧
      (H : Set _) = restrictPerms sub (G : Set (SignedPerm n)) := by
  obtain ⟨Gf, hG, rfl⟩ := exists_finset hGs
  obtain ⟨H, hH⟩ := restrictPerms_subgroup sub G
  refine ⟨H, ?_, hH⟩
  rw [subrepr_stup, hH, show ((Gf : Set (SignedPerm n))) = (G : Set _) from Set.ext hG]

/-- The signed transposition of `1` and `2` restricts to `{1, 2}`; the one of `0` and `1` does not. -/
example : (∃ h ∈ restrictPerms {1, 2} {((-1, Equiv.swap 1 2) : SignedPerm 3)}, h.1 = -1) ∧
    restrictPerms {1, 2} {((-1, Equiv.swap 0 1) : SignedPerm 3)} = ∅ := by
  constructor
  · obtain ⟨τ, hτ⟩ := exists_restrict ({1, 2} : Finset (Fin 3)) (Equiv.swap 1 2) (by decide)
    exact ⟨(-1, τ), ⟨_, rfl, by decide, rfl, hτ⟩, rfl⟩
  · ext h
    simp only [Set.mem_empty_iff_false, iff_false]
    rintro ⟨g, rfl, hk, _⟩
    revert hk
    decide

end LieNN.Props
