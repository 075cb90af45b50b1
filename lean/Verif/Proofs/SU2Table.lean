import Verif.Proofs.SU2Orth
/-!
# Completeness of the Clebsch-Gordan coefficients of `SU2`; the table of irreps
-/
namespace LieNN.SU2

open Finset Complex Matrix

theorem mem_mulL_of_lt {j₁ j₂ t : ℕ} (h : t < min j₁ j₂ + 1) :
    max j₁ j₂ - min j₁ j₂ + 2 * t ∈ mulL j₁ j₂ :=
  List.mem_map.2 ⟨t, List.mem_range.2 h, rfl⟩

theorem sum_dims (m n : ℕ) (h : m ≤ n) :
    ∑ t ∈ range (m + 1), (n - m + 2 * t + 1) = (m + 1) * (n + 1) := by
  obtain ⟨d, rfl⟩ : ∃ d, n = m + d := ⟨n - m, by omega⟩
  rw [Nat.add_sub_cancel_left]
  have : ∀ k, ∑ t ∈ range k, (d + 2 * t + 1) = k * (d + k) := by
    intro k
    induction k with
    | zero => simp
    | succ k ih => rw [Finset.sum_range_succ, ih]; ring
  rw [this]; ring

theorem sum_dims' (j₁ j₂ : ℕ) :
    ∑ t ∈ range (min j₁ j₂ + 1), (max j₁ j₂ - min j₁ j₂ + 2 * t + 1) = (j₁ + 1) * (j₂ + 1) := by
  rcases le_total j₁ j₂ with h | h
  · rw [min_eq_left h, max_eq_right h, sum_dims _ _ h]
  · rw [min_eq_right h, max_eq_left h, sum_dims _ _ h, mul_comm]

theorem mulL_sum (j₁ j₂ : ℕ) : ((mulL j₁ j₂).map fun k => k + 1).sum = (j₁ + 1) * (j₂ + 1) := by
  rw [← sum_dims', mulL, List.map_map]
  generalize min j₁ j₂ + 1 = n
  induction n with
  | zero => simp
  | succ n ih => rw [List.sum_range_succ, Finset.sum_range_succ, ih]; rfl

/-- Labels of the coupled basis. -/
abbrev Coupled (j₁ j₂ : ℕ) : Type :=
  (t : Fin (min j₁ j₂ + 1)) × Fin (dim (max j₁ j₂ - min j₁ j₂ + 2 * t))

/-- All coefficients in one matrix. -/
noncomputable def bigM (j₁ j₂ : ℕ) : Matrix (Coupled j₁ j₂) (Fin (dim j₁) × Fin (dim j₂)) ℂ :=
  Matrix.of fun s ab => ((ct j₁ j₂ _ ab.1 ab.2 s.2 : ℝ) : ℂ)

theorem bigM_mul (j₁ j₂ : ℕ) : bigM j₁ j₂ * (bigM j₁ j₂)ᴴ = 1 := by
  ext ⟨t, c⟩ ⟨u, d⟩
  have h := ct_orth (mem_mulL_of_lt t.2) (mem_mulL_of_lt u.2) c d
  rw [Matrix.mul_apply, Fintype.sum_prod_type]
  have e : ∀ (a : Fin (dim j₁)) (b : Fin (dim j₂)), bigM j₁ j₂ ⟨t, c⟩ (a, b) *
      (bigM j₁ j₂)ᴴ (a, b) ⟨u, d⟩ =
      ((ct j₁ j₂ (max j₁ j₂ - min j₁ j₂ + 2 * t) a b c *
        ct j₁ j₂ (max j₁ j₂ - min j₁ j₂ + 2 * u) a b d : ℝ) : ℂ) := by
    intro a b
    rw [Matrix.conjTranspose_apply]
    simp only [bigM, Matrix.of_apply]
    rw [RCLike.star_def, conj_ofReal, ofReal_mul]
  simp only [e, ← ofReal_sum]
  rw [h]
  by_cases htu : t = u
  · subst htu
    by_cases hcd : c = d
    · subst hcd; rw [Matrix.one_apply_eq, if_pos ⟨rfl, rfl⟩, ofReal_one]
    · rw [if_neg (fun hh => hcd (Fin.ext hh.2)), Matrix.one_apply_ne, ofReal_zero]
      intro hh
      exact hcd (eq_of_heq (Sigma.mk.inj hh).2)
  · rw [if_neg (fun hh => htu (Fin.ext (by omega))), Matrix.one_apply_ne, ofReal_zero]
    intro hh
    exact htu (Sigma.mk.inj hh).1

theorem bigM_mul' (j₁ j₂ : ℕ) : (bigM j₁ j₂)ᴴ * bigM j₁ j₂ = 1 := by
  refine (Matrix.mul_eq_one_comm_of_card_eq _ _ _ ?_).1 (bigM_mul j₁ j₂)
  rw [Fintype.card_sigma, Fintype.card_prod]
  simp only [Fintype.card_fin]
  rw [← sum_dims' j₁ j₂, Finset.sum_range]

theorem sum_mulL (j₁ j₂ : ℕ) (f : ℕ → ℝ) : ((mulL j₁ j₂).map f).sum =
    ∑ t : Fin (min j₁ j₂ + 1), f (max j₁ j₂ - min j₁ j₂ + 2 * t) := by
  rw [← Finset.sum_range (fun t => f (max j₁ j₂ - min j₁ j₂ + 2 * t)), mulL, List.map_map]
  generalize min j₁ j₂ + 1 = n
  induction n with
  | zero => simp
  | succ n ih => rw [List.sum_range_succ, Finset.sum_range_succ, ih]; rfl

/-- Completeness, entrywise. -/
theorem ct_complete {j₁ j₂ : ℕ} (a a' : Fin (dim j₁)) (b b' : Fin (dim j₂)) :
    ((mulL j₁ j₂).map fun j₃ => ∑ c, ct j₁ j₂ j₃ a b c * ct j₁ j₂ j₃ a' b' c).sum =
      if a = a' ∧ b = b' then 1 else 0 := by
  have h := congrFun (congrFun (bigM_mul' j₁ j₂) (a, b)) (a', b')
  rw [Matrix.mul_apply, Fintype.sum_sigma] at h
  rw [sum_mulL]
  have e : ∀ (t : Fin (min j₁ j₂ + 1)) (c : Fin (dim (max j₁ j₂ - min j₁ j₂ + 2 * t))),
      (bigM j₁ j₂)ᴴ (a, b) ⟨t, c⟩ * bigM j₁ j₂ ⟨t, c⟩ (a', b') =
      ((ct j₁ j₂ (max j₁ j₂ - min j₁ j₂ + 2 * t) a b c *
        ct j₁ j₂ (max j₁ j₂ - min j₁ j₂ + 2 * t) a' b' c : ℝ) : ℂ) := by
    intro t c
    rw [Matrix.conjTranspose_apply]
    simp only [bigM, Matrix.of_apply]
    rw [RCLike.star_def, conj_ofReal, ofReal_mul]
  simp only [e, ← ofReal_sum] at h
  apply ofReal_injective
  rw [h]
  by_cases hh : a = a' ∧ b = b'
  · obtain ⟨rfl, rfl⟩ := hh
    rw [if_pos ⟨rfl, rfl⟩, Matrix.one_apply_eq, ofReal_one]
  · rw [if_neg hh, Matrix.one_apply_ne, ofReal_zero]
    intro h'
    exact hh ⟨congrArg Prod.fst h', congrArg Prod.snd h'⟩

theorem table_prod (i j : ℕ) : table.prod i j = mulL i j := by
  change (match mul i j with | .ok l => l | .error _ => []) = _
  rw [mul_eq]

theorem table_cg {i j k : ℕ} (h : k ∈ mulL i j) :
    table.cg i j k = [fun a b c => ((ct i j k a b c : ℝ) : ℂ)] := by
  have e : table.cg i j k = match cg i j k with
    | .ok L => L.map fun C a b c => ((C a b c : ℝ) : ℂ)
    | .error _ => [] := rfl
  rw [e, cg_eq_ct h]; rfl

theorem table_equivariant : Spec.Equivariant table := by
  intro i j k hk C hC
  have hk' : k ∈ mulL i j := (table_prod i j) ▸ hk
  rw [table_cg hk'] at hC
  rw [List.mem_singleton.1 hC]
  exact isCG_ct hk'

theorem table_complete (i j : ℕ) : Spec.CGComplete (T := table) i j := by
  constructor
  · rw [table_prod]
    refine Eq.trans ?_ (mulL_sum i j)
    congr 1
    refine List.map_congr_left fun k hk => ?_
    rw [table_cg hk]
    exact one_mul _
  · intro t ht
    have hz : bigM i j *ᵥ (fun ab : Fin (dim i) × Fin (dim j) => t ab.1 ab.2) = 0 := by
      funext ⟨u, c⟩
      have hm := mem_mulL_of_lt u.2
      have := ht _ (by rw [table_prod]; exact hm) _ (by rw [table_cg hm]; exact List.mem_singleton_self _) c
      simp only [Matrix.mulVec, dotProduct]
      rw [Fintype.sum_prod_type]
      exact this
    have h2 := congrArg (fun v => (bigM i j)ᴴ *ᵥ v) hz
    simp only [Matrix.mulVec_mulVec, bigM_mul', Matrix.one_mulVec, Matrix.mulVec_zero] at h2
    funext a b
    exact congrFun h2 (a, b)

theorem table_good (i j : ℕ) : Spec.GoodPair (T := table) i j where
  algebra := fun _ _ _ => by
    change ‖algebra _ _ _ - algebra _ _ _‖ ≤ _
    rw [sub_self, norm_zero]; positivity
  nonempty := by
    have h : mulL i j ≠ [] := by unfold mulL; simp
    exact fun h' => h ((table_prod i j).symm.trans h')
  sols := fun k hk => by
    have hk' : k ∈ mulL i j := (table_prod i j) ▸ hk
    rw [table_cg hk']
    exact List.cons_ne_nil _ _
  complete := table_complete i j

end LieNN.SU2
