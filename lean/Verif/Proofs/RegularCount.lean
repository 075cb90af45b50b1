import Verif.Proofs.FiniteChar
/-!
# Counting the blocks of the regular representation
-/
namespace LieNN.Semi

open Matrix LieNN LieNN.Spec Module

variable {n d : ℕ} {G : Type*} [Group G] {e : Fin n ≃ G}

theorem sum_smul_blockSum (c : Fin n → ℂ) (l : List (Block n)) (h : ∀ Y ∈ l, ∑ a, c a • Y.2 a = 0) : ∑ a, c a • blockSum l a = 0 := by
  induction l with
  | nil => exact Matrix.ext fun x => x.elim0
  | cons Y l ih =>
    have h1 : ∀ a, c a • blockSum (Y :: l) a = dsum (c a • Y.2 a) (c a • blockSum l a) := fun a => (dsum_smul _ _ _).symm
    rw [Finset.sum_congr rfl fun a _ => h1 a]
    have h2 := dsum_sum Finset.univ (fun a => c a • Y.2 a) fun a => c a • blockSum l a
    rw [h Y (by simp), ih fun Y' h' => h Y' (by simp [h']), dsum_zero] at h2
    exact h2.symm

theorem sum_smul_equivalent {X : Fin n → Matrix (Fin d) (Fin d) ℂ} {k : ℕ} {Y : Fin n → Matrix (Fin k) (Fin k) ℂ} (h : Equivalent X Y)
    (c : Fin n → ℂ) (h0 : ∑ a, c a • Y a = 0) : ∑ a, c a • X a = 0 := by
  obtain ⟨Q, P, hQP, -, hX⟩ := h
  have : (∑ a, c a • X a) * Q = 0 := by
    rw [Matrix.sum_mul]
    have h1 : ∀ a, c a • X a * Q = Q * (c a • Y a) := fun a => by rw [Matrix.smul_mul, hX, Matrix.mul_smul]
    rw [Finset.sum_congr rfl fun a _ => h1 a, ← Matrix.mul_sum, h0, Matrix.mul_zero]
  rw [← Matrix.mul_one (∑ a, c a • X a), ← hQP, ← Matrix.mul_assoc, this, Matrix.zero_mul]

/-- The matrices of the regular representation are linearly independent. -/
theorem regular_independent (e : Fin n ≃ G) (table : Fin n → Fin n → Fin n) (ht : ∀ g h, e (table g h) = e g * e h) (c : Fin n → ℂ)
    (h : ∑ a, c a • regularRepresentation table a = 0) : c = 0 := by
  funext g
  have h1 := congrFun (congrFun h g) (e.symm 1)
  rw [Matrix.sum_apply, Finset.sum_eq_single g] at h1
  · have h2 : table g (e.symm 1) = g := e.injective (by rw [ht, e.apply_symm_apply, mul_one])
    have h3 : regularRepresentation table g g (e.symm 1) = 1 := by
      unfold regularRepresentation
      rw [if_pos h2.symm]
    rw [Matrix.smul_apply, h3, smul_eq_mul, mul_one] at h1
    exact h1
  · intro a _ ha
    have h2 : g ≠ table a (e.symm 1) := by
      intro h
      apply ha
      apply e.injective
      rw [h, ht, e.apply_symm_apply, mul_one]
    rw [Matrix.smul_apply]
    unfold regularRepresentation
    rw [if_neg h2, smul_zero]
  · simp

open Classical in
/-- The sum of the sizes, class by class. -/
theorem sum_sizes (Zs : List (Block n)) (hpw : Zs.Pairwise fun Y Z => ¬ Equivalent Y.2 Z.2) (Ys : List (Block n))
    (hcov : ∀ Y ∈ Ys, ∃ Z ∈ Zs, Equivalent Y.2 Z.2) :
    (Ys.map Sigma.fst).sum = (Zs.map fun Z => Z.1 * Ys.countP fun Y => decide (Equivalent Y.2 Z.2)).sum := by
  have one : ∀ (Y : Block n) (Zs : List (Block n)), Zs.Pairwise (fun Y Z => ¬ Equivalent Y.2 Z.2) → (∃ Z ∈ Zs, Equivalent Y.2 Z.2) →
      (Zs.map fun Z => if Equivalent Y.2 Z.2 then Z.1 else 0).sum = Y.1 := by
    intro Y Zs
    induction Zs with
    | nil => rintro _ ⟨Z, h, _⟩; cases h
    | cons Z Zs ih =>
      intro hp hex
      obtain ⟨hp1, hp2⟩ := List.pairwise_cons.1 hp
      rw [List.map_cons, List.sum_cons]
      by_cases h : Equivalent Y.2 Z.2
      · rw [if_pos h]
        have : (Zs.map fun Z => if Equivalent Y.2 Z.2 then Z.1 else 0) = Zs.map fun _ => 0 := by
          refine List.map_congr_left fun Z' h' => if_neg fun h2 => hp1 Z' h' (h.symm.trans h2)
        rw [this]
        simpa using h.dim_eq.symm
      · rw [if_neg h, zero_add]
        obtain ⟨Z', h1, h2⟩ := hex
        rcases List.mem_cons.1 h1 with rfl | h1
        · exact absurd h2 h
        · exact ih hp2 ⟨Z', h1, h2⟩
  induction Ys with
  | nil => simp
  | cons Y Ys ih =>
    rw [List.map_cons, List.sum_cons, ih fun Y' h' => hcov Y' (by simp [h']), ← one Y Zs hpw (hcov Y (by simp)), ← List.sum_map_add]
    congr 1
    refine List.map_congr_left fun Z _ => ?_
    rw [List.countP_cons]
    by_cases h : Equivalent Y.2 Z.2
    · simp [h]; ring
    · simp [h]

open Classical in
/-- The number of blocks, class by class. -/
theorem sum_counts (Zs : List (Block n)) (hpw : Zs.Pairwise fun Y Z => ¬ Equivalent Y.2 Z.2) (Ys : List (Block n))
    (hcov : ∀ Y ∈ Ys, ∃ Z ∈ Zs, Equivalent Y.2 Z.2) :
    (Zs.map fun Z => Ys.countP fun Y => decide (Equivalent Y.2 Z.2)).sum = Ys.length := by
  have one : ∀ (Y : Block n) (Zs : List (Block n)), Zs.Pairwise (fun Y Z => ¬ Equivalent Y.2 Z.2) → (∃ Z ∈ Zs, Equivalent Y.2 Z.2) →
      (Zs.map fun Z => if Equivalent Y.2 Z.2 then 1 else 0).sum = 1 := by
    intro Y Zs
    induction Zs with
    | nil => rintro _ ⟨Z, h, _⟩; cases h
    | cons Z Zs ih =>
      intro hp hex
      obtain ⟨hp1, hp2⟩ := List.pairwise_cons.1 hp
      rw [List.map_cons, List.sum_cons]
      by_cases h : Equivalent Y.2 Z.2
      · rw [if_pos h]
        have : (Zs.map fun Z => if Equivalent Y.2 Z.2 then 1 else 0) = Zs.map fun _ => 0 := by
          refine List.map_congr_left fun Z' h' => if_neg fun h2 => hp1 Z' h' (h.symm.trans h2)
        rw [this]
        simp
      · rw [if_neg h, zero_add]
        obtain ⟨Z', h1, h2⟩ := hex
        rcases List.mem_cons.1 h1 with rfl | h1
        · exact absurd h2 h
        · exact ih hp2 ⟨Z', h1, h2⟩
  induction Ys with
  | nil => simp
  | cons Y Ys ih =>
    rw [List.length_cons, ← ih fun Y' h' => hcov Y' (by simp [h']), ← one Y Zs hpw (hcov Y (by simp)), ← List.sum_map_add]
    congr 1
    refine List.map_congr_left fun Z _ => ?_
    rw [List.countP_cons]
    simp

/-- The sum of squares and the number of classes. -/
theorem regular_counts (e : Fin n ≃ G) (table : Fin n → Fin n → Fin n) (ht : ∀ g h, e (table g h) = e g * e h) (Ys : List (Block n))
    (hE : Equivalent (regularRepresentation table) (blockSum Ys))
    (hY : ∀ Y ∈ Ys, ∃ σ : G →* Matrix (Fin Y.1) (Fin Y.1) ℂ, (∀ g, σ (e g) = Y.2 g) ∧ IrreducibleFamily Y.2)
    (Zs : List (Block n)) (hZs : Zs ⊆ Ys) (hpw : Zs.Pairwise fun Y Z => ¬ Equivalent Y.2 Z.2)
    (hcov : ∀ Y ∈ Ys, ∃ Z ∈ Zs, Equivalent Y.2 Z.2) :
    (Zs.map fun Z => Z.1 ^ 2).sum = n ∧ Zs.length = Nat.card (ConjClasses G) := by
  classical
  constructor
  · have h1 := hE.dim_eq
    rw [sum_sizes Zs hpw Ys hcov] at h1
    refine Eq.trans ?_ h1.symm
    congr 1
    refine List.map_congr_left fun Z hZ => ?_
    obtain ⟨σ, hσ, hirr⟩ := hY Z (hZs hZ)
    have h2 := countP_blocks hE (fun Y h => (hY Y h).choose_spec.2) hirr
    have h3 := finrank_regular e table ht σ
    have h4 : (fun g => σ (e g)) = Z.2 := funext hσ
    rw [h4] at h3
    rw [h2, h3, pow_two]
  · have : Fintype G := Fintype.ofEquiv _ e
    have hZ : ∀ i : Fin Zs.length, ∃ σ : G →* Matrix (Fin (Zs.get i).1) (Fin (Zs.get i).1) ℂ,
        (∀ g, σ (e g) = (Zs.get i).2 g) ∧ IrreducibleFamily (Zs.get i).2 := fun i => hY _ (hZs (List.get_mem _ _))
    choose ρ hρ hirr using hZ
    have hfun : ∀ i, (fun g => ρ i (e g)) = (Zs.get i).2 := fun i => funext (hρ i)
    refine card_irreps (e := e) (fun i => (Zs.get i).1) ρ (fun i => by rw [hfun]; exact hirr i) ?_ ?_
    · intro i j hij
      rw [hfun, hfun]
      rcases lt_or_gt_of_ne hij with h | h
      · exact List.pairwise_iff_get.1 hpw i j h
      · exact fun h' => List.pairwise_iff_get.1 hpw j i h h'.symm
    · intro f hf
      have h0 : (fun a => f (e a)) = 0 := by
        refine regular_independent e table ht _ (sum_smul_equivalent hE _ (sum_smul_blockSum _ _ fun Y hYm => ?_))
        obtain ⟨Z, hZm, hYZ⟩ := hcov Y hYm
        obtain ⟨i, rfl⟩ := List.mem_iff_get.1 hZm
        refine sum_smul_equivalent hYZ _ ?_
        have := hf i
        rw [← Equiv.sum_comp e] at this
        simpa only [hρ] using this
      funext g
      have := congrFun h0 (e.symm g)
      simpa using this

/-- Commutative groups. -/
theorem regular_comm (e : Fin n ≃ G) (table : Fin n → Fin n → Fin n) (ht : ∀ g h, e (table g h) = e g * e h) (Ys : List (Block n))
    (hE : Equivalent (regularRepresentation table) (blockSum Ys))
    (hY : ∀ Y ∈ Ys, ∃ σ : G →* Matrix (Fin Y.1) (Fin Y.1) ℂ, (∀ g, σ (e g) = Y.2 g) ∧ IrreducibleFamily Y.2) :
    (∀ Y ∈ Ys, Y.1 = 1) ↔ ∀ g h : G, g * h = h * g := by
  classical
  constructor
  · intro h1 g h
    have hc : (fun a => if e a = g * h then (1 : ℂ) else 0) - (fun a => if e a = h * g then (1 : ℂ) else 0) = 0 := by
      refine regular_independent e table ht _ (sum_smul_equivalent hE _ (sum_smul_blockSum _ _ fun Y hYm => ?_))
      obtain ⟨σ, hσ, -⟩ := hY Y hYm
      have hs : ∀ x : G, ∑ a, (if e a = x then (1 : ℂ) else 0) • Y.2 a = σ x := by
        intro x
        rw [Finset.sum_eq_single (e.symm x)]
        · simp [← hσ]
        · intro b _ hb
          rw [if_neg (fun h => hb (by rw [← h, e.symm_apply_apply])), zero_smul]
        · simp
      simp only [Pi.sub_apply, sub_smul, Finset.sum_sub_distrib, hs, map_mul]
      have hone := h1 Y hYm
      have : ∀ A B : Matrix (Fin Y.1) (Fin Y.1) ℂ, A * B = B * A := by
        rw [hone]
        intro A B
        ext i j
        rw [Subsingleton.elim i 0, Subsingleton.elim j 0]
        simp [Matrix.mul_apply, mul_comm]
      rw [this, sub_self]
    have := congrFun hc (e.symm (g * h))
    by_contra hne
    simp [hne] at this
  · intro hcomm Y hYm
    obtain ⟨σ, hσ, hirr⟩ := hY Y hYm
    have hsc : ∀ a, ∃ c : ℂ, Y.2 a = c • (1 : Matrix (Fin Y.1) (Fin Y.1) ℂ) := fun a =>
      commutant_scalar hirr fun b => by rw [← hσ, ← hσ, ← map_mul σ, ← map_mul σ, hcomm]
    obtain ⟨h0, hW⟩ := hirr
    have htop : Submodule.span ℂ {(Pi.single ⟨0, h0⟩ 1 : Fin Y.1 → ℂ)} = ⊤ := by
      refine (hW _ fun a w hw => ?_).resolve_left ?_
      · obtain ⟨c, hc⟩ := hsc a
        rw [hc, Matrix.smul_mulVec, Matrix.one_mulVec]
        exact Submodule.smul_mem _ _ hw
      · rw [Submodule.span_singleton_eq_bot]
        simp
    have h1 : finrank ℂ (Submodule.span ℂ {(Pi.single ⟨0, h0⟩ 1 : Fin Y.1 → ℂ)}) = 1 := finrank_span_singleton (by simp)
    rw [htop, finrank_top, finrank_fin_fun] at h1
    exact h1

end LieNN.Semi
