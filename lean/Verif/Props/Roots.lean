import Verif.Proofs.RootsData
import Verif.Proofs.RootsWeyl
/-!
# C56: root data of the classical algebras (`lie_algebra_utils.py`)
-/
namespace LieNN.Props

open LieNN.Spec LieNN.Roots

/-- C56 (ranks): the functions fail exactly for rank 0 (type A), ranks 0 and 1 (types B, C, D). -/
theorem C56_small_rank : rootsA 0 = .error .valueError ∧
    rootsB 0 = .error .indexError ∧ rootsB 1 = .error .valueError ∧
    rootsC 0 = .error .indexError ∧ rootsC 1 = .error .valueError ∧
    rootsD 0 = .error .indexError ∧ rootsD 1 = .error .indexError := ⟨rfl, rfl, rfl, rfl, rfl, rfl, rfl⟩

/-- C56: the Cartan matrix computed from the simple roots of `RootsWeightsA`. -/
theorem C56_cartan_A (r : ℕ) (hr : 1 ≤ r) : ∃ w, rootsA r = .ok w ∧ ∃ h : r = w.roots.length,
    ∀ i j, cartanMatrix w.roots (Fin.cast h i) (Fin.cast h j) = (CartanMatrix.A r i j : ℚ) := by
  obtain ⟨w, hw, hs, -⟩ := rootsA_ok r hr
  obtain ⟨h, hc⟩ := cartan_get r _ _ hs
  exact ⟨w, hw, h, fun i j => (hc i j).trans (cartan_A r i j)⟩

/-- C56: type B.  The code divides by the length of the row root, so its matrix is the transpose of
Bourbaki's (the convention of Kac). -/
theorem C56_cartan_B (r : ℕ) (hr : 2 ≤ r) : ∃ w, rootsB r = .ok w ∧ ∃ h : r = w.roots.length,
    ∀ i j, cartanMatrix w.roots (Fin.cast h i) (Fin.cast h j) = (CartanMatrix.B r j i : ℚ) := by
  obtain ⟨w, hw, hs, -⟩ := rootsB_ok r hr
  obtain ⟨h, hc⟩ := cartan_get r _ _ hs
  exact ⟨w, hw, h, fun i j => (hc i j).trans (cartan_B r i j)⟩

/-- C56: type C, transposed as for type B. -/
theorem C56_cartan_C (r : ℕ) (hr : 2 ≤ r) : ∃ w, rootsC r = .ok w ∧ ∃ h : r = w.roots.length,
    ∀ i j, cartanMatrix w.roots (Fin.cast h i) (Fin.cast h j) = (CartanMatrix.C r j i : ℚ) := by
  obtain ⟨w, hw, hs, -⟩ := rootsC_ok r hr
  obtain ⟨h, hc⟩ := cartan_get r _ _ hs
  exact ⟨w, hw, h, fun i j => (hc i j).trans (cartan_C r i j)⟩

/-- C56: type D. -/
theorem C56_cartan_D (r : ℕ) (hr : 2 ≤ r) : ∃ w, rootsD r = .ok w ∧ ∃ h : r = w.roots.length,
    ∀ i j, cartanMatrix w.roots (Fin.cast h i) (Fin.cast h j) = (CartanMatrix.D r i j : ℚ) := by
  obtain ⟨w, hw, hs, -⟩ := rootsD_ok r hr
  obtain ⟨h, hc⟩ := cartan_get r _ _ hs
  exact ⟨w, hw, h, fun i j => (hc i j).trans (cartan_D r hr i j)⟩

/-- C56: the fundamental weights of types A, B and C are dual to the simple coroots, and half the sum
of the positive roots is the sum of the fundamental weights. -/
theorem C56_fundamental_ABC (r : ℕ) :
    (1 ≤ r → ∃ w, rootsA r = .ok w ∧ DualWeights r w.fund w.roots ∧ weylVector w.pos = vsum w.fund) ∧
    (2 ≤ r → ∃ w, rootsB r = .ok w ∧ DualWeights r w.fund w.roots ∧ weylVector w.pos = vsum w.fund) ∧
    (2 ≤ r → ∃ w, rootsC r = .ok w ∧ DualWeights r w.fund w.roots ∧ weylVector w.pos = vsum w.fund) := by
  refine ⟨fun hr => ?_, fun hr => ?_, fun hr => ?_⟩
  · obtain ⟨w, hw, hs, hp, hf, -⟩ := rootsA_ok r hr
    refine ⟨w, hw, dual_of r _ _ _ _ hf hs fun i hi j hj => dual_A r i j hi hj _, ?_⟩
    rw [hp, hf]
    ext k
    have hk := k.2
    simp only [weylVector, Pi.smul_apply, vsum_pairs_sub, smul_eq_mul]
    have h1 := vsum_psum (m := r + 1) r k (by omega)
    rw [vsum_eq, sum_list_apply, List.map_map, sum_map_range'] at h1
    rw [vsum_eq, sum_list_apply, List.map_map, sum_map_range']
    simp only [Function.comp, Pi.sub_apply, Pi.smul_apply, smul_eq_mul, Finset.sum_sub_distrib] at h1 ⊢
    rw [h1]
    have h2 : ∀ x : ℕ, ((x + 1 : ℕ) : ℚ) / (r + 1) * psum (r + 1) (r + 1) k = (x + 1) / (r + 1) := by
      intro x; rw [psum_apply, if_pos hk]; push_cast; ring
    simp only [h2]
    rw [← Finset.sum_div, Finset.sum_add_distrib]
    have h3 : ∑ x ∈ Finset.range r, (x : ℚ) = r * (r - 1) / 2 := by
      clear * -
      induction r with
      | zero => simp
      | succ r ih => rw [Finset.sum_range_succ, ih]; push_cast; ring
    rw [h3]
    have h4 : (r : ℚ) + 1 ≠ 0 := by positivity
    simp
    field_simp
    ring
  · obtain ⟨w, hw, hs, hp, hf, -⟩ := rootsB_ok r hr
    refine ⟨w, hw, dual_of r _ _ _ _ hf hs fun i hi j hj => dual_B r i j hi hj, ?_⟩
    rw [hp, hf]
    ext k
    have hk := k.2
    have h1 := vsum_smul_e (m := r) 1 k
    simp only [one_smul] at h1
    have h1' : vsum ((List.range r).map (e r)) k = 1 := h1
    simp only [weylVector, Pi.smul_apply, vsum_append, Pi.add_apply, vsum_pairs_add, vsum_pairs_sub, smul_eq_mul, h1']
    have h2 : (List.range r).map (fB r) = (List.range (r - 1)).map (fun i => psum r (i + 1)) ++ [(1 / 2 : ℚ) • psum r r] := by
      rw [range_append_last r (by omega)]; rfl
    rw [h2, vsum_append, Pi.add_apply, vsum_psum (r - 1) k (by omega)]
    simp only [vsum, List.foldl_cons, List.foldl_nil, zero_add, Pi.smul_apply, psum_apply, if_pos hk, smul_eq_mul]
    rw [Nat.cast_sub (by omega)]; push_cast; ring
  · obtain ⟨w, hw, hs, hp, hf, -⟩ := rootsC_ok r hr
    refine ⟨w, hw, dual_of r _ _ _ _ hf hs fun i hi j hj => dual_C r i j hi hj, ?_⟩
    rw [hp, hf]
    ext k
    have hk := k.2
    simp only [weylVector, Pi.smul_apply, vsum_append, Pi.add_apply, vsum_pairs_add, vsum_pairs_sub, smul_eq_mul,
      vsum_smul_e, vsum_psum r k (by omega)]
    ring

/-- C56 (type D, what holds): half the sum of the positive roots is the Weyl vector (its Dynkin labels
are all 1); for rank 2 the fundamental weights are right; for rank `≥ 3` the correct weights are the
first `rank - 1` entries of the shipped list and its last entry. -/
theorem C56_fundamental_D_partial (r : ℕ) (hr : 2 ≤ r) : ∃ w, rootsD r = .ok w ∧
    (∀ j < r, 2 * (weylVector w.pos ⬝ᵥ w.roots.getD j 0) / (w.roots.getD j 0 ⬝ᵥ w.roots.getD j 0) = 1) ∧
    (r = 2 → DualWeights r w.fund w.roots) ∧
    DualWeights r (w.fund.take (r - 1) ++ w.fund.getLast?.toList) w.roots := by
  obtain ⟨w, hw, hs, hp, -, h2, h3⟩ := rootsD_ok r hr
  have hdual : DualWeights r ((List.range r).map (fD r)) w.roots :=
    dual_of r _ _ _ _ rfl hs fun i hi j hj => dual_D r i j hr hi hj
  have hsplit : (List.range r).map (fD r) = (List.range (r - 1)).map (fD r) ++ [fD r (r - 1)] := by
    obtain ⟨k, rfl⟩ : ∃ k, r = k + 1 := ⟨r - 1, by omega⟩
    rw [List.range_succ]; simp
  refine ⟨w, hw, fun j hj => ?_, fun h => ?_, ?_⟩
  · rw [hs, getD_map_range _ _ _ hj, sD_self r j hr hj]
    have hρ : ∀ k (hk : k < r), weylVector w.pos ⬝ᵥ e r k = r - 1 - k := by
      intro k hk
      rw [dot_e _ hk, hp]
      simp only [weylVector, Pi.smul_apply, vsum_append, Pi.add_apply, vsum_pairs_add', vsum_pairs_sub, smul_eq_mul]
      ring
    rw [sD]
    split_ifs with h
    · rw [dotProduct_sub, hρ _ hj, hρ _ h]; push_cast; ring
    · rw [dotProduct_add, hρ _ (by omega), hρ _ (by omega), Nat.cast_sub (by omega), Nat.cast_sub (by omega)]
      push_cast; ring
  · rw [h2 h]; subst h; exact hdual
  · rcases (by omega : r = 2 ∨ 3 ≤ r) with h | h
    · have : w.fund.take (r - 1) ++ w.fund.getLast?.toList = (List.range r).map (fD r) := by
        rw [h2 h]; subst h; simp [List.range_succ]
      rw [this]; exact hdual
    · have : w.fund.take (r - 1) ++ w.fund.getLast?.toList = (List.range r).map (fD r) := by
        rw [h3 h, hsplit]
        rw [List.take_left' (by simp)]
        congr 1
        rw [← List.append_assoc, List.getLast?_append]
        simp
      rw [this]; exact hdual

/-- C56 finding: for type D with rank `≥ 3` the list of fundamental weights has `2 (rank - 1)` entries
instead of `rank`; its entry number `rank - 1` is the first fundamental weight again, so the list is not
dual to the simple coroots. -/
theorem C56_fundamental_D_wrong (r : ℕ) (hr : 3 ≤ r) : ∃ w, rootsD r = .ok w ∧
    w.fund.length = 2 * (r - 1) ∧ w.fund.length ≠ r ∧
    w.fund.getD (r - 1) 0 = w.fund.getD 0 0 ∧
    2 * (w.fund.getD (r - 1) 0 ⬝ᵥ w.roots.getD (r - 1) 0) /
      (w.roots.getD (r - 1) 0 ⬝ᵥ w.roots.getD (r - 1) 0) = 0 := by
  obtain ⟨w, hw, hs, hp, -, -, h3⟩ := rootsD_ok r (by omega)
  have hf := h3 hr
  have h0 : w.fund.getD 0 0 = fD r 0 := by
    rw [hf, List.getD_append _ _ _ _ (by simp; omega), getD_map_range _ _ _ (by omega)]
  have h1 : w.fund.getD (r - 1) 0 = fD r 0 := by
    rw [hf, List.getD_append_right _ _ _ _ (by simp), List.getD_append _ _ _ _ (by simp; omega)]
    simp only [List.length_map, List.length_range, Nat.sub_self]
    rw [getD_map_range _ _ _ (by omega)]
  refine ⟨w, hw, ?_, ?_, h1.trans h0.symm, ?_⟩
  · rw [hf]; simp; omega
  · rw [hf]; simp; omega
  · rw [h1, hs, getD_map_range _ _ _ (by omega), dual_D r 0 (r - 1) (by omega) (by omega) (by omega), if_neg (by omega)]

/-- C56: the positive roots of type A are, without repetition, the integral vectors of squared length 2
and sum 0 whose first non-zero coordinate is positive. -/
theorem C56_positive_roots_A (r : ℕ) (hr : 1 ≤ r) : ∃ w, rootsA r = .ok w ∧ w.pos.Nodup ∧
    ∀ v, v ∈ w.pos ↔ RootA v ∧ LexPos v := by
  obtain ⟨w, hw, -, hp, -⟩ := rootsA_ok r hr
  refine ⟨w, hw, by rw [hp]; exact nodup_sub, fun v => ?_⟩
  rw [hp]
  constructor
  · intro h
    obtain ⟨⟨h1, h2⟩, h3⟩ := (mem_two v).1 (.inr h)
    refine ⟨⟨h1, h2, ?_⟩, h3⟩
    obtain ⟨i, j, hj, hi, rfl⟩ := (mem_pairs _ _).1 h
    simp only [Pi.sub_apply, Finset.sum_sub_distrib, sum_e hi, sum_e (hj.trans hi), sub_self]
  · rintro ⟨⟨h1, h2, h4⟩, h3⟩
    rcases (mem_two v).2 ⟨⟨h1, h2⟩, h3⟩ with h | h
    · exfalso
      obtain ⟨i, j, hj, hi, rfl⟩ := (mem_pairs _ _).1 h
      simp only [Pi.add_apply, Finset.sum_add_distrib, sum_e hi, sum_e (hj.trans hi)] at h4
      norm_num at h4
    · exact h

/-- C56: type B, squared length 1 or 2. -/
theorem C56_positive_roots_B (r : ℕ) (hr : 2 ≤ r) : ∃ w, rootsB r = .ok w ∧ w.pos.Nodup ∧
    ∀ v, v ∈ w.pos ↔ RootB v ∧ LexPos v := by
  obtain ⟨w, hw, -, hp, -⟩ := rootsB_ok r hr
  have he : (List.range r).map (e r) = (List.range r).map fun i => (1 : ℚ) • e r i := by simp
  rw [he] at hp
  refine ⟨w, hw, by rw [hp]; exact nodup_all 1 (by norm_num), fun v => ?_⟩
  rw [hp, List.mem_append, List.mem_append, mem_two, mem_one 1 (by norm_num)]
  simp only [one_smul, RootB]
  constructor
  · rintro (⟨⟨h1, h2⟩, h3⟩ | ⟨⟨w, h1, h2, rfl⟩, h3⟩)
    · exact ⟨⟨h1, .inr h2⟩, h3⟩
    · exact ⟨⟨h1, .inl h2⟩, h3⟩
  · rintro ⟨⟨h1, h2 | h2⟩, h3⟩
    · exact .inr ⟨⟨v, h1, h2, rfl⟩, h3⟩
    · exact .inl ⟨⟨h1, h2⟩, h3⟩

/-- C56: type C, squared length 2, and twice the unit vectors. -/
theorem C56_positive_roots_C (r : ℕ) (hr : 2 ≤ r) : ∃ w, rootsC r = .ok w ∧ w.pos.Nodup ∧
    ∀ v, v ∈ w.pos ↔ RootC v ∧ LexPos v := by
  obtain ⟨w, hw, -, hp, -⟩ := rootsC_ok r hr
  refine ⟨w, hw, by rw [hp]; exact nodup_all 2 (by norm_num), fun v => ?_⟩
  rw [hp, List.mem_append, List.mem_append, mem_two, mem_one 2 (by norm_num), RootC, or_and_right]

/-- C56: type D, squared length 2. -/
theorem C56_positive_roots_D (r : ℕ) (hr : 2 ≤ r) : ∃ w, rootsD r = .ok w ∧ w.pos.Nodup ∧
    ∀ v, v ∈ w.pos ↔ RootD v ∧ LexPos v := by
  obtain ⟨w, hw, -, hp, -⟩ := rootsD_ok r hr
  have hc : (fun i j => e r i + e r j) = fun i j => e r j + e r i := by
    funext i j; exact add_comm _ _
  rw [hc] at hp
  refine ⟨w, hw, by rw [hp]; exact nodup_add_sub, fun v => ?_⟩
  rw [hp, List.mem_append, mem_two, RootD]

/-- C56: the Coxeter numbers `2 len(PositiveRoots) / rank`. -/
theorem C56_coxeter (r : ℕ) :
    (1 ≤ r → ∃ w, rootsA r = .ok w ∧ coxeterNumber w.pos r = r + 1) ∧
    (2 ≤ r → ∃ w, rootsB r = .ok w ∧ coxeterNumber w.pos r = 2 * r) ∧
    (2 ≤ r → ∃ w, rootsC r = .ok w ∧ coxeterNumber w.pos r = 2 * r) ∧
    (2 ≤ r → ∃ w, rootsD r = .ok w ∧ coxeterNumber w.pos r = 2 * (r - 1)) := by
  have hl : ∀ n : ℕ, ((n * (n - 1) / 2 : ℕ) : ℚ) = n * (n - 1) / 2 := by
    intro n
    rcases n with _ | n
    · simp
    · rw [Nat.cast_div (by rw [Nat.add_sub_cancel, mul_comm]; exact (Nat.even_mul_succ_self n).two_dvd) (by norm_num)]
      push_cast; ring
  refine ⟨fun hr => ?_, fun hr => ?_, fun hr => ?_, fun hr => ?_⟩
  · obtain ⟨w, hw, -, hp, -⟩ := rootsA_ok r hr
    refine ⟨w, hw, ?_⟩
    have h0 : (r : ℚ) ≠ 0 := by exact_mod_cast (by omega : r ≠ 0)
    rw [coxeterNumber, hp, length_pairs, hl]
    push_cast; field_simp; ring
  · obtain ⟨w, hw, -, hp, -⟩ := rootsB_ok r hr
    refine ⟨w, hw, ?_⟩
    have h0 : (r : ℚ) ≠ 0 := by exact_mod_cast (by omega : r ≠ 0)
    rw [coxeterNumber, hp]
    simp only [List.length_append, length_pairs, List.length_map, List.length_range, Nat.cast_add, hl]
    field_simp; ring
  · obtain ⟨w, hw, -, hp, -⟩ := rootsC_ok r hr
    refine ⟨w, hw, ?_⟩
    have h0 : (r : ℚ) ≠ 0 := by exact_mod_cast (by omega : r ≠ 0)
    rw [coxeterNumber, hp]
    simp only [List.length_append, length_pairs, List.length_map, List.length_range, Nat.cast_add, hl]
    field_simp; ring
  · obtain ⟨w, hw, -, hp, -⟩ := rootsD_ok r hr
    refine ⟨w, hw, ?_⟩
    have h0 : (r : ℚ) ≠ 0 := by exact_mod_cast (by omega : r ≠ 0)
    rw [coxeterNumber, hp]
    simp only [List.length_append, length_pairs, Nat.cast_add, hl]
    field_simp; ring

/-- C56: the maximal root of types A, B, C is a positive root and lies above every positive root (the
difference pairs non-negatively with every fundamental weight, i.e. is a sum of simple roots with
non-negative coefficients). -/
theorem C56_max_root (r : ℕ) :
    (1 ≤ r → ∃ w, rootsA r = .ok w ∧ w.max ∈ w.pos ∧ ∀ v ∈ w.pos, ∀ f ∈ w.fund, 0 ≤ f ⬝ᵥ (w.max - v)) ∧
    (2 ≤ r → ∃ w, rootsB r = .ok w ∧ w.max ∈ w.pos ∧ ∀ v ∈ w.pos, ∀ f ∈ w.fund, 0 ≤ f ⬝ᵥ (w.max - v)) ∧
    (2 ≤ r → ∃ w, rootsC r = .ok w ∧ w.max ∈ w.pos ∧ ∀ v ∈ w.pos, ∀ f ∈ w.fund, 0 ≤ f ⬝ᵥ (w.max - v)) := by
  refine ⟨fun hr => ?_, fun hr => ?_, fun hr => ?_⟩
  · obtain ⟨w, hw, -, hp, hf, hm⟩ := rootsA_ok r hr
    refine ⟨w, hw, ?_, ?_⟩
    · rw [hm, hp]; exact (mem_pairs _ _).2 ⟨r, 0, by omega, by omega, rfl⟩
    · intro v hv f hfm
      rw [hp] at hv
      obtain ⟨i, j, h1, h2, rfl⟩ := (mem_pairs _ _).1 hv
      rw [hf] at hfm
      simp only [List.mem_map, List.mem_range] at hfm
      obtain ⟨a, ha, rfl⟩ := hfm
      rw [hm]
      simp only [sub_dotProduct, dotProduct_sub, smul_dotProduct, smul_eq_mul, pe', ee']
      split_ifs <;> first | omega | (norm_num; done) | skip
  · obtain ⟨w, hw, -, hp, hf, hm⟩ := rootsB_ok r hr
    refine ⟨w, hw, ?_, ?_⟩
    · rw [hm, hp]
      exact List.mem_append_left _ (List.mem_append_left _ ((mem_pairs _ _).2 ⟨1, 0, by omega, by omega, rfl⟩))
    · have key : ∀ v ∈ w.pos, ∀ a, 1 ≤ a → 0 ≤ psum r a ⬝ᵥ (w.max - v) := by
        intro v hv a ha
        rw [hp] at hv
        rw [hm]
        rcases List.mem_append.1 hv with hv | hv
        · rcases List.mem_append.1 hv with hv | hv
          · obtain ⟨i, j, h1, h2, rfl⟩ := (mem_pairs _ _).1 hv
            simp only [dotProduct_sub, dotProduct_add, pe']
            split_ifs <;> first | omega | norm_num
          · obtain ⟨i, j, h1, h2, rfl⟩ := (mem_pairs _ _).1 hv
            simp only [dotProduct_sub, dotProduct_add, pe']
            split_ifs <;> first | omega | norm_num
        · simp only [List.mem_map, List.mem_range] at hv
          obtain ⟨i, hi, rfl⟩ := hv
          simp only [dotProduct_sub, dotProduct_add, pe']
          split_ifs <;> first | omega | norm_num
      intro v hv f hfm
      rw [hf] at hfm
      simp only [List.mem_map, List.mem_range] at hfm
      obtain ⟨a, ha, rfl⟩ := hfm
      rw [fB]
      split_ifs
      · exact key v hv _ (by omega)
      · rw [smul_dotProduct]
        have := key v hv r (by omega)
        simp only [smul_eq_mul]; linarith
  · obtain ⟨w, hw, -, hp, hf, hm⟩ := rootsC_ok r hr
    refine ⟨w, hw, ?_, ?_⟩
    · rw [hm, hp]
      exact List.mem_append_right _ (List.mem_map.2 ⟨0, by simp; omega, rfl⟩)
    · intro v hv f hfm
      rw [hf] at hfm
      simp only [List.mem_map, List.mem_range] at hfm
      obtain ⟨a, ha, rfl⟩ := hfm
      rw [hp] at hv
      rw [hm]
      rcases List.mem_append.1 hv with hv | hv
      · rcases List.mem_append.1 hv with hv | hv
        · obtain ⟨i, j, h1, h2, rfl⟩ := (mem_pairs _ _).1 hv
          simp only [dotProduct_sub, dotProduct_add, dotProduct_smul, pe', smul_eq_mul]
          split_ifs <;> first | omega | norm_num
        · obtain ⟨i, j, h1, h2, rfl⟩ := (mem_pairs _ _).1 hv
          simp only [dotProduct_sub, dotProduct_add, dotProduct_smul, pe', smul_eq_mul]
          split_ifs <;> first | omega | norm_num
      · simp only [List.mem_map, List.mem_range] at hv
        obtain ⟨i, hi, rfl⟩ := hv
        simp only [dotProduct_sub, dotProduct_smul, pe', smul_eq_mul]
        split_ifs <;> first | omega | norm_num

/-- C56: on type A the Weyl dimension formula is the dimension used by the class `SUN` (C43): for every
valid label it is the number of Gelfand-Tsetlin patterns. -/
theorem C56_weyl_dim_SUN (S : List ℤ) (hS : IsWeight S) (hl : 2 ≤ S.length) :
    ∃ w, rootsA (S.length - 1) = .ok w ∧
      SUN.dim S = .ok (SU2.trunc (weylDim (fun k => (S.getD k 0 : ℚ)) w.pos (weylVector w.pos))) := by
  obtain ⟨n, hn⟩ : ∃ n, S.length = n + 1 := ⟨S.length - 1, by omega⟩
  obtain ⟨w, hw, -, hp, -⟩ := rootsA_ok (S.length - 1) (by omega)
  refine ⟨w, hw, ?_⟩
  rw [hp, weylDim_A, Nat.sub_add_cancel (by omega), ← dimProd_prod, SUN.dim_eq S hS,
    SU2Real.trunc_nat (SUN.dimProd_eq S hS)]

example : IsWeight [2, 1, 0] := by decide
example : LexPos (![0, 1, -1] : Fin 3 → ℚ) ∧ RootA (![0, 1, -1] : Fin 3 → ℚ) := by
  refine ⟨⟨1, by decide, by decide⟩, fun k => ⟨![0, 1, -1] k, by fin_cases k <;> simp⟩, by decide +kernel, by decide +kernel⟩

end LieNN.Props
