import Verif.Proofs.Real
import Verif.Proofs.RepExamples
/-!
# C32: `is_real` and `make_explicitly_real`
-/
namespace LieNN.Props

open Matrix Spec Examples

variable {n h d : ℕ} {eigh : EighFn}

/-- C32: `is_real` answers `True` exactly when there is a non-zero matrix `S` with
`conj(ρ) S = S ρ`. -/
theorem C32_is_real (he : EighSpec eigh) (hn : n + h ≠ 0) (r : Rep n h d) (hd : d * d < 10 ^ 8)
    (hgap : Gap (1 / 10 ^ 4) (icobMatrix r.conjugate.allGens r.allGens)) :
    ∃ b, r.isReal eigh = .ok b ∧ (b = true ↔ ∃ S : Matrix (Fin d) (Fin d) ℂ, S ≠ 0 ∧
      (∀ a, (r.X a).map (starRingEnd ℂ) * S = S * r.X a) ∧
      (∀ a, (r.H a).map (starRingEnd ℂ) * S = S * r.H a)) := by
  obtain ⟨L, h1, h2, h3, _⟩ := rep_infer_spec he hn r r.conjugate
    (fun _ _ _ => isClose_refl (by positivity) (by positivity) _) hd hgap
  refine ⟨decide (0 < L.length), by unfold Rep.isReal; rw [h1]; rfl, ?_⟩
  rw [decide_eq_true_iff, h3, Module.finrank_pos_iff, Submodule.nontrivial_iff_ne_bot,
    Submodule.ne_bot_iff]
  constructor
  · rintro ⟨S, hS, h0⟩
    have := allGens_iff (r₁ := r.conjugate) (r₂ := r) S |>.1 hS
    exact ⟨S, h0, this.1, this.2⟩
  · rintro ⟨S, h0, hX, hH⟩
    exact ⟨S, allGens_iff (r₁ := r.conjugate) (r₂ := r) S |>.2 ⟨hX, hH⟩, h0⟩

/-- C32: `is_real` answers `True` for every representation (of positive dimension) that has a real
form. -/
theorem C32_is_real_of_real_form (he : EighSpec eigh) (hn : n + h ≠ 0) (r : Rep n h d)
    (hd : d * d < 10 ^ 8) (hd0 : 0 < d)
    (hgap : Gap (1 / 10 ^ 4) (icobMatrix r.conjugate.allGens r.allGens))
    (hr : HasRealForm r.allGens) : r.isReal eigh = .ok true := by
  obtain ⟨b, h1, h2⟩ := C32_is_real he hn r hd hgap
  rw [h1]
  obtain ⟨Q, hQ, hre⟩ := hr
  obtain ⟨hu, hS⟩ := intertwiner_of_realForm hQ hre
  have : Nonempty (Fin d) := ⟨⟨0, hd0⟩⟩
  have hS' := allGens_iff (r₁ := r.conjugate) (r₂ := r) _ |>.1
    (fun a => by rw [conjugate_allGens]; exact hS a)
  congr 1
  exact h2.2 ⟨_, hu.ne_zero, hS'.1, hS'.2⟩

/-- C32: whatever `make_explicitly_real` returns for an irreducible representation is an equivalent
representation (`Q ρ Q⁻¹`) whose continuous generators are real up to `1e-10` in norm. -/
theorem C32_make_explicitly_real_sound (he : EighSpec eigh) (hn : n + h ≠ 0) (r : Rep n h d)
    (hd : d * d < 10 ^ 8)
    (hgap : Gap (1 / 10 ^ 4) (icobMatrix r.conjugate.allGens r.allGens))
    (hirr : IrreducibleFamily r.allGens)
    (sqrtm pinv : Matrix (Fin d) (Fin d) ℂ → Matrix (Fin d) (Fin d) ℂ)
    (hsq : SqrtmSpec sqrtm) (hpinv : ∀ Q, IsPinv Q (pinv Q)) (r' : Rep n h d)
    (hrun : r.makeExplicitlyReal eigh sqrtm pinv = .ok r') :
    (∃ Q : Matrix (Fin d) (Fin d) ℂ, IsUnit Q ∧ r' = r.changeBasis Q Q⁻¹) ∧
    ∑ a, ∑ i, ∑ j, (r'.X a i j).im ^ 2 ≤ (1 / 10 ^ 10) ^ 2 := by
  obtain ⟨L, h1, h2, h3, h4⟩ := rep_infer_spec he hn r r.conjugate
    (fun _ _ _ => isClose_refl (by positivity) (by positivity) _) hd hgap
  unfold Rep.makeExplicitlyReal at hrun
  rw [h1] at hrun
  simp only [bind, Except.bind] at hrun
  obtain ⟨S, rfl⟩ : ∃ S, L = [S] := by
    rcases L with _ | ⟨S, _ | ⟨S', L⟩⟩
    · cases hrun
    · exact ⟨S, rfl⟩
    · cases hrun
  simp only at hrun
  by_cases him : 1 / 10 ^ 10 < imagNorm (r.changeBasis (sqrtm S) (pinv (sqrtm S))).X
  · rw [if_pos him] at hrun; cases hrun
  rw [if_neg him] at hrun
  simp only [pure, Except.pure, Except.ok.injEq] at hrun
  have hS : S ∈ intertwiners r.conjugate.allGens r.allGens := by
    rw [← h2]; exact Submodule.subset_span (by simp)
  have hS0 : S ≠ 0 := by
    rintro rfl
    have := h4 ⟨0, by simp⟩ ⟨0, by simp⟩
    simp at this
    exact hirr.1.ne' (by exact_mod_cast this.symm)
  have hu := isUnit_of_intertwiner hirr hS hS0
  obtain ⟨hRR, -⟩ := hsq S hu
  have hR : IsUnit (sqrtm S) := isUnit_of_mul_isUnit_left (hRR.symm ▸ hu)
  have hi : pinv (sqrtm S) = (sqrtm S)⁻¹ := (isPinv_inv (hpinv _) hR)
  rw [hi] at hrun him
  refine ⟨⟨sqrtm S, hR, hrun.symm⟩, ?_⟩
  rw [← hrun]
  exact (Real.sqrt_le_left (by positivity)).1 (not_lt.1 him)

/-- C32: for an irreducible unitary representation that has a real form, `make_explicitly_real`
succeeds, and all generators it returns (continuous and discrete) are exactly real. -/
theorem C32_make_explicitly_real_complete (he : EighSpec eigh) (hn : n + h ≠ 0) (r : Rep n h d)
    (hd : d * d < 10 ^ 8)
    (hgap : Gap (1 / 10 ^ 4) (icobMatrix r.conjugate.allGens r.allGens))
    (hirr : IrreducibleFamily r.allGens) (hunit : IsUnitaryRep r) (hreal : HasRealForm r.allGens)
    (sqrtm pinv : Matrix (Fin d) (Fin d) ℂ → Matrix (Fin d) (Fin d) ℂ)
    (hsq : SqrtmSpec sqrtm) (hpinv : ∀ Q, IsPinv Q (pinv Q)) :
    ∃ (r' : Rep n h d) (Q : Matrix (Fin d) (Fin d) ℂ),
      r.makeExplicitlyReal eigh sqrtm pinv = .ok r' ∧ IsUnit Q ∧ r' = r.changeBasis Q Q⁻¹ ∧
      RealEntries r'.X ∧ RealEntries r'.H := by
  obtain ⟨L, h1, h2, h3, h4⟩ := rep_infer_spec he hn r r.conjugate
    (fun _ _ _ => isClose_refl (by positivity) (by positivity) _) hd hgap
  have hne : Nonempty (Fin d) := ⟨⟨0, hirr.1⟩⟩
  obtain ⟨Q, hQ, hre⟩ := hreal
  obtain ⟨hTu, hT⟩ := intertwiner_of_realForm hQ hre
  have hrank := finrank_conj_of_irreducible (Z := r.conjugate.allGens) hirr
    (fun a => by rw [conjugate_allGens]; exact hT a) hTu.ne_zero
  rw [hrank] at h3
  obtain ⟨S, rfl⟩ := List.length_eq_one_iff.1 h3
  have hS : S ∈ intertwiners r.conjugate.allGens r.allGens := by
    rw [← h2]; exact Submodule.subset_span (by simp)
  have hSc : ∀ a, cj (r.allGens a) * S = S * r.allGens a := fun a => by
    rw [← conjugate_allGens]; exact hS a
  have htr : (Sᴴ * S).trace = d := by
    have := h4 ⟨0, by simp⟩ ⟨0, by simp⟩
    simpa using this
  have hS0 : S ≠ 0 := by
    rintro rfl
    simp at htr
    exact hirr.1.ne' (by exact_mod_cast htr.symm)
  have hY : ∀ a, (r.allGens a)ᴴ = -r.allGens a ∨ r.allGens a * (r.allGens a)ᴴ = 1 := by
    intro a
    refine Fin.addCases (fun a => Or.inl ?_) (fun a => Or.inr ?_) a
    · simp only [Rep.allGens, Fin.append_left]; exact hunit.2 a
    · simp only [Rep.allGens, Fin.append_right]; exact hunit.1 a
  have hSS := intertwiner_unitary hirr hY hSc htr
  obtain ⟨c, hc⟩ := intertwiner_proportional hirr hT hTu.ne_zero hSc
  have hsym : Sᵀ = S := by
    refine intertwiner_symmetric hSS hS0 (x := ‖c‖ ^ 2) (by positivity) ?_
    rw [hc]; exact cj_mul_of_realForm hQ c
  have hu := isUnit_of_intertwiner hirr hSc hS0
  obtain ⟨hRR, p, hp⟩ := hsq S hu
  have hR : IsUnit (sqrtm S) := isUnit_of_mul_isUnit_left (hRR.symm ▸ hu)
  have hi : pinv (sqrtm S) = (sqrtm S)⁻¹ := (isPinv_inv (hpinv _) hR)
  have hall : ∀ a i j, ((r.changeBasis (sqrtm S) (sqrtm S)⁻¹).allGens a i j).im = 0 := by
    intro a
    apply cj_eq_self_iff.1
    rw [changeBasis_allGens]
    exact sqrt_real hSS hsym (hSc a) hRR hp
  have hX : RealEntries (r.changeBasis (sqrtm S) (sqrtm S)⁻¹).X := by
    intro a i j
    have := hall (Fin.castAdd h a) i j
    simpa only [Rep.allGens, Fin.append_left] using this
  have hH : RealEntries (r.changeBasis (sqrtm S) (sqrtm S)⁻¹).H := by
    intro a i j
    have := hall (Fin.natAdd n a) i j
    simpa only [Rep.allGens, Fin.append_right] using this
  refine ⟨_, sqrtm S, ?_, hR, rfl, hX, hH⟩
  unfold Rep.makeExplicitlyReal
  rw [h1]
  have him : imagNorm (r.changeBasis (sqrtm S) (sqrtm S)⁻¹).X = 0 := by
    unfold imagNorm
    rw [Finset.sum_eq_zero, Real.sqrt_zero]
    intro a _
    refine Finset.sum_eq_zero fun i _ => Finset.sum_eq_zero fun j _ => ?_
    rw [hX a i j]; simp
  simp only [bind, Except.bind, hi, him]
  rw [if_neg (by norm_num)]
  rfl

/-! ### Non-vacuity: the vector representation of O(2) -/

/-- The rotation generator and a reflection. -/
noncomputable def o2 : Rep 1 1 2 where
  A := fun _ _ _ => 0
  X := fun _ => !![0, -1; 1, 0]
  H := fun _ => !![1, 0; 0, -1]

theorem o2_gens : o2.allGens 0 = !![0, -1; 1, 0] ∧ o2.allGens 1 = !![1, 0; 0, -1] := ⟨rfl, rfl⟩

theorem o2_cgens : o2.conjugate.allGens = o2.allGens := by
  funext a
  rw [conjugate_allGens]
  fin_cases a <;> ext i j <;> fin_cases i <;> fin_cases j <;> simp [o2_gens]

/-- Non-vacuity of `C32_make_explicitly_real_complete` (and `_sound`, `C32_is_real_of_real_form`). -/
example : Gap (1 / 10 ^ 4) (icobMatrix o2.conjugate.allGens o2.allGens) ∧
    IrreducibleFamily o2.allGens ∧ IsUnitaryRep o2 ∧ HasRealForm o2.allGens := by
  have hunit : IsUnitaryRep o2 := by
    refine ⟨fun a => ?_, fun a => ?_⟩ <;> ext i j <;> fin_cases i <;> fin_cases j <;>
      simp [o2, Matrix.mul_apply, Fin.sum_univ_two]
  refine ⟨?_, ?_, hunit, 1, isUnit_one, ?_⟩
  · rw [o2_cgens]
    apply gap_icob
    intro μ S hS hev hμ
    have hH0 : (o2.allGens 0)ᴴ = !![0, 1; -1, 0] := by
      rw [o2_gens.1]; ext i j; fin_cases i <;> fin_cases j <;> simp
    have hH1 : (o2.allGens 1)ᴴ = !![1, 0; 0, -1] := by
      rw [o2_gens.2]; ext i j; fin_cases i <;> fin_cases j <;> simp
    rw [Fin.sum_univ_two, hH0, hH1, Matrix.eta_fin_two S, o2_gens.1, o2_gens.2] at hev
    have h00 := congrFun (congrFun hev 0) 0
    have h01 := congrFun (congrFun hev 0) 1
    have h10 := congrFun (congrFun hev 1) 0
    have h11 := congrFun (congrFun hev 1) 1
    simp at h00 h01 h10 h11
    by_contra hlt
    push Not at hlt
    apply hS
    have c0 : (μ : ℂ) ≠ 0 := by exact_mod_cast hμ.ne'
    have c4 : (μ : ℂ) - 4 ≠ 0 := by
      intro h; have : μ = 4 := by exact_mod_cast sub_eq_zero.1 h
      norm_num at hlt; linarith
    have c8 : (μ : ℂ) - 8 ≠ 0 := by
      intro h; have : μ = 8 := by exact_mod_cast sub_eq_zero.1 h
      norm_num at hlt; linarith
    have e1 : S 0 0 + S 1 1 = 0 := by
      apply (mul_eq_zero.1 (show (μ : ℂ) * (S 0 0 + S 1 1) = 0 by
        linear_combination -h00 - h11)).resolve_left c0
    have e2 : S 0 0 - S 1 1 = 0 := by
      apply (mul_eq_zero.1 (show ((μ : ℂ) - 4) * (S 0 0 - S 1 1) = 0 by
        linear_combination -h00 + h11)).resolve_left c4
    have e3 : S 0 1 + S 1 0 = 0 := by
      apply (mul_eq_zero.1 (show ((μ : ℂ) - 8) * (S 0 1 + S 1 0) = 0 by
        linear_combination -h01 - h10)).resolve_left c8
    have e4 : S 0 1 - S 1 0 = 0 := by
      apply (mul_eq_zero.1 (show ((μ : ℂ) - 4) * (S 0 1 - S 1 0) = 0 by
        linear_combination -h01 + h10)).resolve_left c4
    ext i j
    fin_cases i <;> fin_cases j <;> simp
    · linear_combination (e1 + e2) / 2
    · linear_combination (e3 + e4) / 2
    · linear_combination (e3 - e4) / 2
    · linear_combination (e1 - e2) / 2
  · apply irreducible_of_finrank
    · intro a
      refine Fin.addCases (fun a => Or.inl ?_) (fun a => Or.inr ?_) a
      · simp only [Rep.allGens, Fin.append_left]; exact hunit.2 a
      · simp only [Rep.allGens, Fin.append_right]; exact mul_eq_one_comm.1 (hunit.1 a)
    · rw [finrank_eq_one_iff']
      refine ⟨⟨1, one_mem_intertwiners _⟩, fun h0 => one_ne_zero (congrArg Subtype.val h0), ?_⟩
      rintro ⟨S, hS⟩
      refine ⟨S 0 0, Subtype.ext ?_⟩
      have h0 := hS 0
      have h1 := hS 1
      rw [Matrix.eta_fin_two S, o2_gens.1] at h0
      rw [Matrix.eta_fin_two S, o2_gens.2] at h1
      have a01 := congrFun (congrFun h0 0) 1
      have b01 := congrFun (congrFun h1 0) 1
      have b10 := congrFun (congrFun h1 1) 0
      simp at a01 b01 b10
      have e01 : S 0 1 = 0 := by linear_combination b01 / 2
      have e10 : S 1 0 = 0 := by linear_combination -b10 / 2
      ext i j
      fin_cases i <;> fin_cases j <;> simp [e01, e10, a01]
  · intro a i j
    simp only [Matrix.one_mul, inv_one, Matrix.mul_one]
    fin_cases a
    · show (o2.allGens 0 i j).im = 0
      rw [o2_gens.1]
      fin_cases i <;> fin_cases j <;> simp
    · show (o2.allGens 1 i j).im = 0
      rw [o2_gens.2]
      fin_cases i <;> fin_cases j <;> simp

/-! ### The defects -/

/-- There are no real `2 × 2` matrices with `A² = B² = -1`, `A B = -B A`. -/
theorem no_real_quaternions (A B : Matrix (Fin 2) (Fin 2) ℂ) (hA : ∀ i j, (A i j).im = 0)
    (hB : ∀ i j, (B i j).im = 0) (hAA : A * A = -1) (hBB : B * B = -1) (hAB : A * B = -(B * A)) :
    False := by
  have eA : ∀ i j, A i j = ((A i j).re : ℂ) := fun i j => by
    apply Complex.ext <;> simp [hA]
  have eB : ∀ i j, B i j = ((B i j).re : ℂ) := fun i j => by
    apply Complex.ext <;> simp [hB]
  generalize hgA : (fun i j => (A i j).re) = a at eA
  generalize hgB : (fun i j => (B i j).re) = b at eB
  replace eA : ∀ i j, A i j = (a i j : ℂ) := fun i j => by rw [← hgA]; exact eA i j
  replace eB : ∀ i j, B i j = (b i j : ℂ) := fun i j => by rw [← hgB]; exact eB i j
  have f := fun i j => congrFun (congrFun hAA i) j
  have g := fun i j => congrFun (congrFun hBB i) j
  have k := fun i j => congrFun (congrFun hAB i) j
  simp only [Matrix.mul_apply, Fin.sum_univ_two, Matrix.neg_apply, eA, eB] at f g k
  have f00 : a 0 0 * a 0 0 + a 0 1 * a 1 0 = -1 := by
    have := f 0 0; simp at this; exact_mod_cast this
  have f01 : a 0 0 * a 0 1 + a 0 1 * a 1 1 = 0 := by
    have := f 0 1; simp at this; exact_mod_cast this
  have f10 : a 1 0 * a 0 0 + a 1 1 * a 1 0 = 0 := by
    have := f 1 0; simp at this; exact_mod_cast this
  have g00 : b 0 0 * b 0 0 + b 0 1 * b 1 0 = -1 := by
    have := g 0 0; simp at this; exact_mod_cast this
  have g01 : b 0 0 * b 0 1 + b 0 1 * b 1 1 = 0 := by
    have := g 0 1; simp at this; exact_mod_cast this
  have g10 : b 1 0 * b 0 0 + b 1 1 * b 1 0 = 0 := by
    have := g 1 0; simp at this; exact_mod_cast this
  have k00 : a 0 0 * b 0 0 + a 0 1 * b 1 0 = -(b 0 0 * a 0 0 + b 0 1 * a 1 0) := by
    have := k 0 0; exact_mod_cast this
  have hp : (a 0 1 * b 1 0) * (b 0 1 * a 1 0) = (1 + a 0 0 ^ 2) * (1 + b 0 0 ^ 2) := by
    have h1 : a 0 1 * a 1 0 = -1 - a 0 0 ^ 2 := by linear_combination f00
    have h2 : b 0 1 * b 1 0 = -1 - b 0 0 ^ 2 := by linear_combination g00
    calc _ = (a 0 1 * a 1 0) * (b 0 1 * b 1 0) := by ring
      _ = _ := by rw [h1, h2]; ring
  have hs : a 0 1 * b 1 0 + b 0 1 * a 1 0 = -2 * (a 0 0 * b 0 0) := by linear_combination k00
  have hd : (a 0 1 * b 1 0 - b 0 1 * a 1 0) ^ 2 = -4 - 4 * a 0 0 ^ 2 - 4 * b 0 0 ^ 2 := by
    calc _ = (a 0 1 * b 1 0 + b 0 1 * a 1 0) ^ 2 - 4 * (a 0 1 * b 1 0 * (b 0 1 * a 1 0)) := by ring
      _ = _ := by rw [hs, hp]; ring
  linarith [sq_nonneg (a 0 1 * b 1 0 - b 0 1 * a 1 0), sq_nonneg (a 0 0), sq_nonneg (b 0 0)]

/-- Spin 1/2 of `su(2)`. -/
noncomputable def spinHalf : Rep 3 0 2 := ⟨su2.A, su2.X, fun a => a.elim0⟩

/-- The quaternion group acting on `ℂ²`: no continuous generator, two discrete ones. -/
noncomputable def quat : Rep 0 2 2 :=
  ⟨fun a => a.elim0, fun a => a.elim0, ![!![0, -Complex.I; -Complex.I, 0], !![0, -1; 1, 0]]⟩

/-- The matrix that intertwines spin 1/2 and its conjugate. -/
def eps2 : Matrix (Fin 2) (Fin 2) ℂ := !![0, 1; -1, 0]

theorem quat_no_real_form : ¬ HasRealForm quat.allGens := by
  rintro ⟨Q, hQ, hr⟩
  have hdet := (Matrix.isUnit_iff_isUnit_det Q).1 hQ
  have hmul : ∀ M N : Matrix (Fin 2) (Fin 2) ℂ, Q * M * Q⁻¹ * (Q * N * Q⁻¹) = Q * (M * N) * Q⁻¹ := by
    intro M N
    simp only [Matrix.mul_assoc]
    rw [← Matrix.mul_assoc Q⁻¹ Q, Matrix.nonsing_inv_mul Q hdet, Matrix.one_mul]
  have e0 : quat.allGens 0 = !![0, -Complex.I; -Complex.I, 0] := rfl
  have e1 : quat.allGens 1 = !![0, -1; 1, 0] := rfl
  refine no_real_quaternions _ _ (hr 0) (hr 1) ?_ ?_ ?_
  · rw [hmul, e0]
    have : (!![0, -Complex.I; -Complex.I, 0] : Matrix (Fin 2) (Fin 2) ℂ) *
        !![0, -Complex.I; -Complex.I, 0] = -1 := by
      ext i j; fin_cases i <;> fin_cases j <;> simp
    rw [this, Matrix.mul_neg, Matrix.mul_one, Matrix.neg_mul, Matrix.mul_nonsing_inv Q hdet]
  · rw [hmul, e1]
    have : (!![0, -1; 1, 0] : Matrix (Fin 2) (Fin 2) ℂ) * !![0, -1; 1, 0] = -1 := by
      ext i j; fin_cases i <;> fin_cases j <;> simp
    rw [this, Matrix.mul_neg, Matrix.mul_one, Matrix.neg_mul, Matrix.mul_nonsing_inv Q hdet]
  · rw [hmul, hmul, e0, e1, ← Matrix.neg_mul, ← Matrix.mul_neg]
    congr 2
    ext i j; fin_cases i <;> fin_cases j <;> simp

theorem spinHalf_no_real_form : ¬ HasRealForm spinHalf.allGens := by
  rintro ⟨Q, hQ, hr⟩
  apply quat_no_real_form
  refine ⟨Q, hQ, ?_⟩
  have e0 : quat.allGens 0 = (2 : ℂ) • spinHalf.allGens 0 := by
    ext i j
    fin_cases i <;> fin_cases j <;> simp [quat, spinHalf, Rep.allGens, su2, Fin.append, Fin.addCases] <;> ring
  have e1 : quat.allGens 1 = (2 : ℂ) • spinHalf.allGens 1 := by
    ext i j
    fin_cases i <;> fin_cases j <;> simp [quat, spinHalf, Rep.allGens, su2, Fin.append, Fin.addCases]
    norm_num
  intro a i j
  fin_cases a
  · show ((Q * quat.allGens 0 * Q⁻¹) i j).im = 0
    rw [e0, Matrix.mul_smul, Matrix.smul_mul, Matrix.smul_apply, smul_eq_mul, Complex.mul_im, hr 0 i j]
    simp
  · show ((Q * quat.allGens 1 * Q⁻¹) i j).im = 0
    rw [e1, Matrix.mul_smul, Matrix.smul_mul, Matrix.smul_apply, smul_eq_mul, Complex.mul_im, hr 1 i j]
    simp

theorem spinHalf_normal (S : Matrix (Fin 2) (Fin 2) ℂ) :
    ∑ g, ((spinHalf.conjugate.allGens g)ᴴ *
        (spinHalf.conjugate.allGens g * S - S * spinHalf.allGens g) -
        (spinHalf.conjugate.allGens g * S - S * spinHalf.allGens g) * (spinHalf.allGens g)ᴴ) =
      !![2 * S 0 0, S 0 1 + S 1 0; S 0 1 + S 1 0, 2 * S 1 1] := by
  have e0 : spinHalf.allGens 0 = !![0, -Complex.I / 2; -Complex.I / 2, 0] := rfl
  have e1 : spinHalf.allGens 1 = !![0, -1 / 2; 1 / 2, 0] := rfl
  have e2 : spinHalf.allGens 2 = !![-Complex.I / 2, 0; 0, Complex.I / 2] := rfl
  simp only [conjugate_allGens]
  rw [show (Finset.univ : Finset (Fin (3 + 0))) = (Finset.univ : Finset (Fin 3)) from rfl,
    Fin.sum_univ_three, e0, e1, e2, Matrix.eta_fin_two S]
  ext i j
  fin_cases i <;> fin_cases j <;>
    simp [Matrix.mul_apply, Fin.sum_univ_two, map_ofNat] <;> ring_nf <;>
    simp [Complex.I_sq] <;> ring

theorem quat_normal (S : Matrix (Fin 2) (Fin 2) ℂ) :
    ∑ g, ((quat.conjugate.allGens g)ᴴ *
        (quat.conjugate.allGens g * S - S * quat.allGens g) -
        (quat.conjugate.allGens g * S - S * quat.allGens g) * (quat.allGens g)ᴴ) =
      !![4 * S 0 0, 4 * (S 0 1 + S 1 0); 4 * (S 0 1 + S 1 0), 4 * S 1 1] := by
  have e0 : quat.allGens 0 = !![0, -Complex.I; -Complex.I, 0] := rfl
  have e1 : quat.allGens 1 = !![0, -1; 1, 0] := rfl
  simp only [conjugate_allGens]
  rw [show (Finset.univ : Finset (Fin (0 + 2))) = (Finset.univ : Finset (Fin 2)) from rfl,
    Fin.sum_univ_two, e0, e1, Matrix.eta_fin_two S]
  ext i j
  fin_cases i <;> fin_cases j <;>
    simp [Matrix.mul_apply, Fin.sum_univ_two] <;> ring_nf <;>
    simp [Complex.I_sq] <;> ring

/-- Both normal equations have the eigenvalues `0, x, x, 2 y`. -/
theorem gap_aux {μ : ℝ} {S : Matrix (Fin 2) (Fin 2) ℂ} (x y : ℝ) (hx : 1 / 10 ^ 4 ≤ x)
    (hy : 1 / 10 ^ 4 ≤ 2 * y) (hS : S ≠ 0)
    (hev : !![(x : ℂ) * S 0 0, (y : ℂ) * (S 0 1 + S 1 0); (y : ℂ) * (S 0 1 + S 1 0),
      (x : ℂ) * S 1 1] = (μ : ℂ) • S) (hμ : 0 < μ) : 1 / 10 ^ 4 ≤ μ := by
  have h00 := congrFun (congrFun hev 0) 0
  have h01 := congrFun (congrFun hev 0) 1
  have h10 := congrFun (congrFun hev 1) 0
  have h11 := congrFun (congrFun hev 1) 1
  simp only [Matrix.of_apply, Matrix.cons_val, Matrix.smul_apply, smul_eq_mul] at h00 h01 h10 h11
  by_contra hlt
  push Not at hlt
  apply hS
  have c0 : (μ : ℂ) ≠ 0 := by exact_mod_cast hμ.ne'
  have cx : (x : ℂ) - μ ≠ 0 := by
    intro h; have : x = μ := by exact_mod_cast sub_eq_zero.1 h
    linarith
  have cy : (2 * y : ℂ) - μ ≠ 0 := by
    intro h; have : 2 * y = μ := by exact_mod_cast sub_eq_zero.1 h
    linarith
  have e1 : S 0 0 = 0 := (mul_eq_zero.1 (show ((x : ℂ) - μ) * S 0 0 = 0 by
    linear_combination h00)).resolve_left cx
  have e2 : S 1 1 = 0 := (mul_eq_zero.1 (show ((x : ℂ) - μ) * S 1 1 = 0 by
    linear_combination h11)).resolve_left cx
  have e3 : S 0 1 + S 1 0 = 0 := (mul_eq_zero.1 (show ((2 * y : ℂ) - μ) * (S 0 1 + S 1 0) = 0 by
    linear_combination h01 + h10)).resolve_left cy
  have e4 : S 0 1 - S 1 0 = 0 := (mul_eq_zero.1 (show (μ : ℂ) * (S 0 1 - S 1 0) = 0 by
    linear_combination -h01 + h10)).resolve_left c0
  ext i j
  fin_cases i <;> fin_cases j <;> simp [e1, e2]
  · linear_combination (e3 + e4) / 2
  · linear_combination (e3 - e4) / 2

theorem spinHalf_gap : Gap (1 / 10 ^ 4) (icobMatrix spinHalf.conjugate.allGens spinHalf.allGens) := by
  apply gap_icob
  intro μ S hS hev hμ
  rw [spinHalf_normal] at hev
  exact gap_aux 2 1 (by norm_num) (by norm_num) hS (by simpa using hev) hμ

theorem quat_gap : Gap (1 / 10 ^ 4) (icobMatrix quat.conjugate.allGens quat.allGens) := by
  apply gap_icob
  intro μ S hS hev hμ
  rw [quat_normal] at hev
  exact gap_aux 4 4 (by norm_num) (by norm_num) hS (by simpa using hev) hμ

theorem eps2_ne : eps2 ≠ 0 := by
  intro h
  have := congrFun (congrFun h 0) 1
  simp [eps2] at this

/-- C32 (defect): `is_real` answers `True` for spin 1/2, which has no real form. -/
theorem C32_is_real_spin_half_false (he : EighSpec eigh) :
    spinHalf.isReal eigh = .ok true ∧ ¬ HasRealForm spinHalf.allGens := by
  refine ⟨?_, spinHalf_no_real_form⟩
  obtain ⟨b, h1, h2⟩ := C32_is_real he (by norm_num) spinHalf (by norm_num) spinHalf_gap
  rw [h1]
  congr 1
  refine h2.2 ⟨eps2, eps2_ne, fun a => ?_, fun a => a.elim0⟩
  fin_cases a <;> ext i j <;> fin_cases i <;> fin_cases j <;>
    simp [eps2, spinHalf, su2, Matrix.mul_apply, Fin.sum_univ_two, map_ofNat] <;> ring

theorem quat_irreducible : IrreducibleFamily quat.allGens := by
  have e0 : quat.allGens 0 = !![0, -Complex.I; -Complex.I, 0] := rfl
  have e1 : quat.allGens 1 = !![0, -1; 1, 0] := rfl
  apply irreducible_of_finrank
  · intro a
    left
    fin_cases a
    · show (quat.allGens 0)ᴴ = - quat.allGens 0
      rw [e0]; ext i j; fin_cases i <;> fin_cases j <;> simp
    · show (quat.allGens 1)ᴴ = - quat.allGens 1
      rw [e1]; ext i j; fin_cases i <;> fin_cases j <;> simp
  · rw [finrank_eq_one_iff']
    refine ⟨⟨1, one_mem_intertwiners _⟩, fun h0 => one_ne_zero (congrArg Subtype.val h0), ?_⟩
    rintro ⟨S, hS⟩
    refine ⟨S 0 0, Subtype.ext ?_⟩
    have h0 := hS 0
    have h1 := hS 1
    rw [Matrix.eta_fin_two S, e0] at h0
    rw [Matrix.eta_fin_two S, e1] at h1
    have a00 := congrFun (congrFun h0 0) 0
    have a01 := congrFun (congrFun h0 0) 1
    have b00 := congrFun (congrFun h1 0) 0
    simp at a00 a01 b00
    have hI := Complex.I_ne_zero
    have e3 : S 1 0 = S 0 1 := by
      apply mul_left_cancel₀ hI; linear_combination a00
    have e4 : S 0 1 = 0 := by linear_combination -b00 / 2 - e3 / 2
    have e5 : S 1 0 = 0 := e3.trans e4
    have e6 : S 0 0 = S 1 1 := by
      apply mul_left_cancel₀ hI; linear_combination -a01
    ext i j
    fin_cases i <;> fin_cases j <;> simp [e4, e5, e6]

/-- C32 (defect): `make_explicitly_real` inspects the continuous generators only.  For the
quaternion group it returns a representation with a non-real generator, although there is no real
form. -/
theorem C32_make_explicitly_real_discrete_false (he : EighSpec eigh)
    (sqrtm pinv : Matrix (Fin 2) (Fin 2) ℂ → Matrix (Fin 2) (Fin 2) ℂ)
    (hsq : SqrtmSpec sqrtm) (hpinv : ∀ Q, IsPinv Q (pinv Q)) :
    ¬ HasRealForm quat.allGens ∧
    ∃ r', quat.makeExplicitlyReal eigh sqrtm pinv = .ok r' ∧ ¬ RealEntries r'.H := by
  refine ⟨quat_no_real_form, ?_⟩
  obtain ⟨L, h1, h2, h3, h4⟩ := rep_infer_spec he (by norm_num) quat quat.conjugate
    (fun _ _ _ => isClose_refl (by positivity) (by positivity) _) (by norm_num) quat_gap
  rw [finrank_conj_of_irreducible (S := eps2) quat_irreducible (by
    intro a
    rw [conjugate_allGens]
    fin_cases a
    · show cj !![0, -Complex.I; -Complex.I, 0] * eps2 = eps2 * !![0, -Complex.I; -Complex.I, 0]
      ext i j; fin_cases i <;> fin_cases j <;>
        simp [eps2, Matrix.mul_apply, Fin.sum_univ_two]
    · show cj !![0, -1; 1, 0] * eps2 = eps2 * !![0, -1; 1, 0]
      ext i j; fin_cases i <;> fin_cases j <;>
        simp [eps2, Matrix.mul_apply, Fin.sum_univ_two]) eps2_ne] at h3
  obtain ⟨S, rfl⟩ := List.length_eq_one_iff.1 h3
  have hrun : quat.makeExplicitlyReal eigh sqrtm pinv =
      .ok (quat.changeBasis (sqrtm S) (pinv (sqrtm S))) := by
    unfold Rep.makeExplicitlyReal
    rw [h1]
    simp only [bind, Except.bind]
    rw [if_neg (by simp [imagNorm])]
    rfl
  refine ⟨_, hrun, fun hre => quat_no_real_form ?_⟩
  obtain ⟨⟨Q, hQ, hr'⟩, -⟩ := C32_make_explicitly_real_sound he (by norm_num) quat (by norm_num)
    quat_gap quat_irreducible sqrtm pinv hsq hpinv _ hrun
  refine ⟨Q, hQ, fun a => ?_⟩
  rw [hr'] at hre
  refine Fin.addCases (fun a => a.elim0) (fun a => ?_) a
  simp only [Rep.allGens, Fin.append_right]
  exact hre a

end LieNN.Props
