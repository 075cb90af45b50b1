import Mathlib.LinearAlgebra.Matrix.Permutation
import Verif.Proofs.Algebra
import Verif.Proofs.RepExamples
/-!
# C18, C21: structure constants from generators; the regular representation
-/
namespace LieNN.Props

open Matrix Spec Examples

variable {n h d : ℕ} {X : Fin n → Matrix (Fin d) (Fin d) ℂ} {P : Matrix (Fin (d * d)) (Fin n) ℂ}

/-! ## C18: `infer_algebra_from_generators` -/

/-- C18 (soundness): a returned tensor is real and satisfies the commutation relations up to the
tolerances. -/
theorem C18_infer_algebra_sound {rtol atol : ℝ} {A : Fin n → Fin n → Fin n → ℂ}
    (hA : inferAlgebra rtol atol X P = some A) :
    (∀ i j k, (A i j k).im = 0) ∧
    ∀ i j a b, ‖(X i * X j - X j * X i) a b - ∑ k, A i j k * X k a b‖ ≤
      atol + rtol * ‖∑ k, A i j k * X k a b‖ := by
  unfold inferAlgebra at hA
  split_ifs at hA with h
  cases hA
  exact ⟨fun i j k => Complex.ofReal_im _, fun i j a b => h i j a b⟩

/-- C18 (completeness): linearly independent generators whose commutators are combinations with
*real* structure constants `c` are recognised, and exactly `c` is returned. -/
theorem C18_infer_algebra_complete {rtol atol : ℝ} (hr : 0 ≤ rtol) (ha : 0 ≤ atol)
    (hX : LinearIndependent ℂ X) (hP : IsPinv (flatGens X) P) (c : Fin n → Fin n → Fin n → ℝ)
    (hc : ∀ i j, X i * X j - X j * X i = ∑ k, (c i j k : ℂ) • X k) :
    inferAlgebra rtol atol X P = some fun i j k => (c i j k : ℂ) := by
  have e : inferredAlgebra X P = fun i j k => (c i j k : ℂ) := by
    funext i j k
    rw [inferredAlgebra_eq hX hP hc]
    simp
  unfold inferAlgebra
  rw [e, if_pos]
  intro i j a b
  apply isClose_self ha hr
  have := congrFun (congrFun (hc i j) a) b
  simpa [commutator, Matrix.sum_apply] using this

/-- C18: with zero tolerances, real linearly independent generators are recognised iff their span is
closed under commutators. -/
theorem C18_infer_algebra_iff (hX : LinearIndependent ℂ X) (hP : IsPinv (flatGens X) P)
    (hreal : ∀ k a b, (X k a b).im = 0) :
    (inferAlgebra 0 0 X P).isSome ↔
      ∀ i j, X i * X j - X j * X i ∈ Submodule.span ℂ (Set.range X) := by
  constructor
  · intro hs
    obtain ⟨A, hA⟩ := Option.isSome_iff_exists.1 hs
    intro i j
    have h := (C18_infer_algebra_sound hA).2 i j
    have : X i * X j - X j * X i = ∑ k, A i j k • X k := by
      ext a b
      have h1 := h a b
      rw [zero_mul, add_zero, norm_le_zero_iff, sub_eq_zero] at h1
      rw [h1]
      simp [Matrix.sum_apply]
    rw [this]
    exact Submodule.sum_mem _ fun k _ => Submodule.smul_mem _ _ (Submodule.subset_span ⟨k, rfl⟩)
  · intro hcl
    have hc : ∀ i j, ∃ c : Fin n → ℂ, ∑ k, c k • X k = X i * X j - X j * X i := fun i j =>
      (Submodule.mem_span_range_iff_exists_fun ℂ).1 (hcl i j)
    choose c hc using hc
    have hre : ∀ i j, X i * X j - X j * X i = ∑ k, (((c i j k).re : ℝ) : ℂ) • X k := by
      intro i j
      ext a b
      have h1 : (X i * X j - X j * X i) a b = ∑ k, c i j k * X k a b := by
        rw [← hc i j]; simp [Matrix.sum_apply]
      have him : ((X i * X j - X j * X i) a b).im = 0 := by
        simp [Matrix.mul_apply, Complex.mul_im, hreal]
      apply Complex.ext
      · rw [h1]
        simp [Matrix.sum_apply, Complex.mul_re, hreal]
      · rw [him]
        simp [Matrix.sum_apply, Complex.mul_im, hreal]
    rw [C18_infer_algebra_complete le_rfl le_rfl hX hP (fun i j k => (c i j k).re) hre]
    rfl

/-- C18: `GenericRep.from_generators` returns `None` exactly when the inference does, and otherwise a
representation with the given generators and the inferred algebra. -/
theorem C18_from_generators (H : Fin h → Matrix (Fin d) (Fin d) ℂ) (r : Rep n h d) :
    Rep.fromGenerators X H P = some r ↔
      inferAlgebra (1 / 10 ^ 10) (1 / 10 ^ 10) X P = some r.A ∧ r.X = X ∧ r.H = H := by
  unfold Rep.fromGenerators
  cases hA : inferAlgebra (1 / 10 ^ 10) (1 / 10 ^ 10) X P with
  | none => simp
  | some A =>
    simp only [Option.some.injEq]
    constructor
    · rintro rfl; exact ⟨rfl, rfl, rfl⟩
    · rintro ⟨h1, h2, h3⟩
      ext1
      · exact h1
      · exact h2.symm
      · exact h3.symm

/-- C18: with real structure constants the inferred representation is a representation. -/
theorem C18_from_generators_isRep (H : Fin h → Matrix (Fin d) (Fin d) ℂ)
    (hX : LinearIndependent ℂ X) (hP : IsPinv (flatGens X) P) (c : Fin n → Fin n → Fin n → ℝ)
    (hc : ∀ i j, X i * X j - X j * X i = ∑ k, (c i j k : ℂ) • X k) :
    ∃ r, Rep.fromGenerators X H P = some r ∧ IsRep r ∧ r.X = X ∧ r.H = H := by
  have h := C18_infer_algebra_complete (rtol := 1 / 10 ^ 10) (atol := 1 / 10 ^ 10) (by positivity)
    (by positivity) hX hP c hc
  refine ⟨⟨_, X, H⟩, (C18_from_generators H _).2 ⟨h, rfl, rfl⟩, hc, rfl, rfl⟩

/-- The spin-1/2 generators are linearly independent. -/
theorem su2_independent : LinearIndependent ℂ su2.X := by
  rw [Fintype.linearIndependent_iff]
  intro g hg
  have h01 := congrFun (congrFun hg 0) 1
  have h10 := congrFun (congrFun hg 1) 0
  have h00 := congrFun (congrFun hg 0) 0
  simp [su2, Fin.sum_univ_three] at h00 h01 h10
  have e0 : g 0 = 0 := by
    have : Complex.I * g 0 = 0 := by linear_combination -h01 - h10
    simpa using this
  have e1 : g 1 = 0 := by linear_combination h10 - h01
  intro i
  fin_cases i
  · exact e0
  · exact e1
  · exact h00

/-- The pseudo-inverse of the flattened spin-1/2 generators. -/
theorem su2_isPinv : IsPinv (flatGens su2.X) ((2 : ℂ) • (flatGens su2.X)ᴴ) := by
  have hQ : flatGens su2.X * (flatGens su2.X)ᴴ = (1 / 2 : ℂ) • 1 := by
    ext i j
    rw [Matrix.mul_apply, ← finProdFinEquiv.sum_comp, Fintype.sum_prod_type]
    have e : ∀ (k : Fin 3) (a b : Fin 2), flatGens su2.X k (finProdFinEquiv (a, b)) = su2.X k a b := by
      intro k a b
      have h := finProdFinEquiv.symm_apply_apply (a, b)
      have h1 : (finProdFinEquiv (a, b)).divNat = a := congrArg Prod.fst h
      have h2 : (finProdFinEquiv (a, b)).modNat = b := congrArg Prod.snd h
      simp [flatGens, h1, h2]
    simp only [conjTranspose_apply, e]
    fin_cases i <;> fin_cases j <;> simp [su2, Fin.sum_univ_two] <;> ring_nf <;>
      simp [Complex.I_sq, map_ofNat]
  constructor
  · rw [Matrix.mul_smul, hQ, smul_smul]; norm_num
  · rw [Matrix.smul_mul, Matrix.mul_smul, Matrix.smul_mul, Matrix.mul_assoc, hQ, Matrix.mul_smul,
      Matrix.mul_one, smul_smul, smul_smul]; norm_num
  · rw [Matrix.mul_smul, hQ, smul_smul]; norm_num
  · rw [Matrix.smul_mul, conjTranspose_smul, conjTranspose_mul, conjTranspose_conjTranspose]
    simp

theorem su2_pinv : ∃ P, IsPinv (flatGens su2.X) P := ⟨_, su2_isPinv⟩

/-- Non-vacuity: the spin-1/2 generators satisfy the hypotheses, with structure constants `ε_ijk`. -/
example : LinearIndependent ℂ su2.X ∧ (∃ P, IsPinv (flatGens su2.X) P) ∧
    ∃ c : Fin 3 → Fin 3 → Fin 3 → ℝ,
      ∀ i j, su2.X i * su2.X j - su2.X j * su2.X i = ∑ k, (c i j k : ℂ) • su2.X k := by
  refine ⟨su2_independent, su2_pinv, fun i j k => (su2.A i j k).re, fun i j => ?_⟩
  have := su2_isRep i j
  rw [this]
  refine Finset.sum_congr rfl fun k _ => ?_
  congr 1
  exact Complex.ext rfl (by rw [su2_real i j k]; simp)

/-- The same generators in the physicists' convention: `J_a = i X_a`, hermitian. -/
noncomputable def hermitianSpin : Fin 3 → Matrix (Fin 2) (Fin 2) ℂ := fun a => Complex.I • su2.X a

/-- C18 (defect): for hermitian generators `[J_i, J_j] = i ε_ijk J_k` the structure constants are
imaginary; the function discards them and returns `None`, although the generators are linearly
independent and their span is closed under commutators. -/
theorem C18_infer_algebra_complex_false :
    LinearIndependent ℂ hermitianSpin ∧
    (∀ i j, hermitianSpin i * hermitianSpin j - hermitianSpin j * hermitianSpin i =
      ∑ k, (Complex.I * su2.A i j k) • hermitianSpin k) ∧
    ∀ P, IsPinv (flatGens hermitianSpin) P →
      inferAlgebra (1 / 10 ^ 10) (1 / 10 ^ 10) hermitianSpin P = none := by
  have hlin : LinearIndependent ℂ hermitianSpin := by
    rw [Fintype.linearIndependent_iff]
    intro g hg i
    have h0 : ∑ k, (g k * Complex.I) • su2.X k = 0 := by
      rw [← hg]
      exact Finset.sum_congr rfl fun k _ => by simp [hermitianSpin, smul_smul]
    have := Fintype.linearIndependent_iff.1 su2_independent _ h0 i
    simpa using this
  have hcomm : ∀ i j, hermitianSpin i * hermitianSpin j - hermitianSpin j * hermitianSpin i =
      ∑ k, (Complex.I * su2.A i j k) • hermitianSpin k := by
    intro i j
    have h1 := su2_isRep i j
    simp only [hermitianSpin, Matrix.smul_mul, Matrix.mul_smul, smul_smul]
    rw [← smul_sub, h1, Finset.smul_sum]
    refine Finset.sum_congr rfl fun k _ => ?_
    rw [smul_smul]
    congr 1
    ring
  refine ⟨hlin, hcomm, fun P hP => ?_⟩
  unfold inferAlgebra
  rw [if_neg]
  intro hchk
  have h := hchk 0 1 0 0
  have hz : ∀ k, inferredAlgebra hermitianSpin P 0 1 k = 0 := by
    intro k
    rw [inferredAlgebra_eq hlin hP hcomm]
    have := su2_real 0 1 k
    simp [Complex.mul_re, this]
  simp only [hz, zero_mul, Finset.sum_const_zero] at h
  unfold IsClose at h
  have hv : commutator (hermitianSpin 0) (hermitianSpin 1) 0 0 = Complex.I / 2 := by
    simp [commutator, hermitianSpin, su2]
    ring_nf
    simp
    try ring
  rw [hv] at h
  norm_num at h

/-! ## C21: `regular_representation` -/

/-- C21: let `G` be any group whose elements are numbered `0, …, n-1` by `e`, with multiplication
table `table[g, h] = g * h`.  The matrices `D(g)` send the basis vector `h` to `g * h`, are
permutation matrices, multiply like the group, `D(1)` is the identity, and `D` is injective. -/
theorem C21_regular_representation {G : Type*} [Group G] (e : Fin n ≃ G)
    (table : Fin n → Fin n → Fin n) (ht : ∀ g h, e (table g h) = e g * e h) :
    (∀ g h, regularRepresentation table g *ᵥ Pi.single h 1 = Pi.single (table g h) 1) ∧
    (∀ g h, regularRepresentation table g * regularRepresentation table h =
      regularRepresentation table (table g h)) ∧
    regularRepresentation table (e.symm 1) = 1 ∧
    (∀ g, ∃ σ : Equiv.Perm (Fin n), regularRepresentation table g = σ.permMatrix ℂ) ∧
    Function.Injective (regularRepresentation table) := by
  have hassoc : ∀ g h j, table g (table h j) = table (table g h) j := by
    intro g h j
    apply e.injective
    simp only [ht, mul_assoc]
  have hmv : ∀ g h : Fin n,
      regularRepresentation table g *ᵥ Pi.single h 1 = Pi.single (table g h) 1 := by
    intro g h
    funext i
    rw [mulVec_single_one]
    simp [regularRepresentation, Pi.single_apply]
  refine ⟨hmv, ?_, ?_, ?_, ?_⟩
  · intro g h
    ext i j
    simp only [regularRepresentation, Matrix.mul_apply, mul_ite, mul_one, mul_zero]
    simp [hassoc]
  · ext i j
    have : table (e.symm 1) j = j := e.injective (by rw [ht]; simp)
    simp [regularRepresentation, Matrix.one_apply, this]
  · intro g
    refine ⟨e.trans ((Equiv.mulLeft (e g)⁻¹).trans e.symm), ?_⟩
    ext i j
    simp only [regularRepresentation, Equiv.Perm.permMatrix, PEquiv.toMatrix_apply,
      Equiv.toPEquiv_apply, Option.mem_some_iff, Equiv.trans_apply, Equiv.coe_mulLeft]
    have : i = table g j ↔ e.symm ((e g)⁻¹ * e i) = j := by
      rw [← e.injective.eq_iff, ht, Equiv.symm_apply_eq, inv_mul_eq_iff_eq_mul]
    simp only [this]
  · intro g g' hgg
    have h1 := hmv g (e.symm 1)
    have ht1 : ∀ g, table g (e.symm 1) = g := fun g => e.injective (by rw [ht]; simp)
    rw [hgg, hmv g' (e.symm 1), ht1, ht1] at h1
    have := congrFun h1 g
    simp only [Pi.single_apply] at this
    by_contra hne
    rw [if_neg hne] at this
    simp at this

/-- Non-vacuity: the (non-commutative) permutation group of three elements with any numbering. -/
example : ∃ (n : ℕ) (e : Fin n ≃ Equiv.Perm (Fin 3)) (table : Fin n → Fin n → Fin n),
    n = 6 ∧ ∀ g h, e (table g h) = e g * e h := by
  have e : Fin (Fintype.card (Equiv.Perm (Fin 3))) ≃ Equiv.Perm (Fin 3) :=
    (Fintype.equivFin _).symm
  exact ⟨_, e, fun g h => e.symm (e g * e h), by decide, fun g h => by simp⟩

end LieNN.Props
