import Verif.Proofs.GroupRepSU2
import Verif.Proofs.GroupRepSUN
import Verif.Proofs.OrthogonalExp
import Verif.Props.SU2
import Verif.Props.SO3
/-!
# The groups whose elements are the matrices of the defining representations
-/
namespace LieNN

open Matrix NormedSpace Spec

/-- A linear combination of anti-hermitian matrices with real coefficients. -/
theorem sum_skew {n d : ℕ} {X : Fin n → Matrix (Fin d) (Fin d) ℂ} (hs : ∀ a, (X a)ᴴ = -X a) (c : Fin n → ℝ) :
    (∑ a, (c a : ℂ) • X a)ᴴ = -∑ a, (c a : ℂ) • X a := by
  rw [conjTranspose_sum, ← Finset.sum_neg_distrib]
  refine Finset.sum_congr rfl fun a _ => ?_
  rw [conjTranspose_smul, hs, Complex.star_def, Complex.conj_ofReal, smul_neg]

theorem sum_trace {n d : ℕ} {X : Fin n → Matrix (Fin d) (Fin d) ℂ} (ht : ∀ a, (X a).trace = 0) (c : Fin n → ℂ) :
    (∑ a, c a • X a).trace = 0 := by
  rw [trace_sum]
  exact Finset.sum_eq_zero fun a _ => by rw [trace_smul, ht, smul_zero]

/-- The matrices of a unitary representation with traceless generators. -/
theorem mem_special {n d : ℕ} {r : Rep n 0 d} (hu : IsUnitaryRep r) (ht : ∀ a, (r.X a).trace = 0) {c : Fin n → ℝ} {k : Fin 0 → ℤ}
    {g : Matrix (Fin d) (Fin d) ℂ} (hg : r.expMap (fun a => (c a : ℂ)) k = .ok g) : g ∈ specialUnitaryGroup (Fin d) ℂ := by
  obtain ⟨g', hg', hgu⟩ := unitary_expMap hu (c := fun a => (c a : ℂ)) (fun a => Complex.ofReal_im _) k
  rw [hg] at hg'
  rw [← Except.ok.inj hg'] at hgu
  refine mem_specialUnitaryGroup_iff.2 ⟨mem_unitaryGroup_iff.2 hgu, ?_⟩
  rw [expMap_zero] at hg
  rw [← Except.ok.inj hg]
  exact det_exp_skew (sum_skew hu.2 c) (sum_trace ht _)

namespace SU2

theorem gens_ne {j : ℕ} (hj : 1 ≤ j) : gens j 1 ≠ 0 := by
  intro h
  have := congrFun (congrFun h 0) 0
  simp [gens, zGen] at this
  omega

theorem indep {j : ℕ} (hj : 1 ≤ j) : LinearIndependent ℂ (gens j) :=
  su2_indep comm01 comm12 comm20 (gens_ne hj)

theorem onto {U : Matrix (Fin 2) (Fin 2) ℂ} (hU : U ∈ specialUnitaryGroup (Fin 2) ℂ) :
    ∃ c : Fin 3 → ℝ, (rep 1).expMap (fun a => (c a : ℂ)) Fin.elim0 = .ok U := by
  obtain ⟨c, hc⟩ := exp_onto_SU (N := 2) (X := gens 1) (indep le_rfl) (fun a => skew a) (fun a => trace_eq_zero a) hU
  refine ⟨c, ?_⟩
  rw [expMap_zero]
  exact congrArg _ hc

end SU2

namespace SO3

theorem brackets (l : ℕ) : (rep l).X 0 * (rep l).X 1 - (rep l).X 1 * (rep l).X 0 = (rep l).X 2 ∧
    (rep l).X 1 * (rep l).X 2 - (rep l).X 2 * (rep l).X 1 = (rep l).X 0 ∧
    (rep l).X 2 * (rep l).X 0 - (rep l).X 0 * (rep l).X 2 = (rep l).X 1 := by
  have br := SO3.isRep l
  refine ⟨(br 0 1).trans ?_, (br 1 2).trans ?_, (br 2 0).trans ?_⟩ <;>
    simp [rep, SU2.algebra, Fin.sum_univ_three]

theorem rep_ne {l : ℕ} (hl : 1 ≤ l) : (rep l).X 1 ≠ 0 := by
  intro h
  rw [rep_X] at h
  have h1 := changeBasis_mul l
  apply SU2.gens_ne (j := 2 * l) (by omega)
  calc SU2.gens (2 * l) 1 = changeBasis l * ((changeBasis l)ᴴ * SU2.gens (2 * l) 1 * changeBasis l) * (changeBasis l)ᴴ := by
        simp only [← Matrix.mul_assoc]
        rw [h1, Matrix.one_mul, Matrix.mul_assoc, h1, Matrix.mul_one]
    _ = 0 := by rw [h, Matrix.mul_zero, Matrix.zero_mul]

theorem indep {l : ℕ} (hl : 1 ≤ l) : LinearIndependent ℂ (rep l).X :=
  su2_indep (brackets l).1 (brackets l).2.1 (brackets l).2.2 (rep_ne hl)

theorem trace_zero (l : ℕ) (a : Fin 3) : ((rep l).X a).trace = 0 := by
  rw [rep_X, trace_mul_cycle, changeBasis_mul, Matrix.one_mul]
  exact SU2.trace_eq_zero a

theorem conj_X (l : ℕ) (a : Fin 3) : ((rep l).X a).map (starRingEnd ℂ) = (rep l).X a := by
  have hX : (rep l).X = fun a => ((gensC l a).map Complex.re).map Complex.ofReal := by
    unfold rep; simp only [gens_eq]
  rw [hX]
  ext i j
  exact Complex.conj_ofReal _

theorem unitary (l : ℕ) : IsUnitaryRep (rep l) := ⟨fun a => a.elim0, skew l⟩

theorem onto {R : Matrix (Fin 3) (Fin 3) ℝ} (hR : R ∈ specialOrthogonalGroup (Fin 3) ℝ) :
    ∃ c : Fin 3 → ℝ, (rep 1).expMap (fun a => (c a : ℂ)) Fin.elim0 = .ok (ofRealMat 3 R) := by
  obtain ⟨Y, hY, hexp⟩ := rotation_exp hR
  obtain ⟨X, -, hXs, -, -, -, -, hX⟩ := Props.C37_representation 1
  have hXs : ∀ a, (X a)ᵀ = -X a := hXs
  -- the three entries above the diagonal
  set F : (Fin 3 → ℝ) →ₗ[ℝ] (Fin 3 → ℝ) :=
    { toFun := fun c => ![∑ a, c a * X a 0 1, ∑ a, c a * X a 0 2, ∑ a, c a * X a 1 2]
      map_add' := by
        intro c c'
        ext i
        fin_cases i <;> simp [add_mul, Finset.sum_add_distrib]
      map_smul' := by
        intro t c
        ext i
        fin_cases i <;> simp [Finset.mul_sum, mul_assoc] } with hF
  have det3 : ∀ Z : Matrix (Fin 3) (Fin 3) ℝ, Zᵀ = -Z → Z 0 1 = 0 → Z 0 2 = 0 → Z 1 2 = 0 → Z = 0 := by
    intro Z hZ h1 h2 h3
    have e : ∀ i j, Z j i = -Z i j := fun i j => congrFun (congrFun hZ i) j
    have d0 := e 0 0
    have d1 := e 1 1
    have d2 := e 2 2
    have e1 := e 0 1
    have e2 := e 0 2
    have e3 := e 1 2
    ext i j
    fin_cases i <;> fin_cases j <;> simp <;> linarith
  have hskew : ∀ c : Fin 3 → ℝ, (∑ a, c a • X a)ᵀ = -∑ a, c a • X a := by
    intro c
    rw [transpose_sum, ← Finset.sum_neg_distrib]
    exact Finset.sum_congr rfl fun a _ => by rw [transpose_smul, hXs, smul_neg]
  have hinj : Function.Injective F := by
    rw [← LinearMap.ker_eq_bot, LinearMap.ker_eq_bot']
    intro c hc
    have hz : ∑ a, c a • X a = 0 := by
      refine det3 _ (hskew c) ?_ ?_ ?_ <;> rw [Matrix.sum_apply] <;> simp only [Matrix.smul_apply, smul_eq_mul]
      · exact congrFun hc 0
      · exact congrFun hc 1
      · exact congrFun hc 2
    have hz' : ∑ a, (c a : ℂ) • (rep 1).X a = 0 := by
      rw [hX]
      have := congrArg (fun Z : Matrix (Fin 3) (Fin 3) ℝ => Z.map Complex.ofReal) hz
      ext i j
      have e := congrFun (congrFun this i) j
      simp only [map_apply, Matrix.sum_apply, Matrix.smul_apply, smul_eq_mul] at e
      rw [Matrix.sum_apply]
      simp only [Matrix.smul_apply, smul_eq_mul, map_apply]
      push_cast at e
      exact e
    funext a
    exact_mod_cast Fintype.linearIndependent_iff.1 (indep le_rfl) _ hz' a
  obtain ⟨c, hc⟩ := (LinearMap.injective_iff_surjective.1 hinj) ![Y 0 1, Y 0 2, Y 1 2]
  have hsum : ∑ a, c a • X a = Y := by
    rw [← sub_eq_zero]
    refine det3 _ ?_ ?_ ?_ ?_
    · rw [transpose_sub, hskew, hY]
      abel
    all_goals rw [Matrix.sub_apply, Matrix.sum_apply, sub_eq_zero]; simp only [Matrix.smul_apply, smul_eq_mul]
    · exact congrFun hc 0
    · exact congrFun hc 1
    · exact congrFun hc 2
  refine ⟨c, ?_⟩
  rw [expMap_zero]
  have : ∑ a, (c a : ℂ) • (rep 1).X a = Y.map Complex.ofReal := by
    rw [hX, ← hsum]
    ext i j
    rw [Matrix.sum_apply, map_apply, Matrix.sum_apply]
    simp only [Matrix.smul_apply, smul_eq_mul, map_apply]
    push_cast
    rfl
  rw [this]
  exact congrArg _ hexp

end SO3

end LieNN
