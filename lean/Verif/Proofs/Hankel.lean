import Verif.Proofs.Generic
import Mathlib.LinearAlgebra.Lagrange
import Mathlib.LinearAlgebra.Trace
import Mathlib.LinearAlgebra.Matrix.Charpoly.Coeff
import Mathlib.RingTheory.MvPolynomial.Basic
import Mathlib.Algebra.MvPolynomial.Funext
/-!
# The number of distinct eigenvalues and the Hankel determinant of the power traces

Helper lemmas: a matrix with fewer than `k` distinct eigenvalues has
`det (tr M ^ (i + j))_{i, j < k} = 0`; a diagonalisable matrix with `k` of them does not.
-/
namespace LieNN

open Matrix Polynomial

variable {d : ℕ}

/-- The matrix of the power traces. -/
def hankel {R : Type*} [CommRing R] (k : ℕ) (M : Matrix (Fin d) (Fin d) R) : Matrix (Fin k) (Fin k) R :=
  fun i j => (M ^ ((i : ℕ) + (j : ℕ))).trace

/-- The product of `X - μ` over the distinct eigenvalues. -/
noncomputable def eigPoly (M : Matrix (Fin d) (Fin d) ℂ) : ℂ[X] := ∏ μ ∈ eigSet M, (X - C μ)

theorem eigPoly_monic (M : Matrix (Fin d) (Fin d) ℂ) : (eigPoly M).Monic :=
  monic_prod_X_sub_C _ _

theorem eigPoly_natDegree (M : Matrix (Fin d) (Fin d) ℂ) :
    (eigPoly M).natDegree = (eigSet M).card := by
  unfold eigPoly
  rw [natDegree_prod_of_monic _ _ fun i _ => monic_X_sub_C i]
  simp

theorem eigPoly_nilpotent (M : Matrix (Fin d) (Fin d) ℂ) : IsNilpotent (aeval M (eigPoly M)) := by
  refine ⟨d, ?_⟩
  have hdvd : M.charpoly ∣ eigPoly M ^ d := by
    have hs : M.charpoly = (M.charpoly.roots.map fun a => X - C a).prod :=
      (IsAlgClosed.splits _).eq_prod_roots_of_monic M.charpoly_monic
    have hp : (M.charpoly.roots.map fun a => X - C a).prod =
        ∏ μ ∈ eigSet M, (X - C μ) ^ (M.charpoly.roots.count μ) := by
      rw [Finset.prod_multiset_map_count]; rfl
    rw [hs, hp, eigPoly, ← Finset.prod_pow]
    refine Finset.prod_dvd_prod_of_dvd _ _ fun μ _ => pow_dvd_pow _ ?_
    calc M.charpoly.roots.count μ ≤ M.charpoly.roots.card := Multiset.count_le_card _ _
      _ ≤ M.charpoly.natDegree := card_roots' _
      _ = d := by simp
  obtain ⟨q, hq⟩ := hdvd
  rw [← map_pow, hq, map_mul, aeval_self_charpoly, zero_mul]

theorem trace_aeval_mul (M : Matrix (Fin d) (Fin d) ℂ) (p : ℂ[X]) {k : ℕ} (hp : p.natDegree < k)
    (j : ℕ) : (aeval M p * M ^ j).trace = ∑ i : Fin k, (M ^ ((i : ℕ) + j)).trace * p.coeff i := by
  rw [aeval_eq_sum_range' hp, Finset.sum_mul, trace_sum, Finset.sum_range]
  refine Finset.sum_congr rfl fun i _ => ?_
  rw [smul_mul_assoc, trace_smul, pow_add, smul_eq_mul, mul_comm]

/-- Fewer than `k` distinct eigenvalues: the determinant vanishes. -/
theorem hankel_det_eq_zero {k : ℕ} {M : Matrix (Fin d) (Fin d) ℂ} (h : (eigSet M).card < k) :
    (hankel k M).det = 0 := by
  rw [← exists_mulVec_eq_zero_iff]
  refine ⟨fun i => (eigPoly M).coeff i, ?_, ?_⟩
  · intro h0
    have := congrFun h0 ⟨(eigSet M).card, h⟩
    simp only [← eigPoly_natDegree, (eigPoly_monic M).coeff_natDegree, Pi.zero_apply] at this
    exact one_ne_zero this
  · funext j
    rw [mulVec, dotProduct, Pi.zero_apply]
    have h1 := trace_aeval_mul M (eigPoly M) (k := k) (by rwa [eigPoly_natDegree]) j
    have h2 : IsNilpotent (aeval M (eigPoly M) * M ^ (j : ℕ)) := by
      apply Commute.isNilpotent_mul_right _ (eigPoly_nilpotent M)
      have h4 : M ^ (j : ℕ) = aeval M (X ^ (j : ℕ) : ℂ[X]) := by simp
      rw [h4, Commute, SemiconjBy, ← map_mul, ← map_mul, mul_comm]
    have h3 : (aeval M (eigPoly M) * M ^ (j : ℕ)).trace = 0 :=
      (Matrix.isNilpotent_trace_of_isNilpotent h2).eq_zero
    rw [h3] at h1
    rw [h1]
    refine Finset.sum_congr rfl fun i _ => ?_
    rw [hankel, add_comm]

theorem aeval_mulVec_eig {M : Matrix (Fin d) (Fin d) ℂ} {μ : ℂ} {v : Fin d → ℂ}
    (hv : M *ᵥ v = μ • v) (p : ℂ[X]) : aeval M p *ᵥ v = p.eval μ • v := by
  have hpow : ∀ i : ℕ, (M ^ i) *ᵥ v = μ ^ i • v := by
    intro i
    induction i with
    | zero => simp
    | succ i ih => rw [pow_succ, ← mulVec_mulVec, hv, mulVec_smul, ih, smul_smul, pow_succ, mul_comm]
  rw [aeval_eq_sum_range, eval_eq_sum_range, sum_mulVec, Finset.sum_smul]
  refine Finset.sum_congr rfl fun i _ => ?_
  rw [smul_mulVec, hpow, smul_smul]

/-- On a diagonalisable matrix a polynomial is determined by its values at the eigenvalues. -/
theorem aeval_eq_of_eig {M : Matrix (Fin d) (Fin d) ℂ} (hM : ⨆ μ, eigSpace M μ = ⊤) {p q : ℂ[X]}
    (h : ∀ μ ∈ eigSet M, p.eval μ = q.eval μ) : aeval M p = aeval M q := by
  apply Matrix.toLin'.injective
  refine LinearMap.ext fun v => ?_
  have hv : v ∈ ⨆ μ, eigSpace M μ := by rw [hM]; trivial
  induction hv using Submodule.iSup_induction' with
  | mem μ v hv =>
    rw [mem_eigSpace] at hv
    rw [toLin'_apply, toLin'_apply, aeval_mulVec_eig hv, aeval_mulVec_eig hv]
    by_cases h0 : v = 0
    · simp [h0]
    · rw [h μ (mem_eigSet.2 ⟨v, h0, hv⟩)]
  | zero => simp
  | add x y _ _ hx hy => rw [map_add, map_add, hx, hy]

/-- A diagonalisable matrix with `k` distinct eigenvalues: the determinant does not vanish. -/
theorem hankel_det_ne_zero {M : Matrix (Fin d) (Fin d) ℂ} (hM : ⨆ μ, eigSpace M μ = ⊤) :
    (hankel (eigSet M).card M).det ≠ 0 := by
  set k := (eigSet M).card with hk
  intro h0
  obtain ⟨c, hc0, hc⟩ := exists_mulVec_eq_zero_iff.2 h0
  set p : ℂ[X] := ∑ i : Fin k, C (c i) * X ^ (i : ℕ) with hp
  have hcoeff : ∀ i : Fin k, p.coeff i = c i := by
    intro i
    rw [hp, finsetSum_coeff]
    simp only [coeff_C_mul, coeff_X_pow]
    rw [Finset.sum_eq_single i]
    · simp
    · intro b _ hb
      rw [if_neg (fun h => hb (Fin.ext h.symm)), mul_zero]
    · simp
  have hkpos : 0 < k := by
    rcases Nat.eq_zero_or_pos k with h | h
    · exact absurd (funext fun i : Fin k => (Fin.elim0 (h ▸ i : Fin 0))) hc0
    · exact h
  have hdeg : p.degree < k := by
    refine lt_of_le_of_lt (degree_sum_le _ _) ?_
    refine (Finset.sup_lt_iff (WithBot.bot_lt_coe k)).2 ?_
    intro i _
    refine lt_of_le_of_lt (degree_C_mul_X_pow_le _ _) ?_
    exact Nat.cast_lt.2 i.2
  have hnat : p.natDegree < k := by
    by_cases hp0 : p = 0
    · rw [hp0]; simpa using hkpos
    · exact (natDegree_lt_iff_degree_lt hp0).2 hdeg
  -- orthogonality to all polynomials of degree less than `k`
  have horth : ∀ q : ℂ[X], q.natDegree < k → (aeval M p * aeval M q).trace = 0 := by
    intro q hq
    rw [aeval_eq_sum_range' hq, Finset.mul_sum, trace_sum]
    refine Finset.sum_eq_zero fun j hj => ?_
    rw [mul_smul_comm, trace_smul, trace_aeval_mul M p hnat j]
    have h1 := congrFun hc ⟨j, Finset.mem_range.1 hj⟩
    rw [mulVec, dotProduct, Pi.zero_apply] at h1
    rw [show ∑ i : Fin k, (M ^ ((i : ℕ) + j)).trace * p.coeff i = 0 from ?_, smul_zero]
    rw [← h1]
    refine Finset.sum_congr rfl fun i _ => ?_
    rw [hankel, hcoeff, add_comm]
  have hroot : ∀ μ ∈ eigSet M, p.eval μ = 0 := by
    intro μ hμ
    set q : ℂ[X] := Lagrange.basis (eigSet M) id μ with hq
    have hinj : Set.InjOn (id : ℂ → ℂ) (eigSet M) := fun _ _ _ _ h => h
    have hqd : q.natDegree < k := by
      have : q.degree = ((k - 1 : ℕ) : WithBot ℕ) := Lagrange.degree_basis hinj hμ
      rw [natDegree_eq_of_degree_eq_some this]
      omega
    have hqμ : q.eval μ = 1 := Lagrange.eval_basis_self hinj hμ
    have hqν : ∀ ν ∈ eigSet M, ν ≠ μ → q.eval ν = 0 := fun ν hν hne =>
      Lagrange.eval_basis_of_ne (v := id) (i := μ) (j := ν) (Ne.symm hne) hν
    have hidem : IsIdempotentElem (aeval M q) := by
      rw [IsIdempotentElem, ← map_mul]
      apply aeval_eq_of_eig hM
      intro ν hν
      by_cases hne : ν = μ
      · subst hne; rw [eval_mul, hqμ, mul_one]
      · rw [eval_mul, hqν ν hν hne, mul_zero]
    have hmul : aeval M p * aeval M q = p.eval μ • aeval M q := by
      rw [← map_mul, ← map_smul]
      apply aeval_eq_of_eig hM
      intro ν hν
      by_cases hne : ν = μ
      · subst hne; rw [eval_mul, eval_smul, smul_eq_mul]
      · rw [eval_mul, eval_smul, hqν ν hν hne, smul_zero, mul_zero]
    have h1 := horth q hqd
    rw [hmul, trace_smul, smul_eq_mul] at h1
    refine (mul_eq_zero.1 h1).resolve_right ?_
    -- the trace of a non-zero idempotent
    have hlin : IsIdempotentElem (toLin' (aeval M q)) := by
      rw [IsIdempotentElem, Module.End.mul_eq_comp, ← toLin'_mul, hidem.eq]
    intro hz
    rw [← Matrix.trace_toLin'_eq] at hz
    have hzero := (LinearMap.IsIdempotentElem.trace_eq_zero_iff hlin).1 hz
    obtain ⟨v, hv0, hv⟩ := mem_eigSet.1 hμ
    have h2 := LinearMap.congr_fun hzero v
    rw [toLin'_apply, aeval_mulVec_eig hv, hqμ, one_smul] at h2
    exact hv0 h2
  have hp0 : p = 0 := by
    refine eq_zero_of_degree_lt_of_eval_finset_eq_zero (eigSet M) hdeg hroot
  apply hc0
  funext i
  rw [← hcoeff, hp0, coeff_zero, Pi.zero_apply]

end LieNN
