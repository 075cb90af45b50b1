import Verif.Proofs.RoundingChange
import Verif.Proofs.RealNull
import Verif.Proofs.RecomputeGap
import Verif.Proofs.SO13CG
import Verif.Proofs.Triplet
/-!
# The generic `clebsch_gordan` with rounding errors
-/
namespace LieNN

open Matrix Spec

namespace Rounding

/-- Without errors, the runs of `nullspace` are the results of the exact model. -/
theorem nullRun_zero_iff {m n : ℕ} {eps : ℝ} (A : Matrix (Fin m) (Fin n) ℂ) (R : List (Vec n)) :
    NullRun 0 eps A R ↔ ∃ eigh : EighFn, EighSpec eigh ∧ R = nullspace eigh eps A := by
  classical
  constructor
  · rintro ⟨val, vec, ⟨U, h1, h2⟩, rows, h3, h4⟩
    have hU : ∀ r, vec r = U r := by
      intro r
      have h5 := h2 (EuclideanSpace.single r (1 : ℂ))
      rw [zero_mul, norm_le_zero_iff, Finset.sum_eq_single r] at h5
      · simpa [sub_eq_zero] using h5
      · intro b _ hb
        simp [hb]
      · simp
    have ho : Orthonormal ℂ vec := by
      have : vec = U := funext hU
      rw [this]; exact U.orthonormal
    have hev : ∀ k, (Aᴴ * A) *ᵥ (vec k).ofLp = (val k : ℂ) • (vec k).ofLp := by
      intro k
      have h5 := h1 (vec k)
      rw [zero_mul, norm_le_zero_iff, sub_eq_zero, Finset.sum_eq_single k] at h5
      · rw [hU k, inner_self_eq_norm_sq_to_K, U.orthonormal.1 k] at h5
        have h6 := congrArg WithLp.ofLp h5
        rw [hU k]
        simpa using h6
      · intro b _ hb
        rw [hU k, U.orthonormal.2 hb]
        simp
      · simp
    let e : EighFn := fun n' M' => if h : n' = n then
        (if M' = (h.symm ▸ (Aᴴ * A) : Matrix (Fin n') (Fin n') ℂ) then
          (h.symm ▸ (val, vec) : (Fin n' → ℝ) × (Fin n' → Vec n')) else exactEigh n' M')
      else exactEigh n' M'
    have he : e n (Aᴴ * A) = (val, vec) := by simp [e]
    refine ⟨e, ?_, ?_⟩
    · intro n' M' hM'
      by_cases h : n' = n
      · subst h
        by_cases hM : M' = Aᴴ * A
        · subst hM
          rw [he]
          exact ⟨ho, hev⟩
        · have : e n' M' = exactEigh n' M' := by simp [e, hM]
          rw [this]
          exact exactEigh_spec n' M' hM'
      · have : e n' M' = exactEigh n' M' := by simp [e, h]
        rw [this]
        exact exactEigh_spec n' M' hM'
    · have hrows : rows = nullProj eps val vec := by
        funext i
        have := h3 i
        rwa [norm_le_zero_iff, sub_eq_zero] at this
      unfold nullspace gramSchmidt
      rw [he, loopRun_zero h4, hrows]
  · rintro ⟨eigh, he, rfl⟩
    exact nullRun_exact le_rfl he A

variable {n h d₁ d₂ d₃ : ℕ} {r₁ : Rep n h d₁} {r₂ : Rep n h d₂} {r₃ : Rep n h d₃} {δ γ : ℝ}

/-- Squared distance of two arrays. -/
theorem sum_cg (v : Vec (d₃ * (d₁ * d₂))) :
    ∑ i : Fin d₁, ∑ j : Fin d₂, ∑ k : Fin d₃, ‖unvec v k (finProdFinEquiv (i, j))‖ ^ 2 = ‖v‖ ^ 2 := by
  rw [norm_sq_unvec]
  rw [Finset.sum_congr rfl fun i _ => Finset.sum_comm, Finset.sum_comm]
  refine Finset.sum_congr rfl fun k _ => ?_
  rw [← finProdFinEquiv.sum_comp, Fintype.sum_prod_type]

theorem clebschGordan_eq {eigh : EighFn} (he : EighSpec eigh) (hn : n + h ≠ 0) (h₁₂ : AllCloseA r₁.A r₂.A)
    (h₁₃ : AllCloseA r₁.A r₃.A)
    (hgap : Gap (1 / 10 ^ 4) (icobMatrix r₃.allGens (r₁.tensorProduct r₂).allGens)) :
    Rep.clebschGordan eigh r₁ r₂ r₃ = .ok
      ((nullspace eigh (1 / 10 ^ 4) (icobMatrix r₃.allGens (r₁.tensorProduct r₂).allGens)).map
        fun v i j k => ((Real.sqrt d₃ : ℝ) : ℂ) * unvec v k (finProdFinEquiv (i, j))) := by
  unfold Rep.clebschGordan Rep.inferChangeOfBasis LieNN.inferChangeOfBasis
  rw [pyAssert_of h₁₂, pyAssert_of (show AllCloseA (r₁.tensorProduct r₂).A r₃.A from h₁₃), if_neg hn]
  simp only [bind, Except.bind]
  rw [pyAssert_of]
  · simp only [pure, Except.pure, List.map_map]
    rfl
  · intro Q hQ a i k
    obtain ⟨v, hv, rfl⟩ := List.mem_map.1 hQ
    have := (icobMatrix_mulVec r₃.allGens (r₁.tensorProduct r₂).allGens v).1
      (nullspace_mem he (by positivity) _ hgap v hv) a
    rw [this]
    exact isClose_refl (by positivity) (by positivity) _

/-- **All runs of the generic solver**, at most one coefficient array. -/
theorem cgRun_close {eigh : EighFn} (he : EighSpec eigh) (h₁₂ : AllCloseA r₁.A r₂.A)
    (h₁₃ : AllCloseA r₁.A r₃.A) (hγ : 2 / 10 ^ 4 ≤ γ)
    (hgap : Gap γ (icobMatrix r₃.allGens (r₁.tensorProduct r₂).allGens))
    (hd : 4 * (d₃ * (d₁ * d₂)) < 10 ^ 8) (h1 : Module.finrank ℂ (cgSpace r₁ r₂ r₃) ≤ 1) (hδ : 0 ≤ δ)
    (hδe : 66 * (1 + 1 / γ) * δ ≤ 1 / 10 ^ 8) {res} (hrun : CGRun δ r₁ r₂ r₃ res) :
    ∃ G₀, Rep.clebschGordan eigh r₁ r₂ r₃ = .ok G₀ ∧
      (res = .error .assertionError ∨ ∃ G, res = .ok G ∧ List.Forall₂ (fun C D => ∃ z : ℂ, ‖z‖ = 1 ∧
        ∑ i, ∑ j, ∑ k, ‖C i j k - z * D i j k‖ ^ 2 ≤ d₃ * (10 ^ 5 * (1 + 1 / γ) * δ) ^ 2) G G₀) ∧
      ∀ B : ℝ, 0 ≤ B → (∀ a, ∑ i, ∑ j, ‖r₃.allGens a i j‖ ^ 2 ≤ B ^ 2) →
        (∀ a, ∑ i, ∑ j, ‖(r₁.tensorProduct r₂).allGens a i j‖ ^ 2 ≤ B ^ 2) →
        2 * B * (10 ^ 5 * (1 + 1 / γ) * δ) ≤ 1 / 10 ^ 8 → ∃ G, res = .ok G := by
  classical
  obtain ⟨S, ⟨hn, R, hR, rfl⟩, hres⟩ := hrun
  have hγ0 : 0 < γ := lt_of_lt_of_le (by norm_num) hγ
  have hgap' : Gap (1 / 10 ^ 4) (icobMatrix r₃.allGens (r₁.tensorProduct r₂).allGens) :=
    fun μ x hx hev hμ => le_trans (by norm_num at hγ ⊢; linarith) (hgap μ x hx hev hμ)
  have hdR : (4 : ℝ) * (d₃ * (d₁ * d₂) : ℕ) * (1 / 10 ^ 4) ^ 2 < 1 := by
    have : ((4 * (d₃ * (d₁ * d₂)) : ℕ) : ℝ) < 10 ^ 8 := by exact_mod_cast hd
    push_cast at this ⊢
    norm_num at this ⊢
    linarith
  have hker : Module.finrank ℂ (kernel (icobMatrix r₃.allGens (r₁.tensorProduct r₂).allGens)) ≤ 1 := by
    rw [finrank_kernel_icob]
    rw [SO13.cgSpace_map, LinearEquiv.finrank_map_eq] at h1
    exact h1
  have hclose := null_one hgap (by norm_num : (0 : ℝ) < 1 / 10 ^ 4) (by norm_num) (by linarith) hdR hδ
    (by norm_num at hδe ⊢; linarith) hker he hR
  have hmem := nullspace_mem he (by norm_num : (0 : ℝ) < 1 / 10 ^ 4) _ hgap'
  have hτ : 10 * (1 + 1 / γ) * δ / (1 / 10 ^ 4) = 10 ^ 5 * (1 + 1 / γ) * δ := by ring
  rw [hτ] at hclose
  have hτ0 : 0 ≤ 10 ^ 5 * (1 + 1 / γ) * δ := by positivity
  generalize 10 ^ 5 * (1 + 1 / γ) * δ = τ at hclose hτ0 ⊢
  refine ⟨_, clebschGordan_eq he hn h₁₂ h₁₃ hgap', ?_, ?_⟩
  · rw [pyAssert_of h₁₂, pyAssert_of (show AllCloseA (r₁.tensorProduct r₂).A r₃.A from h₁₃)] at hres
    simp only [bind, Except.bind] at hres
    by_cases hc : ∀ Q ∈ R.map unvec, ∀ a i k, IsClose (1 / 10 ^ 8) (1 / 10 ^ 8)
      ((r₃.allGens a * Q) i k) ((Q * (r₁.tensorProduct r₂).allGens a) i k)
    · right
      rw [pyAssert_of hc] at hres
      refine ⟨_, hres, ?_⟩
      rw [List.map_map, List.forall₂_map_left_iff, List.forall₂_map_right_iff]
      refine hclose.imp fun q u hqu => ?_
      obtain ⟨z, hz, hle⟩ := hqu
      refine ⟨z, hz, ?_⟩
      have e : ∀ (i : Fin d₁) (j : Fin d₂) (k : Fin d₃),
          ‖((√(d₃ : ℝ) : ℝ) : ℂ) * unvec q k (finProdFinEquiv (i, j)) -
            z * (((√(d₃ : ℝ) : ℝ) : ℂ) * unvec u k (finProdFinEquiv (i, j)))‖ ^ 2 =
          d₃ * ‖unvec (q - z • u) k (finProdFinEquiv (i, j))‖ ^ 2 := by
        intro i j k
        have e1 : ((√(d₃ : ℝ) : ℝ) : ℂ) * unvec q k (finProdFinEquiv (i, j)) -
            z * (((√(d₃ : ℝ) : ℝ) : ℂ) * unvec u k (finProdFinEquiv (i, j))) =
            ((√(d₃ : ℝ) : ℝ) : ℂ) * unvec (q - z • u) k (finProdFinEquiv (i, j)) := by
          show _ = ((√(d₃ : ℝ) : ℝ) : ℂ) * (unvec q k (finProdFinEquiv (i, j)) -
            z * unvec u k (finProdFinEquiv (i, j)))
          ring
        rw [e1, norm_mul, mul_pow, Complex.norm_real, Real.norm_of_nonneg (by positivity),
          Real.sq_sqrt (by positivity)]
      simp only [Function.comp_apply, e, ← Finset.mul_sum]
      rw [sum_cg]
      have := pow_le_pow_left₀ (norm_nonneg _) hle 2
      gcongr
    · left
      rw [pyAssert_ne (fun h => hc (pyAssert_ok_iff.1 h))] at hres
      exact hres
  · intro B hB hB3 hBt hBδ
    rw [pyAssert_of h₁₂, pyAssert_of (show AllCloseA (r₁.tensorProduct r₂).A r₃.A from h₁₃)] at hres
    simp only [bind, Except.bind] at hres
    rw [pyAssert_of] at hres
    · exact ⟨_, hres⟩
    · intro Q hQ a i k
      obtain ⟨q, hq, rfl⟩ := List.mem_map.1 hQ
      obtain ⟨u, hu, z, hz, hle⟩ : ∃ u ∈ nullspace eigh (1 / 10 ^ 4)
          (icobMatrix r₃.allGens (r₁.tensorProduct r₂).allGens), ∃ z : ℂ, ‖z‖ = 1 ∧ ‖q - z • u‖ ≤ τ := by
        clear hres hR hQ
        generalize nullspace eigh (1 / 10 ^ 4)
          (icobMatrix r₃.allGens (r₁.tensorProduct r₂).allGens) = N at hclose
        induction hclose with
        | nil => simp at hq
        | cons hab _ ih =>
          rcases List.mem_cons.1 hq with rfl | hq
          · exact ⟨_, by simp, hab⟩
          · obtain ⟨u, hu, h⟩ := ih hq
            exact ⟨u, by simp [hu], h⟩
      have := residual hB hτ0 hB3 hBt (Submodule.smul_mem _ z (hmem u hu)) hle a i k
      unfold IsClose
      refine (this.trans hBδ).trans ?_
      have : 0 ≤ ‖(unvec q * (r₁.tensorProduct r₂).allGens a) i k‖ := norm_nonneg _
      linarith [mul_nonneg (by norm_num : (0 : ℝ) ≤ 1 / 10 ^ 8) this]

end Rounding

end LieNN
