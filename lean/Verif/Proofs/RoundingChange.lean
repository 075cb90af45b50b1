import Mathlib.Topology.Algebra.Order.Field
import Verif.Proofs.RoundingNull
import Verif.Proofs.Intertwiner
/-!
# Intertwiners and irreducibility with rounding errors
-/
namespace LieNN

open Matrix Spec

namespace Rounding

/-! ### Exact runs -/

section exact

variable {E : Type*} [NormedAddCommGroup E] [InnerProductSpace ℂ E] {δ eps : ℝ}

theorem reduceRun_exact (hδ : 0 ≤ δ) (Q : List E) (v : E) : ReduceRun δ Q v (gsReduce Q v) := by
  induction Q generalizing v with
  | nil => rfl
  | cons w Q ih => exact ⟨_, by simpa using hδ, ih _⟩

theorem reduceRun_zero {Q : List E} {v v' : E} (h : ReduceRun 0 Q v v') : v' = gsReduce Q v := by
  induction Q generalizing v with
  | nil => exact h
  | cons w Q ih =>
    obtain ⟨v₁, h1, h2⟩ := h
    rw [norm_le_zero_iff, sub_eq_zero] at h1
    rw [gsReduce_cons, ← h1]
    exact ih h2

theorem loopRun_exact (hδ : 0 ≤ δ) (A Q : List E) : LoopRun δ eps A Q (gsLoop eps A Q) := by
  induction A generalizing Q with
  | nil => rfl
  | cons a A ih =>
    refine ⟨_, reduceRun_exact hδ Q a, ‖gsReduce Q a‖, by simpa using hδ, ?_⟩
    unfold gsLoop
    by_cases h : eps < ‖gsReduce Q a‖
    · simp only [if_pos h]
      exact Or.inl ⟨h, _, by simpa using hδ, ih _⟩
    · simp only [if_neg h]
      exact Or.inr ⟨h, ih _⟩

theorem loopRun_zero {A Q R : List E} (h : LoopRun 0 eps A Q R) : R = gsLoop eps A Q := by
  induction A generalizing Q with
  | nil => exact h
  | cons a A ih =>
    obtain ⟨v, h1, ν, h2, h3⟩ := h
    obtain rfl := reduceRun_zero h1
    rw [abs_nonpos_iff, sub_eq_zero] at h2
    subst h2
    unfold gsLoop
    rcases h3 with ⟨g, q, g1, g2⟩ | ⟨g, g2⟩
    · rw [norm_le_zero_iff, sub_eq_zero] at g1
      subst g1
      simp only [if_pos g]
      exact ih g2
    · simp only [if_neg g]
      exact ih g2

end exact

theorem eighRun_exact {n : ℕ} {δ : ℝ} (hδ : 0 ≤ δ) {M : Matrix (Fin n) (Fin n) ℂ} (hM : M.IsHermitian)
    {val : Fin n → ℝ} {vec : Fin n → Vec n} (ho : Orthonormal ℂ vec)
    (hev : ∀ k, M *ᵥ (vec k).ofLp = (val k : ℂ) • (vec k).ofLp) : EighRun δ M val vec := by
  refine ⟨eigBasis ho, fun x => ?_, fun c => ?_⟩
  · have e : (WithLp.toLp 2 (M *ᵥ x.ofLp) : Vec n) =
        ∑ r, ((val r : ℂ) * inner ℂ (eigBasis ho r) x) • eigBasis ho r := by
      refine InnerProductSpace.ext_inner_left_basis (𝕜 := ℂ) (eigBasis ho).toBasis fun j => ?_
      have := inner_diag (eigBasis ho) val x j
      rw [diag] at this
      rw [OrthonormalBasis.coe_toBasis, this, eigBasis_apply, inner_mulVec, hM.eq, hev j,
        WithLp.toLp_smul, inner_smul_left]
      simp
    rw [e, sub_self, norm_zero]
    positivity
  · simp only [eigBasis_apply, sub_self, smul_zero, Finset.sum_const_zero, norm_zero]
    positivity

theorem nullRun_exact {m n : ℕ} {δ eps : ℝ} (hδ : 0 ≤ δ) {eigh : EighFn} (he : EighSpec eigh)
    (A : Matrix (Fin m) (Fin n) ℂ) : NullRun δ eps A (nullspace eigh eps A) := by
  obtain ⟨h1, h2⟩ := eigh_spec_mul he A
  exact ⟨_, _, eighRun_exact hδ (isHermitian_conjTranspose_mul_self A) h1 h2, _,
    fun i => by simpa using hδ, loopRun_exact hδ _ _⟩

/-! ### A bound that depends on the size, the tolerance and the gap only -/

theorem err_zero (ρ : ℕ → ℝ) (t : ℕ) : err 0 0 ρ t = 0 := by
  induction t with
  | zero => rfl
  | succ t ih => rw [err, ih]; simp

theorem err_continuous (γ eps : ℝ) (t : ℕ) :
    Continuous fun δ : ℝ => err (4 * δ + 4 * δ / γ) δ (fun _ => eps) t := by
  induction t with
  | zero => exact continuous_const
  | succ t ih =>
    unfold err
    refine ih.max (Continuous.add (Continuous.div_const ?_ _) continuous_id)
    fun_prop

theorem sig_continuous (γ eps : ℝ) (t : ℕ) :
    Continuous fun δ : ℝ => sig (4 * δ + 4 * δ / γ) δ (fun _ => eps) t := by
  have := err_continuous γ eps t
  unfold sig
  fun_prop

theorem exists_delta {n : ℕ} {eps γ τ : ℝ} (heps : 0 < eps) (hγ : eps < γ) (hn : n * eps ^ 2 < 1)
    (hτ : 0 < τ) : ∃ Δ > 0, ∀ δ, 0 ≤ δ → δ ≤ Δ → δ < eps ∧ eps ≤ γ - δ ∧ δ ≤ 1 ∧
      sig (4 * δ + 4 * δ / γ) δ (fun _ => eps) n + δ ≤ eps ∧
      sig (4 * δ + 4 * δ / γ) δ (fun _ => eps) n ≤ 1 ∧
      n * (eps + δ + sig (4 * δ + 4 * δ / γ) δ (fun _ => eps) n) ^ 2 < 1 ∧
      err (4 * δ + 4 * δ / γ) δ (fun _ => eps) n ≤ τ := by
  have cs := sig_continuous γ eps n
  have ce := err_continuous γ eps n
  have z1 : err (4 * 0 + 4 * 0 / γ) 0 (fun _ => eps) n = 0 := by
    simp only [mul_zero, zero_div, add_zero]; exact err_zero _ _
  have z2 : sig (4 * 0 + 4 * 0 / γ) 0 (fun _ => eps) n = 0 := by
    unfold sig; rw [z1]; simp
  have e1 : ∀ᶠ δ : ℝ in nhds 0, δ < eps := continuous_id.tendsto 0 |>.eventually_lt_const heps
  have e2 : ∀ᶠ δ : ℝ in nhds 0, δ < γ - eps :=
    continuous_id.tendsto 0 |>.eventually_lt_const (by simpa using hγ)
  have e3 : ∀ᶠ δ : ℝ in nhds 0, δ < 1 := continuous_id.tendsto 0 |>.eventually_lt_const one_pos
  have e4 : ∀ᶠ δ : ℝ in nhds 0, sig (4 * δ + 4 * δ / γ) δ (fun _ => eps) n + δ < eps :=
    (cs.add continuous_id).tendsto 0 |>.eventually_lt_const (by
      show sig (4 * 0 + 4 * 0 / γ) 0 (fun _ => eps) n + 0 < eps
      rw [z2, add_zero]; exact heps)
  have e5 : ∀ᶠ δ : ℝ in nhds 0, sig (4 * δ + 4 * δ / γ) δ (fun _ => eps) n < 1 :=
    cs.tendsto 0 |>.eventually_lt_const (by rw [z2]; exact one_pos)
  have c6 : Continuous fun δ : ℝ =>
      (n : ℝ) * (eps + δ + sig (4 * δ + 4 * δ / γ) δ (fun _ => eps) n) ^ 2 := by fun_prop
  have e6 : ∀ᶠ δ : ℝ in nhds 0,
      (n : ℝ) * (eps + δ + sig (4 * δ + 4 * δ / γ) δ (fun _ => eps) n) ^ 2 < 1 :=
    c6.tendsto 0 |>.eventually_lt_const (by rw [z2]; simpa using hn)
  have e7 : ∀ᶠ δ : ℝ in nhds 0, err (4 * δ + 4 * δ / γ) δ (fun _ => eps) n < τ :=
    ce.tendsto 0 |>.eventually_lt_const (by rw [z1]; exact hτ)
  obtain ⟨Δ, h0, h⟩ := Metric.eventually_nhds_iff.1
    (e1.and <| e2.and <| e3.and <| e4.and <| e5.and <| e6.and e7)
  refine ⟨Δ / 2, by positivity, fun δ h1 h2 => ?_⟩
  obtain ⟨g1, g2, g3, g4, g5, g6, g7⟩ := h (y := δ) (by
    rw [Real.dist_eq, sub_zero, abs_of_nonneg h1]; linarith)
  exact ⟨g1, by linarith, g3.le, g4.le, g5.le, g6, g7.le⟩

theorem finrank_kernel_le {m n : ℕ} (A : Matrix (Fin m) (Fin n) ℂ) :
    Module.finrank ℂ (kernel A) ≤ n := by
  have := Submodule.finrank_le (kernel A)
  simpa using this

/-- With the tolerance as lower bound of the accepted norms. -/
theorem null_close_const {m n : ℕ} {δ eps γ : ℝ} {A : Matrix (Fin m) (Fin n) ℂ} (hγ : 0 < γ)
    (hgap : Gap γ A) (hδ : 0 ≤ δ)
    (hδe : δ < eps) (heγ : eps ≤ γ - δ) (hδ1 : δ ≤ 1)
    {mm M : ℕ} (hacc : sig (4 * δ + 4 * δ / γ) δ (fun _ => eps) mm + δ ≤ eps)
    (hle : sig (4 * δ + 4 * δ / γ) δ (fun _ => eps) M ≤ 1)
    (hn : n * (eps + δ + sig (4 * δ + 4 * δ / γ) δ (fun _ => eps) M) ^ 2 < 1)
    {R : List (Vec n)}
    (hm : (Module.finrank ℂ (kernel A) ≤ mm ∧ mm ≤ M) ∨ (R.length ≤ mm + 1 ∧ mm + 1 ≤ M))
    (h : NullRun δ eps A R) :
    ∃ U, OList U ∧ lspan U = kernel A ∧ U.length = Module.finrank ℂ (kernel A) ∧
      List.Forall₂ (fun q u => ‖q - u‖ ≤ err (4 * δ + 4 * δ / γ) δ (fun _ => eps) U.length) R U :=
  null_close hγ hgap hδ hδe heγ hδ1 (fun _ => hδ.trans_lt hδe) hacc hle hn hm
    (fun _ _ _ _ _ _ _ _ h _ => h.le) h

/-! ### Scalars -/

section scalars

variable {n d : ℕ} {δ eps γ : ℝ} {X : Fin n → Matrix (Fin d) (Fin d) ℂ}

theorem finrank_kernel_icob {d₁ d₂ : ℕ} (X₁ : Fin n → Matrix (Fin d₁) (Fin d₁) ℂ)
    (X₂ : Fin n → Matrix (Fin d₂) (Fin d₂) ℂ) :
    Module.finrank ℂ (kernel (icobMatrix X₁ X₂)) = Module.finrank ℂ (intertwiners X₁ X₂) := by
  rw [intertwiners_eq, LinearEquiv.finrank_map_eq]

/-- The vector of the identity matrix. -/
noncomputable def oneVec (d : ℕ) : Vec (d * d) := (unvecL d d).symm 1

theorem oneVec_apply (i j : Fin d) : oneVec d (finProdFinEquiv (i, j)) = if i = j then 1 else 0 := by
  have e : unvec (oneVec d) = 1 := (unvecL d d).apply_symm_apply 1
  have := congrFun (congrFun e i) j
  rw [Matrix.one_apply] at this
  exact this

theorem norm_oneVec_sq (d : ℕ) : ‖oneVec d‖ ^ 2 = d := by
  rw [EuclideanSpace.norm_sq_eq, ← finProdFinEquiv.sum_comp, Fintype.sum_prod_type]
  simp only [oneVec_apply]
  rw [Finset.sum_congr rfl fun i _ => Finset.sum_eq_single_of_mem i (Finset.mem_univ _) fun j _ hj => by
    rw [if_neg (Ne.symm hj)]; simp]
  simp

theorem norm_oneVec_apply (p : Fin (d * d)) : ‖oneVec d p‖ = 0 ∨ ‖oneVec d p‖ = 1 := by
  obtain ⟨⟨i, j⟩, rfl⟩ := finProdFinEquiv.surjective p
  rw [oneVec_apply]
  split_ifs <;> simp

theorem oneVec_mem (X : Fin n → Matrix (Fin d) (Fin d) ℂ) : oneVec d ∈ kernel (icobMatrix X X) := by
  refine (icobMatrix_mulVec X X _).2 ?_
  have e : unvec (oneVec d) = 1 := (unvecL d d).apply_symm_apply 1
  rw [e]
  exact one_mem_intertwiners X

/-- When only scalars commute with the family, the rows of the projection vanish or have norm
`1 / √d`. -/
theorem norm_row (hd : 0 < d) (h1 : Module.finrank ℂ (kernel (icobMatrix X X)) = 1) {b : Vec (d * d)}
    (hb : b ∈ kernel (icobMatrix X X)) {p : Fin (d * d)}
    (hp : ∀ x ∈ kernel (icobMatrix X X),
      inner ℂ x (EuclideanSpace.single p (1 : ℂ)) = inner ℂ x b) : ‖b‖ = 0 ∨ ‖b‖ = 1 / √d := by
  have hne : (⟨oneVec d, oneVec_mem X⟩ : kernel (icobMatrix X X)) ≠ 0 := by
    intro h0
    have := congrArg Subtype.val h0
    have h2 := norm_oneVec_sq d
    have h3 : (d : ℝ) = 0 := by
      rw [← h2, show oneVec d = 0 from this]; simp
    have h4 : d = 0 := by exact_mod_cast h3
    omega
  obtain ⟨c, hc⟩ := (finrank_eq_one_iff_of_nonzero' _ hne).1 h1 ⟨b, hb⟩
  have hc' : c • oneVec d = b := congrArg Subtype.val hc
  have h2 : ‖b‖ ^ 2 = ‖b p‖ := by
    have h3 := hp b hb
    rw [inner_single_eq, inner_self_eq_norm_sq_to_K] at h3
    have h4 := congrArg norm h3
    rw [RCLike.norm_conj] at h4
    rw [h4]
    simp
  have hdR : (0 : ℝ) < d := by exact_mod_cast hd
  have h3 : ‖b‖ ^ 2 = ‖c‖ ^ 2 * d := by rw [← hc', norm_smul, mul_pow, norm_oneVec_sq]
  have h4 : ‖b p‖ = ‖c‖ * ‖oneVec d p‖ := by rw [← hc']; simp
  rcases norm_oneVec_apply p with h5 | h5
  · left
    rw [h4, h5, mul_zero] at h2
    exact pow_eq_zero_iff (two_ne_zero) |>.1 h2
  · rw [h4, h5, mul_one] at h2
    rw [h3] at h2
    by_cases h0 : ‖c‖ = 0
    · left
      rw [h0] at h3
      simpa using h3
    · right
      have h6 : ‖c‖ * d = 1 := by
        apply mul_left_cancel₀ h0
        linarith
      have h7 : ‖b‖ ^ 2 = (1 / √d) ^ 2 := by
        rw [h3, div_pow, one_pow, Real.sq_sqrt hdR.le]
        field_simp
        nlinarith
      exact (sq_eq_sq₀ (norm_nonneg _) (by positivity)).1 h7

/-- `is_irreducible` on a family whose commutant is one-dimensional. -/
theorem change_scalars (hgap : Gap γ (icobMatrix X X)) (heps : 0 < eps) (hγ : 2 * eps ≤ γ)
    (hd : 2 * d * eps < 1) (hδ : 0 ≤ δ) (hδe : 120 * (1 + 1 / γ) * d * δ ≤ eps)
    (h1 : Module.finrank ℂ (kernel (icobMatrix X X)) = 1) {R : List (Vec (d * d))}
    (h : NullRun δ eps (icobMatrix X X) R) : R.length = 1 := by
  have hd0 : 0 < d := by
    rcases Nat.eq_zero_or_pos d with h0 | h0
    · subst h0
      have := finrank_kernel_le (icobMatrix X X)
      omega
    · exact h0
  have hγ0 : 0 < γ := by linarith
  have hd1 : (1 : ℝ) ≤ d := by exact_mod_cast hd0
  set s : ℝ := √(d : ℝ) with hs
  have hs1 : 1 ≤ s := by rw [hs]; exact Real.one_le_sqrt.2 hd1
  have hsd : s * s = d := Real.mul_self_sqrt (by linarith)
  have hsd' : s ≤ d := by nlinarith
  set κ : ℝ := 1 + 1 / γ with hκ
  have hκ1 : 1 ≤ κ := by have : 0 < 1 / γ := by positivity
                         linarith
  have e0 : 4 * δ + 4 * δ / γ = 4 * κ * δ := by rw [hκ]; field_simp
  have b1 : κ * s * δ ≤ eps / 120 := by
    have : κ * s * δ ≤ κ * d * δ := by gcongr
    linarith
  have b2 : κ * δ ≤ κ * s * δ := by
    have := mul_le_mul_of_nonneg_left hs1 (mul_nonneg (by linarith : 0 ≤ κ) hδ)
    linarith
  have b3 : δ ≤ κ * δ := by nlinarith
  have b4 : s * δ ≤ κ * s * δ := by
    have := mul_le_mul_of_nonneg_right hκ1 (mul_nonneg (by linarith : 0 ≤ s) hδ)
    linarith
  have heps2 : eps < 1 / 2 := by nlinarith
  have herr : err (4 * κ * δ) δ (fun _ => 1 / (2 * s)) 1 = (8 * κ * δ + δ) * (2 * s) + δ := by
    have hp : 0 ≤ (8 * κ * δ + δ) * (2 * s) + δ := by positivity
    simp only [err, Nat.cast_zero, zero_mul, add_zero, div_div_eq_mul_div, div_one]
    rw [max_eq_right]
    · ring
    · have : (2 * (4 * κ * δ) + δ) * (2 * s) + δ = (8 * κ * δ + δ) * (2 * s) + δ := by ring
      rw [this]; exact hp
  have hsig : sig (4 * κ * δ) δ (fun _ => 1 / (2 * s)) 1 =
      4 * κ * δ + (6 * ((8 * κ * δ + δ) * (2 * s) + δ) + δ) := by
    unfold sig; rw [herr]; simp
  have hsigle : sig (4 * κ * δ) δ (fun _ => 1 / (2 * s)) 1 + δ ≤ eps := by
    rw [hsig]; nlinarith
  have hsig0 : 0 ≤ sig (4 * κ * δ) δ (fun _ => 1 / (2 * s)) 1 := by rw [hsig]; positivity
  obtain ⟨U, hU1, _, hU3, hU4⟩ := null_close (A := icobMatrix X X) hγ0 hgap hδ (eps := eps)
    (by nlinarith) (by nlinarith) (by nlinarith) (ρ := fun _ => 1 / (2 * s)) (fun _ => by positivity)
    (mm := 1) (M := 1) (by rw [e0]; exact hsigle) (by rw [e0]; linarith)
    (by
      rw [e0]
      set z := sig (4 * κ * δ) δ (fun _ => 1 / (2 * s)) 1
      have h2 : eps + δ + z ≤ 2 * eps := by linarith
      have h3 : (eps + δ + z) ^ 2 ≤ (2 * eps) ^ 2 := by
        apply pow_le_pow_left₀ _ h2
        linarith
      push_cast
      have h4 : (d : ℝ) * d * (eps + δ + z) ^ 2 ≤ d * d * (2 * eps) ^ 2 := by gcongr
      have h5 : (d : ℝ) * d * (2 * eps) ^ 2 = (2 * d * eps) ^ 2 := by ring
      have h6 : (2 * d * eps) ^ 2 < 1 := by
        have : 0 < 2 * d * eps := by positivity
        nlinarith
      linarith)
    (Or.inl ⟨h1.le, le_rfl⟩)
    (by
      rw [e0]
      rintro b hb ⟨p, hp⟩ V hV hVk hVl ν hν hab
      rw [abs_le] at hab
      rcases Nat.lt_or_ge V.length 1 with hl | hl
      · obtain rfl : V = [] := List.length_eq_zero_iff.1 (by omega)
        have e : gsReduce [] b = b := rfl
        rw [e] at hab
        rcases norm_row hd0 h1 hb hp with h0 | h0
        · rw [h0] at hab; linarith
        · have h7 : (1 : ℝ) / (2 * s) ≤ 1 / s - eps := by
            have h8 : eps * (2 * s) ≤ 1 := by nlinarith
            have h9 : (1 : ℝ) / s = 2 * (1 / (2 * s)) := by field_simp
            have h10 : eps ≤ 1 / (2 * s) := by rw [le_div_iff₀ (by positivity)]; exact h8
            linarith
          rw [h0] at hab
          linarith
      · have hsp : lspan V = kernel (icobMatrix X X) := by
          apply Submodule.eq_of_le_of_finrank_eq (lspan_le.2 hVk)
          rw [← oList_length hV, h1]; omega
        have hz : gsReduce V b = 0 := by
          have h7 : gsReduce V b ∈ lspan V := by rw [hsp]; exact gsReduce_mem hVk hb
          have h8 := inner_lspan (u := gsReduce V b)
            (fun q hq => inner_eq_zero_symm.1 (gsReduce_orth hV b q hq)) h7
          exact inner_self_eq_zero.1 h8
        rw [hz, norm_zero] at hab
        linarith) h
  rw [hU4.length_eq, hU3, h1]

/-- `is_irreducible` counts one vector only when the commutant is one-dimensional. -/
theorem change_of_length (hgap : Gap γ (icobMatrix X X)) (heps : 0 < eps) (hγ : 2 * eps ≤ γ)
    (hd : 2 * d * eps < 1) (hδ : 0 ≤ δ) (hδe : 120 * (1 + 1 / γ) * d * δ ≤ eps)
    {R : List (Vec (d * d))} (hR : R.length ≤ 1) (hd0 : 0 < d)
    (h : NullRun δ eps (icobMatrix X X) R) :
    R.length = Module.finrank ℂ (kernel (icobMatrix X X)) := by
  have hγ0 : 0 < γ := by linarith
  have hd1 : (1 : ℝ) ≤ d := by exact_mod_cast hd0
  set κ : ℝ := 1 + 1 / γ with hκ
  have hκ1 : 1 ≤ κ := by have : 0 < 1 / γ := by positivity
                         linarith
  have e0 : 4 * δ + 4 * δ / γ = 4 * κ * δ := by rw [hκ]; field_simp
  have b2 : κ * δ ≤ κ * d * δ := by
    have := mul_le_mul_of_nonneg_left hd1 (mul_nonneg (by linarith : 0 ≤ κ) hδ)
    linarith
  have b3 : δ ≤ κ * δ := by nlinarith
  have heps2 : eps < 1 / 2 := by nlinarith
  set t : ℝ := δ / eps with ht
  have ht0 : 0 ≤ t := by positivity
  have hδt : δ = t * eps := by rw [ht]; field_simp
  have b5 : κ * d * t ≤ 1 / 120 := by
    rw [hδt] at hδe
    have : (120 * (κ * d * t)) * eps ≤ 1 * eps := by linarith
    have := le_of_mul_le_mul_right this heps
    linarith
  have b6 : d * t ≤ κ * d * t := by
    have := mul_le_mul_of_nonneg_right hκ1 (mul_nonneg (by linarith : (0 : ℝ) ≤ d) ht0)
    linarith
  have herr : err (4 * κ * δ) δ (fun _ => eps) 1 = (8 * κ + 1) * t + δ := by
    have e : (2 * (4 * κ * δ) + δ) / eps + δ = (8 * κ + 1) * t + δ := by rw [ht]; ring
    have hp : 0 ≤ (8 * κ + 1) * t + δ := by positivity
    simp only [err, Nat.cast_zero, zero_mul, add_zero]
    rw [e, max_eq_right hp]
  have hsig : sig (4 * κ * δ) δ (fun _ => eps) 1 =
      4 * κ * δ + (6 * ((8 * κ + 1) * t + δ) + δ) := by
    unfold sig; rw [herr]; simp
  have hsig0 : sig (4 * κ * δ) δ (fun _ => eps) 0 = 4 * κ * δ := by
    unfold sig; simp
  have hpos : 0 ≤ sig (4 * κ * δ) δ (fun _ => eps) 1 := by rw [hsig]; positivity
  have hb : d * (eps + δ + sig (4 * κ * δ) δ (fun _ => eps) 1) < 1 := by
    have c1 : d * (κ * δ) ≤ eps / 120 := by linarith
    have c2 : d * δ ≤ eps / 120 := by
      have := mul_le_mul_of_nonneg_left b3 (by linarith : (0 : ℝ) ≤ d)
      linarith
    have c3 : d * ((8 * κ + 1) * t) ≤ 9 / 120 := by
      have : d * ((8 * κ + 1) * t) = 8 * (κ * d * t) + d * t := by ring
      linarith
    have c4 : d * (eps + δ + (4 * κ * δ + (6 * ((8 * κ + 1) * t + δ) + δ))) =
        d * eps + 4 * (d * (κ * δ)) + 6 * (d * ((8 * κ + 1) * t)) + 8 * (d * δ) := by ring
    rw [hsig, c4]
    linarith
  have hz1 : sig (4 * κ * δ) δ (fun _ => eps) 1 ≤ 1 := by
    have c5 := mul_le_mul_of_nonneg_right hd1
      (by linarith : 0 ≤ eps + δ + sig (4 * κ * δ) δ (fun _ => eps) 1)
    linarith
  obtain ⟨U, _, _, hU3, hU4⟩ := null_close_const (A := icobMatrix X X) hγ0 hgap hδ (eps := eps)
    (by linarith) (by linarith) (by linarith)
    (mm := 0) (M := 1) (R := R) (by rw [e0, hsig0]; linarith) (by rw [e0]; exact hz1)
    (by
      rw [e0]
      set z := sig (4 * κ * δ) δ (fun _ => eps) 1
      push_cast
      have h5 : (d : ℝ) * d * (eps + δ + z) ^ 2 = (d * (eps + δ + z)) ^ 2 := by ring
      have h6 : 0 ≤ d * (eps + δ + z) := by positivity
      rw [h5]
      exact pow_lt_one₀ h6 hb two_ne_zero)
    (Or.inr ⟨hR, le_rfl⟩) h
  rw [hU4.length_eq, hU3]

/-- **All runs of `is_irreducible`**: `True` exactly when the commutant is one-dimensional. -/
theorem irreducibleRun_iff (hgap : Gap γ (icobMatrix X X)) (heps : 0 < eps) (hγ : 2 * eps ≤ γ)
    (hd : 2 * d * eps < 1) (hδ : 0 ≤ δ) (hδe : 120 * (1 + 1 / γ) * d * δ ≤ eps) {b : Bool}
    (h : IrreducibleRun δ eps X b) : b = true ↔ Module.finrank ℂ (intertwiners X X) = 1 := by
  obtain ⟨S, ⟨_, R, hR, rfl⟩, rfl⟩ := h
  rw [decide_eq_true_iff, List.length_map, ← finrank_kernel_icob]
  constructor
  · intro h1
    rcases Nat.eq_zero_or_pos d with h0 | h0
    · subst h0
      exfalso
      have := hR
      obtain ⟨_, _, _, rows, _, hrun⟩ := this
      have e : List.ofFn rows = [] := by simp
      rw [e] at hrun
      have : R = [] := hrun
      rw [this] at h1
      simp at h1
    · rw [← change_of_length hgap heps hγ hd hδ hδe h1.le h0 hR, h1]
  · intro h1
    exact change_scalars hgap heps hγ hd hδ hδe h1 hR

end scalars

/-! ### Kernels of dimension at most one -/

section one

variable {m n : ℕ} {δ eps γ : ℝ}

/-- Two unit vectors of a line differ by a phase. -/
theorem phase {E : Type*} [NormedAddCommGroup E] [InnerProductSpace ℂ E] {u v : E} (hu : ‖u‖ = 1)
    (hv : ‖v‖ = 1) (h : u ∈ lspan [v]) : ∃ z : ℂ, ‖z‖ = 1 ∧ u = z • v := by
  have e : lspan [v] = Submodule.span ℂ {v} := by simp [lspan]
  rw [e, Submodule.mem_span_singleton] at h
  obtain ⟨z, rfl⟩ := h
  rw [norm_smul, hv, mul_one] at hu
  exact ⟨z, hu, rfl⟩

/-- At most one vector: every run agrees with the exact computation up to a phase. -/
theorem null_one {A : Matrix (Fin m) (Fin n) ℂ} (hgap : Gap γ A) (heps : 0 < eps) (heps1 : eps ≤ 1)
    (hγ : 2 * eps ≤ γ) (hn : 4 * n * eps ^ 2 < 1) (hδ : 0 ≤ δ)
    (hδe : 66 * (1 + 1 / γ) * δ ≤ eps ^ 2) (h1 : Module.finrank ℂ (kernel A) ≤ 1) {eigh : EighFn}
    (he : EighSpec eigh) {R : List (Vec n)} (h : NullRun δ eps A R) :
    List.Forall₂ (fun q u => ∃ z : ℂ, ‖z‖ = 1 ∧ ‖q - z • u‖ ≤ 10 * (1 + 1 / γ) * δ / eps) R
      (nullspace eigh eps A) := by
  have hγ0 : 0 < γ := by linarith
  set κ : ℝ := 1 + 1 / γ with hκ
  have hκ1 : 1 ≤ κ := by have : 0 < 1 / γ := by positivity
                         linarith
  have e0 : 4 * δ + 4 * δ / γ = 4 * κ * δ := by rw [hκ]; field_simp
  set t : ℝ := δ / eps with ht
  have ht0 : 0 ≤ t := by positivity
  have hδt : δ = t * eps := by rw [ht]; field_simp
  have b1 : κ * t ≤ eps / 66 := by
    rw [hδt] at hδe
    have : (66 * (κ * t)) * eps ≤ eps * eps := by linarith
    have := le_of_mul_le_mul_right this heps
    linarith
  have b2 : t ≤ κ * t := by nlinarith
  have b3 : κ * δ ≤ κ * t := by
    have : δ ≤ t := by rw [hδt]; nlinarith
    exact mul_le_mul_of_nonneg_left this (by linarith)
  have b4 : δ ≤ κ * δ := by nlinarith
  have herr : err (4 * κ * δ) δ (fun _ => eps) 1 = (8 * κ + 1) * t + δ := by
    have e : (2 * (4 * κ * δ) + δ) / eps + δ = (8 * κ + 1) * t + δ := by rw [ht]; ring
    have hp : 0 ≤ (8 * κ + 1) * t + δ := by positivity
    simp only [err, Nat.cast_zero, zero_mul, add_zero]
    rw [e, max_eq_right hp]
  have hsig : sig (4 * κ * δ) δ (fun _ => eps) 1 =
      4 * κ * δ + (6 * ((8 * κ + 1) * t + δ) + δ) := by
    unfold sig; rw [herr]; simp
  have hs1 : sig (4 * κ * δ) δ (fun _ => eps) 1 + δ ≤ eps := by
    rw [hsig]; linarith
  have hs0 : 0 ≤ sig (4 * κ * δ) δ (fun _ => eps) 1 := by rw [hsig]; positivity
  obtain ⟨U, hU1, hU2, hU3, hU4⟩ := null_close_const (A := A) hγ0 hgap hδ (eps := eps)
    (by linarith) (by linarith) (by linarith)
    (mm := 1) (M := 1) (R := R) (by rw [e0]; exact hs1) (by rw [e0]; linarith)
    (by
      rw [e0]
      set z := sig (4 * κ * δ) δ (fun _ => eps) 1
      have h2 : (eps + δ + z) ^ 2 ≤ (2 * eps) ^ 2 := by
        apply pow_le_pow_left₀ <;> linarith
      have h3 : (n : ℝ) * (eps + δ + z) ^ 2 ≤ n * (2 * eps) ^ 2 := by gcongr
      have h4 : (n : ℝ) * (2 * eps) ^ 2 = 4 * n * eps ^ 2 := by ring
      linarith)
    (Or.inl ⟨h1, le_rfl⟩) h
  have hne : (n : ℝ) * eps ^ 2 < 1 := by
    have : 0 ≤ (n : ℝ) * eps ^ 2 := by positivity
    linarith
  have hgap' : Gap eps A := fun μ x hx hev hμ => (by linarith : eps ≤ γ).trans (hgap μ x hx hev hμ)
  have hN1 := nullspace_oList (eigh := eigh) heps A
  have hN2 := nullspace_kernel he heps A hne hgap'
  have hN3 : (nullspace eigh eps A).length = Module.finrank ℂ (kernel A) := by
    rw [oList_length hN1, hN2]
  generalize nullspace eigh eps A = N at hN1 hN2 hN3 ⊢
  rcases Nat.lt_or_ge (Module.finrank ℂ (kernel A)) 1 with hk | hk
  · have e1 : N = [] := List.length_eq_zero_iff.1 (by omega)
    have e2 : U = [] := List.length_eq_zero_iff.1 (by omega)
    subst e2
    cases hU4
    rw [e1]
    exact .nil
  · obtain ⟨v, rfl⟩ := List.length_eq_one_iff.1 (by omega : N.length = 1)
    obtain ⟨u, rfl⟩ := List.length_eq_one_iff.1 (by omega : U.length = 1)
    cases hU4 with
    | cons hq ht =>
      cases ht
      obtain ⟨z, hz, rfl⟩ := phase (hU1.norm u (by simp)) (hN1.norm v (by simp))
        (by rw [hN2, ← hU2]; exact mem_lspan (by simp))
      refine .cons ⟨z, hz, hq.trans ?_⟩ .nil
      rw [List.length_singleton, e0, herr]
      have e3 : 10 * κ * δ / eps = 10 * (κ * t) := by rw [ht]; ring
      rw [e3]
      linarith

end one

/-! ### Residuals -/

theorem norm_sq_unvec {d₁ d₂ : ℕ} (v : Vec (d₁ * d₂)) : ‖v‖ ^ 2 = ∑ i, ∑ j, ‖unvec v i j‖ ^ 2 := by
  rw [EuclideanSpace.norm_sq_eq, ← finProdFinEquiv.sum_comp, Fintype.sum_prod_type]
  rfl

/-- Cauchy-Schwarz for the entries of a product. -/
theorem norm_mul_apply_le {p q r : ℕ} {M : Matrix (Fin p) (Fin q) ℂ} {N : Matrix (Fin q) (Fin r) ℂ}
    {B C : ℝ} (hB : 0 ≤ B) (hC : 0 ≤ C) (hM : ∑ i, ∑ j, ‖M i j‖ ^ 2 ≤ B ^ 2)
    (hN : ∑ i, ∑ j, ‖N i j‖ ^ 2 ≤ C ^ 2) (i : Fin p) (k : Fin r) : ‖(M * N) i k‖ ≤ B * C := by
  have h1 : ∑ j, ‖M i j‖ ^ 2 ≤ B ^ 2 :=
    (Finset.single_le_sum (f := fun i => ∑ j, ‖M i j‖ ^ 2) (fun _ _ => by positivity)
      (Finset.mem_univ i)).trans hM
  have h2 : ∑ j, ‖N j k‖ ^ 2 ≤ C ^ 2 := by
    refine le_trans (Finset.sum_le_sum fun j _ => ?_) hN
    exact Finset.single_le_sum (f := fun k => ‖N j k‖ ^ 2) (fun _ _ => by positivity) (Finset.mem_univ k)
  rw [Matrix.mul_apply]
  have h3 : ‖∑ j, M i j * N j k‖ ≤ ∑ j, ‖M i j‖ * ‖N j k‖ :=
    (norm_sum_le _ _).trans (Finset.sum_le_sum fun j _ => norm_mul_le _ _)
  have h4 := Finset.sum_mul_sq_le_sq_mul_sq Finset.univ (fun j => ‖M i j‖) fun j => ‖N j k‖
  have h5 : (∑ j, ‖M i j‖ * ‖N j k‖) ^ 2 ≤ (B * C) ^ 2 := by
    rw [mul_pow]
    refine h4.trans (mul_le_mul h1 h2 (by positivity) (by positivity))
  have h6 : 0 ≤ ∑ j, ‖M i j‖ * ‖N j k‖ := by positivity
  exact h3.trans ((sq_le_sq₀ h6 (by positivity)).1 h5)

/-- A matrix within `τ` of an intertwiner intertwines up to `2 B τ`. -/
theorem residual {n d₁ d₂ : ℕ} {X₁ : Fin n → Matrix (Fin d₁) (Fin d₁) ℂ}
    {X₂ : Fin n → Matrix (Fin d₂) (Fin d₂) ℂ} {B τ : ℝ} (hB : 0 ≤ B) (hτ : 0 ≤ τ)
    (h₁ : ∀ a, ∑ i, ∑ j, ‖X₁ a i j‖ ^ 2 ≤ B ^ 2) (h₂ : ∀ a, ∑ i, ∑ j, ‖X₂ a i j‖ ^ 2 ≤ B ^ 2)
    {q u : Vec (d₁ * d₂)} (hu : u ∈ kernel (icobMatrix X₁ X₂)) (hq : ‖q - u‖ ≤ τ) (a : Fin n)
    (i : Fin d₁) (k : Fin d₂) :
    ‖(X₁ a * unvec q) i k - (unvec q * X₂ a) i k‖ ≤ 2 * B * τ := by
  have hE : ∑ i, ∑ j, ‖unvec (q - u) i j‖ ^ 2 ≤ τ ^ 2 := by
    rw [← norm_sq_unvec]
    exact pow_le_pow_left₀ (norm_nonneg _) hq 2
  have e1 : unvec q = unvec (q - u) + unvec u := by
    show unvec q = unvec (q - u + u)
    rw [sub_add_cancel]
  have e2 := (icobMatrix_mulVec X₁ X₂ u).1 hu a
  have e3 : (X₁ a * unvec q) i k - (unvec q * X₂ a) i k =
      (X₁ a * unvec (q - u)) i k - (unvec (q - u) * X₂ a) i k := by
    rw [e1, Matrix.mul_add, Matrix.add_mul, Matrix.add_apply, Matrix.add_apply, e2]
    ring
  rw [e3]
  have h3 := norm_mul_apply_le hB hτ (h₁ a) hE i k
  have h4 := norm_mul_apply_le hτ hB hE (h₂ a) i k
  refine (norm_sub_le _ _).trans ?_
  linarith

/-! ### Accuracy of the order of the squared tolerance is needed -/

section sharp

open Complex

/-- A matrix with one row whose kernel is spanned by `(2 eps, 1)`. -/
noncomputable def sharpMat (eps : ℝ) : Matrix (Fin 1) (Fin 2) ℂ :=
  let N : ℝ := √(1 + 4 * eps ^ 2)
  !![((1 / N : ℝ) : ℂ), ((-(2 * eps) / N : ℝ) : ℂ)]

/-- Its eigenvectors. -/
noncomputable def sharpVec (eps : ℝ) : Fin 2 → Vec 2 :=
  let N : ℝ := √(1 + 4 * eps ^ 2)
  ![!₂[((2 * eps / N : ℝ) : ℂ), ((1 / N : ℝ) : ℂ)], !₂[((1 / N : ℝ) : ℂ), ((-(2 * eps) / N : ℝ) : ℂ)]]

variable {eps : ℝ}

theorem sharpN_pos : 0 < √(1 + 4 * eps ^ 2) := Real.sqrt_pos.2 (by positivity)

theorem sharpN_sq : √(1 + 4 * eps ^ 2) ^ 2 = 1 + 4 * eps ^ 2 := Real.sq_sqrt (by positivity)

theorem sharpVec_orthonormal : Orthonormal ℂ (sharpVec eps) := by
  have h0 := sharpN_pos (eps := eps)
  have h1 := sharpN_sq (eps := eps)
  rw [orthonormal_iff_ite]
  intro i j
  fin_cases i <;> fin_cases j <;>
    simp [sharpVec, Fin.sum_univ_two, Complex.ext_iff, inner]
  all_goals
    generalize √(1 + 4 * eps ^ 2) = N at *
    field_simp
    try nlinarith

theorem sharpMat_mul : sharpMat eps * (sharpMat eps)ᴴ = 1 := by
  have h0 := sharpN_pos (eps := eps)
  have h1 := sharpN_sq (eps := eps)
  ext i j
  fin_cases i; fin_cases j
  simp [sharpMat, Matrix.mul_apply, Fin.sum_univ_two, Complex.ext_iff]
  field_simp
  nlinarith

theorem sharp_gap : Gap 1 (sharpMat eps) := by
  intro μ x hx hev hμ
  by_cases hy : sharpMat eps *ᵥ x = 0
  · exfalso
    apply hx
    rw [← mulVec_mulVec, hy, mulVec_zero] at hev
    have : (μ : ℂ) ≠ 0 := by exact_mod_cast hμ.ne'
    exact (smul_eq_zero.1 hev.symm).resolve_left this
  · have h2 := congrArg (fun v => sharpMat eps *ᵥ v) hev
    simp only [mulVec_mulVec, mulVec_smul] at h2
    rw [← Matrix.mul_assoc, sharpMat_mul, Matrix.one_mul] at h2
    have h3 : ((1 : ℂ) - μ) • (sharpMat eps *ᵥ x) = 0 := by rw [sub_smul, one_smul, ← h2, sub_self]
    have h4 := (smul_eq_zero.1 h3).resolve_right hy
    have h5 : (μ : ℂ) = 1 := (sub_eq_zero.1 h4).symm
    have h6 : μ = 1 := by exact_mod_cast h5
    rw [h6]

theorem mem_sharp_kernel (x : Vec 2) : x ∈ kernel (sharpMat eps) ↔ x 0 = 2 * eps * x 1 := by
  have h0 := sharpN_pos (eps := eps)
  have h0' : ((√(1 + 4 * eps ^ 2) : ℝ) : ℂ) ≠ 0 := by exact_mod_cast h0.ne'
  have e : (sharpMat eps *ᵥ x.ofLp) 0 = (x 0 - 2 * eps * x 1) / ((√(1 + 4 * eps ^ 2) : ℝ) : ℂ) := by
    simp [sharpMat, mulVec, dotProduct, Fin.sum_univ_two]
    field_simp
    ring
  constructor
  · intro hx
    have h1 : (sharpMat eps *ᵥ x.ofLp) 0 = 0 := congrFun hx 0
    rw [e, div_eq_zero_iff] at h1
    exact sub_eq_zero.1 (h1.resolve_right h0')
  · intro hx
    show sharpMat eps *ᵥ x.ofLp = 0
    funext i
    fin_cases i
    show (sharpMat eps *ᵥ x.ofLp) 0 = 0
    rw [e, hx, sub_self, zero_div]

theorem sharp_finrank : Module.finrank ℂ (kernel (sharpMat eps)) = 1 := by
  rw [finrank_eq_one_iff']
  refine ⟨⟨!₂[2 * (eps : ℂ), 1], (mem_sharp_kernel _).2 (by simp)⟩, ?_, ?_⟩
  · intro h
    have := congrArg Subtype.val h
    have h1 := congrArg (fun v : Vec 2 => v 1) this
    simp at h1
  · rintro ⟨x, hx⟩
    refine ⟨x 1, Subtype.ext ?_⟩
    have := (mem_sharp_kernel x).1 hx
    ext i
    fin_cases i
    · simp [this]; ring
    · simp

theorem sharp_eig (k : Fin 2) : ((sharpMat eps)ᴴ * sharpMat eps) *ᵥ (sharpVec eps k).ofLp =
    ((![0, 1] k : ℝ) : ℂ) • (sharpVec eps k).ofLp := by
  have h0 := sharpN_pos (eps := eps)
  fin_cases k
  · have h1 : sharpVec eps 0 ∈ kernel (sharpMat eps) := (mem_sharp_kernel _).2 (by
      simp [sharpVec]; ring)
    have h2 : sharpMat eps *ᵥ (sharpVec eps 0).ofLp = 0 := h1
    show ((sharpMat eps)ᴴ * sharpMat eps) *ᵥ (sharpVec eps 0).ofLp = _
    rw [← mulVec_mulVec, h2]
    simp
  · have e : (sharpVec eps 1).ofLp = (sharpMat eps)ᴴ *ᵥ ![1] := by
      funext i
      fin_cases i <;> simp [sharpVec, sharpMat, mulVec, dotProduct]
    show ((sharpMat eps)ᴴ * sharpMat eps) *ᵥ (sharpVec eps 1).ofLp = _
    rw [e, mulVec_mulVec, Matrix.mul_assoc, sharpMat_mul, Matrix.mul_one]
    show _ = ((1 : ℝ) : ℂ) • (sharpVec eps 1).ofLp
    rw [e]
    simp

theorem norm_sq_sub {E : Type*} [NormedAddCommGroup E] [InnerProductSpace ℂ E] {u v : E}
    (hu : ‖u‖ = 1) : ‖v - inner ℂ u v • u‖ ^ 2 = ‖v‖ ^ 2 - ‖inner ℂ u v‖ ^ 2 := by
  have h0 : inner ℂ u (v - inner ℂ u v • u) = 0 := by
    rw [inner_sub_right, inner_smul_right, inner_self_eq_norm_sq_to_K, hu]; simp
  have h1 : inner ℂ (v - inner ℂ u v • u) (inner ℂ u v • u) = 0 := by
    rw [inner_smul_right, inner_eq_zero_symm.1 h0, mul_zero]
  have h2 := norm_add_sq_eq_norm_sq_add_norm_sq_of_inner_eq_zero (𝕜 := ℂ) _ _ h1
  rw [sub_add_cancel, norm_smul, hu, mul_one] at h2
  nlinarith

theorem sharp_ineq {N : ℝ} (heps : 0 < eps) (hle : eps ≤ 1 / 2) (hN : 0 < N ^ 2) (hN2 : N ^ 2 ≤ 2) :
    eps ^ 2 * (4 * eps ^ 2 / N ^ 2 + (3 * eps ^ 2) ^ 2) < 1 / N ^ 2 * (3 * eps ^ 2) ^ 2 := by
  generalize N ^ 2 = M at hN hN2
  have e1 : 1 / M * (3 * eps ^ 2) ^ 2 - eps ^ 2 * (4 * eps ^ 2 / M + (3 * eps ^ 2) ^ 2) =
      eps ^ 4 * (5 - 9 * eps ^ 2 * M) / M := by
    field_simp
    ring
  have e2 : 0 < eps ^ 4 * (5 - 9 * eps ^ 2 * M) / M := by
    apply div_pos _ hN
    apply mul_pos (by positivity)
    have : eps ^ 2 ≤ 1 / 4 := by nlinarith
    nlinarith
  linarith

/-- One vector of length two instead of one: a run with errors of `3 eps ^ 2`. -/
theorem sharp_run (heps : 0 < eps) (hle : eps ≤ 1 / 2) :
    ∃ R, NullRun (3 * eps ^ 2) eps (sharpMat eps) R ∧ R.length = 2 := by
  have h0 := sharpN_pos (eps := eps)
  have h1 := sharpN_sq (eps := eps)
  have ho := sharpVec_orthonormal (eps := eps)
  set N := √(1 + 4 * eps ^ 2) with hN
  set u := sharpVec eps 0 with hu
  set w := sharpVec eps 1 with hw
  have hun : ‖u‖ = 1 := ho.1 0
  have hwn : ‖w‖ = 1 := ho.1 1
  have huw : inner ℂ u w = 0 := ho.2 (by decide)
  set a : ℝ := 2 * eps / N with ha
  set b : ℝ := 1 / N with hb
  set δ : ℝ := 3 * eps ^ 2 with hδ
  have hδ0 : 0 ≤ δ := by positivity
  have hNsq : N ^ 2 ≤ 2 := by rw [h1]; nlinarith
  have ha2 : a ^ 2 = 4 * eps ^ 2 / N ^ 2 := by rw [ha]; ring
  have hb2 : b ^ 2 = 1 / N ^ 2 := by rw [hb]; ring
  have hp : ∀ i, nullProj eps ![0, 1] (sharpVec eps) i = starRingEnd ℂ (u i) • u := by
    intro i
    rw [nullProj_eq]
    rw [Finset.sum_eq_single_of_mem (0 : Fin 2) (by simp [heps])]
    intro j hj hj0
    fin_cases j
    · exact absurd rfl hj0
    · simp at hj; linarith
  have hp0 : nullProj eps ![0, 1] (sharpVec eps) 0 = (a : ℂ) • u := by
    rw [hp]; congr 1
    simp [hu, sharpVec, ha, hN, Complex.ext_iff]
  have hp1 : nullProj eps ![0, 1] (sharpVec eps) 1 = (b : ℂ) • u := by
    rw [hp]; congr 1
    simp [hu, sharpVec, hb, hN]
  set v0 : Vec 2 := (a : ℂ) • u + (δ : ℂ) • w with hv0
  set ν : ℝ := ‖v0‖ with hν
  have hν2 : ν ^ 2 = a ^ 2 + δ ^ 2 := by
    have h2 : inner ℂ ((a : ℂ) • u) ((δ : ℂ) • w) = 0 := by
      rw [inner_smul_left, inner_smul_right, huw]; simp
    have h3 := norm_add_sq_eq_norm_sq_add_norm_sq_of_inner_eq_zero (𝕜 := ℂ) _ _ h2
    rw [norm_smul, norm_smul, hun, hwn, Complex.norm_real, Complex.norm_real] at h3
    simp only [mul_one, Real.norm_eq_abs, abs_mul_abs_self] at h3
    rw [hν, hv0]
    nlinarith
  have hν0 : 0 ≤ ν := norm_nonneg _
  have hNpos : 0 < N ^ 2 := by positivity
  have hlt : eps < ν := by
    have : eps ^ 2 < ν ^ 2 := by
      rw [hν2, ha2]
      have : eps ^ 2 < 4 * eps ^ 2 / N ^ 2 := by
        rw [lt_div_iff₀ hNpos]
        nlinarith [sq_nonneg eps, pow_pos heps 2]
      nlinarith [sq_nonneg δ]
    exact lt_of_pow_lt_pow_left₀ 2 hν0 this
  have hνpos : 0 < ν := heps.trans hlt
  set q : Vec 2 := ((ν⁻¹ : ℝ) : ℂ) • v0 with hq
  have hqn : ‖q‖ = 1 := by
    rw [hq, norm_smul, Complex.norm_real, Real.norm_of_nonneg (by positivity), ← hν]
    field_simp
  set p1 : Vec 2 := (b : ℂ) • u with hp1'
  have hin : ‖inner ℂ q p1‖ ^ 2 = a ^ 2 * b ^ 2 / ν ^ 2 := by
    have e : inner ℂ q p1 = ((ν⁻¹ * a * b : ℝ) : ℂ) := by
      have hwu : inner ℂ w u = 0 := inner_eq_zero_symm.1 huw
      rw [hq, hp1', hv0, inner_smul_left, inner_smul_right, inner_add_left, inner_smul_left,
        inner_smul_left, hwu, inner_self_eq_norm_sq_to_K, hun]
      simp
      ring
    rw [e, Complex.norm_real, Real.norm_eq_abs, sq_abs]
    field_simp
  set v1 : Vec 2 := p1 - inner ℂ q p1 • q with hv1
  have hv1n : ‖v1‖ ^ 2 = b ^ 2 * δ ^ 2 / ν ^ 2 := by
    rw [hv1, norm_sq_sub hqn, hin, hp1', norm_smul, hun, mul_one, Complex.norm_real,
      Real.norm_eq_abs, sq_abs]
    rw [eq_div_iff (by positivity), sub_mul, div_mul_cancel₀ _ (by positivity), hν2]
    ring
  have hlt1 : eps < ‖v1‖ := by
    have : eps ^ 2 < ‖v1‖ ^ 2 := by
      rw [hv1n, lt_div_iff₀ (by positivity), hν2, ha2, hb2, hδ]
      exact sharp_ineq heps hle hNpos hNsq
    exact lt_of_pow_lt_pow_left₀ 2 (norm_nonneg _) this
  refine ⟨[q, ((‖v1‖⁻¹ : ℝ) : ℂ) • v1], ⟨![0, 1], sharpVec eps,
    eighRun_exact hδ0 (isHermitian_conjTranspose_mul_self _) ho sharp_eig,
    ![v0, p1], fun i => ?_, ?_⟩, rfl⟩
  · fin_cases i
    · show ‖v0 - nullProj eps ![0, 1] (sharpVec eps) 0‖ ≤ δ
      rw [hp0, hv0, add_sub_cancel_left, norm_smul, hwn, mul_one, Complex.norm_real,
        Real.norm_of_nonneg hδ0]
    · show ‖p1 - nullProj eps ![0, 1] (sharpVec eps) 1‖ ≤ δ
      rw [hp1, sub_self, norm_zero]; exact hδ0
  · have e : List.ofFn ![v0, p1] = [v0, p1] := by simp
    rw [e]
    refine ⟨v0, rfl, ν, by rw [← hν, sub_self, abs_zero]; exact hδ0, Or.inl ⟨hlt, q, ?_, ?_⟩⟩
    · rw [← hq, sub_self, norm_zero]; exact hδ0
    · refine ⟨v1, ⟨v1, by rw [← hv1, sub_self, norm_zero]; exact hδ0, rfl⟩, ‖v1‖, by
        rw [sub_self, abs_zero]; exact hδ0, Or.inl ⟨hlt1, _, by rw [sub_self, norm_zero]; exact hδ0, rfl⟩⟩

end sharp

end Rounding

end LieNN
