import Verif.Proofs.RoundingDecompose
import Verif.Props.Decompose
/-!
# C104: clustering and decomposition computed with rounding errors
-/
namespace LieNN.Props

open Matrix Spec Rounding

section unique

variable {E : Type*} [NormedAddCommGroup E] [NormedSpace ℝ E] {n : ℕ} {v a : Fin n → E} {δ tol γ : ℝ}

/-- C104, consistency: the runs of `unique_with_tol` without errors are the result of the exact model, which
is also a run for every larger error bound. -/
theorem C104_unique_exact (a : Fin n → E) (fuel : ℕ) (res : Option (Py (Clusters E n))) :
    (UniqueRun 0 tol a fuel res ↔ res = uniqueWithTol tol a fuel) ∧
      ∀ δ, 0 ≤ δ → UniqueRun δ tol a fuel (uniqueWithTol tol a fuel) := by
  refine ⟨⟨?_, fun h => h ▸ uniqueRun_exact le_rfl a fuel⟩, fun δ hδ => uniqueRun_exact hδ a fuel⟩
  rintro ⟨D, hD, h⟩
  have hD' : D = fun i j => ‖a i - a j‖ := by
    funext i j
    have := hD i j
    rwa [abs_nonpos_iff, sub_eq_zero] at this
  rw [hD', uwtLoopD_eq (a := a) (γ := tol) (fun _ _ => Iff.rfl)] at h
  unfold uniqueWithTol
  rcases hr : uwtLoop tol a fuel (fun _ => none) 0 with _ | e | inv
  · rw [hr] at h; exact h
  · rw [hr] at h; exact h
  · rw [hr] at h
    simp only at h ⊢
    split_ifs with h0
    · rw [if_pos h0] at h; exact h
    · rw [if_neg h0] at h
      obtain ⟨centers, h1, h2, rfl⟩ := h
      congr 3
      apply List.ext_getElem
      · simpa using h1
      · intro c hc _
        have := h2 c hc
        rw [norm_le_zero_iff, sub_eq_zero] at this
        simpa using this

/-- C104, `unique_with_tol` on values known up to errors: when the exact values are equal or `γ` apart and
`3 δ < tol ≤ γ - 3 δ`, every run returns; the clusters are the sets of equal exact values, numbered by first
appearance, and the centers are within `2 δ` of the exact values. -/
theorem C104_unique (hn : n ≠ 0) (hδ : 0 ≤ δ) (hsep : ∀ i j, v i ≠ v j → γ ≤ ‖v i - v j‖)
    (ha : ∀ i, ‖a i - v i‖ ≤ δ) (h1 : 3 * δ < tol) (h2 : tol + 3 * δ ≤ γ) (fuel : ℕ) (hf : n < fuel)
    {res : Option (Py (Clusters E n))} (hrun : UniqueRun δ tol a fuel res) :
    ∃ k inv centers, ∃ first : Fin k → Fin n, res = some (.ok ⟨centers, inv⟩) ∧
      IsClustering γ v k inv first ∧ (∀ i j, inv i = inv j ↔ v i = v j) ∧ centers.length = k ∧
      ∀ i (hi : inv i < centers.length), ‖centers[inv i] - v i‖ ≤ 2 * δ := by
  classical
  obtain ⟨D, hD, h⟩ := hrun
  have hγ : 0 < γ := by linarith
  have hiff := dist_iff hsep ha h1 h2 hD
  have hv : ∀ i j, v i = v j ↔ ‖v i - v j‖ < γ := by
    intro i j
    constructor
    · intro h; rw [h, sub_self, norm_zero]; exact hγ
    · intro h
      by_contra hne
      exact absurd (hsep i j hne) (not_le.2 h)
  rw [uwtLoopD_eq (a := v) (γ := γ) fun i j => (hiff i j).trans (hv i j)] at h
  obtain ⟨k, inv, first, hcl, hinv⟩ := clustering_of_separated hγ hsep
  have hk : k ≤ n := by simpa using Fintype.card_le_of_injective first hcl.mono.injective
  rcases uwtLoop_complete hcl fuel (fun _ => none) 0 (by intro j; simp) (by omega) with hr | hr
  swap
  · omega
  rw [hr] at h
  simp only [if_neg hn, Option.getD_some] at h
  obtain ⟨centers, c1, c2, rfl⟩ := h
  have hlen : centers.length = k := by rw [c1]; exact clustering_nonempty hcl hn hγ
  refine ⟨k, inv, centers, first, rfl, hcl, hinv, hlen, fun i hi => ?_⟩
  have c3 := c2 (inv i) hi
  set S := Finset.univ.filter fun j => inv j = inv i with hS
  have hpos : 0 < (S.card : ℝ) := by
    have : 0 < S.card := Finset.card_pos.2 ⟨i, by simp [hS]⟩
    exact_mod_cast this
  have c4 : ‖clusterCenter a inv (inv i) - v i‖ ≤ δ := by
    have e : clusterCenter a inv (inv i) - v i = ((S.card : ℝ))⁻¹ • ∑ j ∈ S, (a j - v i) := by
      unfold clusterCenter
      rw [Finset.sum_sub_distrib, smul_sub, Finset.sum_const, ← Nat.cast_smul_eq_nsmul ℝ, smul_smul,
        inv_mul_cancel₀ hpos.ne', one_smul]
    rw [e, norm_smul, norm_inv, Real.norm_of_nonneg hpos.le, inv_mul_le_iff₀ hpos]
    refine (norm_sum_le _ _).trans ?_
    calc ∑ j ∈ S, ‖a j - v i‖ ≤ ∑ _j ∈ S, δ := Finset.sum_le_sum fun j hj => by
          rw [← (hinv j i).1 (by simpa [hS] using hj)]
          exact ha j
      _ = S.card * δ := by rw [Finset.sum_const, nsmul_eq_mul]
  calc ‖centers[inv i] - v i‖ = ‖(centers[inv i] - clusterCenter a inv (inv i)) +
        (clusterCenter a inv (inv i) - v i)‖ := by congr 1; abel
    _ ≤ 2 * δ := (norm_add_le _ _).trans (by linarith)

end unique

/-- C104, the order of the bound is right: three values that are equal up to errors of `tol / 2` can make
`unique_with_tol` raise `ValueError`, even when the distances are computed exactly. -/
theorem C104_unique_raises {δ tol : ℝ} (h1 : tol ≤ 2 * δ) (h2 : δ < tol) (fuel : ℕ) (hf : 3 < fuel) :
    (∀ i, ‖(![-δ, δ, 0] : Fin 3 → ℝ) i - 0‖ ≤ δ) ∧
      uniqueWithTol tol (![-δ, δ, 0] : Fin 3 → ℝ) fuel = some (.error .valueError) := by
  have hδ : 0 < δ := by linarith
  refine ⟨fun i => by fin_cases i <;> simp [abs_of_pos hδ, hδ.le], ?_⟩
  rcases uniqueWithTol_spec (a := (![-δ, δ, 0] : Fin 3 → ℝ)) (hδ.trans h2) (by norm_num) fuel hf with
    ⟨k, inv, first, h, _⟩ | ⟨h, _⟩
  swap
  · exact h
  exfalso
  have f0 : first ⟨inv 0, h.lt 0⟩ = 0 := le_antisymm (h.first_le 0 ⟨inv 0, h.lt 0⟩ rfl) (Fin.zero_le _)
  have m := fun j => h.mem_iff j ⟨inv 0, h.lt 0⟩
  rw [f0] at m
  have m2 : inv 2 = inv 0 := (m 2).2 (by simpa [abs_of_pos hδ] using h2)
  have m1 : inv 1 ≠ inv 0 := by
    intro hc
    have := (m 1).1 hc
    simp only [Matrix.cons_val, Real.norm_eq_abs] at this
    rw [show -δ - δ = -(2 * δ) by ring, abs_neg, abs_of_pos (by linarith)] at this
    linarith
  have f1 : first ⟨inv 1, h.lt 1⟩ = 1 := by
    have hle := h.first_le 1 ⟨inv 1, h.lt 1⟩ rfl
    have hin : inv (first ⟨inv 1, h.lt 1⟩) = inv 1 :=
      (h.mem_iff (first ⟨inv 1, h.lt 1⟩) ⟨inv 1, h.lt 1⟩).2 (by simpa using hδ.trans h2)
    generalize first ⟨inv 1, h.lt 1⟩ = i at hle hin
    fin_cases i
    · exact absurd hin.symm m1
    · rfl
    · exact absurd hle (by decide)
  have m' := h.mem_iff 2 ⟨inv 1, h.lt 1⟩
  rw [f1] at m'
  have : inv 2 = inv 1 := m'.2 (by simpa [abs_of_pos hδ] using h2)
  exact m1 (this.symm.trans m2)

section decompose

variable {n d : ℕ} {δ eps : ℝ}

/-- C104, consistency: the exact model of `decompose_rep_into_irreps` is a run on the result of `eig`. -/
theorem C104_decompose_exact (hδ : 0 ≤ δ) (eig : EigFn) (X : Fin n → Matrix (Fin d) (Fin d) ℂ)
    (M : Matrix (Fin d) (Fin d) ℂ) (fuel : ℕ) :
    DecomposeRun δ eps X (eig d M).1 (eig d M).2 fuel (decomposeFrom eig eps X M fuel) := by
  refine ⟨_, uniqueRun_exact hδ _ fuel, ?_⟩
  unfold decomposeFrom eigenspaces
  rcases uniqueWithTol eps (eig d M).1 fuel with _ | e | c
  · rfl
  · rfl
  · refine ⟨_, rfl, by simp, fun j hj => ?_⟩
    have key : ∀ (B : List (Vec d)) (Z : Σ m, Fin n → Matrix (Fin m) (Fin m) ℂ),
        Z = ⟨B.length, fun a => compress (X a) B⟩ → ∃ h : Z.1 = B.length, ∀ a p q,
          ‖Z.2 a p q - compress (X a) B (Fin.cast h p) (Fin.cast h q)‖ ≤ δ := by
      rintro B _ rfl
      exact ⟨rfl, fun a p q => by simpa using hδ⟩
    refine ⟨blockRows eps ((((List.finRange d).filter fun i => c.inverses i = j)).map (eig d M).2),
      ⟨gramSchmidt eps _, loopRun_exact hδ _ _, fun i => _, fun i => ?_,
      loopRun_exact hδ _ _⟩, key _ _ ?_⟩
    · simpa using hδ
    · rw [List.getElem_map, List.getElem_mapIdx]

/-- The eigenspaces of `M` are minimal invariant subspaces of the generators `X`. -/
def MinimalEigenspaces (X : Fin n → Matrix (Fin d) (Fin d) ℂ) (M : Matrix (Fin d) (Fin d) ℂ) : Prop :=
  ∀ (μ : ℂ) (U : Submodule ℂ (Fin d → ℂ)), (∀ a, ∀ u ∈ U, X a *ᵥ u ∈ U) → U ≠ ⊥ →
    (∀ u ∈ U, M *ᵥ u = μ • u) → ∀ v, M *ᵥ v = μ • v → v ∈ U

open Classical in
/-- C104, `decompose_rep_into_irreps` with rounding errors: for a size, a tolerance, a gap between the
eigenvalues, a condition number of the eigenvectors, a bound of the generators and a wanted accuracy there is
an error bound below which every run on real generators and on eigenvalues and eigenvectors within that bound
of exact ones of a commuting matrix returns; there is one block for every eigenvalue, the sizes add up to
`d`, and every block is within the wanted accuracy of the restriction of the generators to a subspace, which
is irreducible when the eigenspaces are minimal; these subspaces together span the space. -/
theorem C104_decompose (d : ℕ) {eps γ κ bx τ : ℝ} (hd0 : d ≠ 0) (heps : 0 < eps) (hγ : eps < γ) (hκ0 : 0 < κ)
    (hκd : d * eps ^ 2 < κ ^ 2) (hd : d * eps ^ 2 < 1) (hτ : 0 < τ) :
    ∃ Δ > 0, ∀ δ, 0 ≤ δ → δ ≤ Δ → ∀ (n : ℕ) (X : Fin n → Matrix (Fin d) (Fin d) ℂ),
      (∀ a p q, (X a p q).im = 0) → (∀ a, ∑ p, ∑ q, ‖X a p q‖ ≤ bx) →
      ∀ (M : Matrix (Fin d) (Fin d) ℂ) (val : Fin d → ℂ) (vec : Fin d → Vec d), (∀ a, X a * M = M * X a) →
      (∀ k, M *ᵥ (vec k).ofLp = val k • (vec k).ofLp) → (∀ k, ‖vec k‖ = 1) →
      (∀ c : Vec d, κ * ‖c‖ ≤ ‖∑ k, c k • vec k‖) → (∀ i j, val i ≠ val j → γ ≤ ‖val i - val j‖) →
      ∀ (val' : Fin d → ℂ) (vec' : Fin d → Vec d), (∀ k, ‖val' k - val k‖ ≤ δ) → (∀ k, ‖vec' k - vec k‖ ≤ δ) →
      ∀ fuel, d < fuel → ∀ res, DecomposeRun δ eps X val' vec' fuel res →
        ∃ Ys, res = some (.ok Ys) ∧ Ys.length = (Finset.univ.image val).card ∧
          (Ys.map fun Y => Y.1).sum = d ∧
          ∃ (V : ∀ b : Fin Ys.length, Matrix (Fin d) (Fin (Ys.get b).1) ℂ)
            (Z : ∀ b : Fin Ys.length, Fin n → Matrix (Fin (Ys.get b).1) (Fin (Ys.get b).1) ℂ),
            (∀ b, (V b)ᴴ * V b = 1 ∧ (∀ a, X a * V b = V b * Z b a) ∧
              (∀ a i j, ‖(Ys.get b).2 a i j - Z b a i j‖ ≤ τ) ∧
              (MinimalEigenspaces X M → IrreducibleFamily (Z b))) ∧
            Submodule.span ℂ {x : Fin d → ℂ | ∃ b j, x = fun i => V b i j} = ⊤ := by
  obtain ⟨η, hη0, hη1, hητ⟩ : ∃ η : ℝ, 0 < η ∧ η ≤ 1 ∧ |bx| * (3 * η) ≤ τ / 2 := by
    refine ⟨min 1 (τ / (6 * (|bx| + 1))), by positivity, min_le_left _ _, ?_⟩
    have h1 : min 1 (τ / (6 * (|bx| + 1))) * (6 * (|bx| + 1)) ≤ τ := by
      rw [← le_div_iff₀ (by positivity)]
      exact min_le_right _ _
    have h2 : 0 < min 1 (τ / (6 * (|bx| + 1))) := by positivity
    nlinarith [abs_nonneg bx]
  obtain ⟨Δ₁, hΔ₁, hblock⟩ := block_run d heps hκ0 hκd hd hη0
  obtain ⟨Δ, hΔ0, b1, b2, b3, b4⟩ : ∃ Δ : ℝ, 0 < Δ ∧ Δ ≤ Δ₁ ∧ 3 * Δ < eps ∧ eps + 3 * Δ ≤ γ ∧ Δ ≤ τ / 2 := by
    refine ⟨min (min Δ₁ (eps / 6)) (min ((γ - eps) / 3) (τ / 2)), ?_, ?_, ?_, ?_, ?_⟩
    · have : 0 < γ - eps := by linarith
      positivity
    · exact (min_le_left _ _).trans (min_le_left _ _)
    · have := (min_le_left (min Δ₁ (eps / 6)) (min ((γ - eps) / 3) (τ / 2))).trans (min_le_right _ _)
      linarith
    · have := (min_le_right (min Δ₁ (eps / 6)) (min ((γ - eps) / 3) (τ / 2))).trans (min_le_left _ _)
      linarith
    · exact (min_le_right _ _).trans (min_le_right _ _)
  refine ⟨Δ, hΔ0, ?_⟩
  intro δ hδ hδΔ n X hreal hbx M val vec hcomm hev hnorm hκ hsep val' vec' hval hvec fuel hf res hrun
  obtain ⟨cl, hu, hrun⟩ := hrun
  obtain ⟨k, inv, centers, first, rfl, hcl, hinv, hlen, -⟩ := C104_unique hd0 hδ hsep hval
    (by linarith) (by linarith) fuel hf hu
  obtain ⟨Ys, rfl, hYlen, hY⟩ := hrun
  have hli : LinearIndependent ℂ vec := by
    rw [Fintype.linearIndependent_iff]
    intro g hg i
    have h1 := hκ (WithLp.toLp 2 g)
    simp only [hg, norm_zero] at h1
    have h2 : ‖(WithLp.toLp 2 g : Vec d)‖ = 0 := by
      have := norm_nonneg (WithLp.toLp 2 g : Vec d)
      nlinarith
    have h3 := congrFun (congrArg WithLp.ofLp (norm_eq_zero.1 h2)) i
    exact h3
  have hinv' : ∀ i j, val i = val j → inv i = inv j := fun i j h => (hinv i j).2 h
  have hγ0 : 0 < γ := heps.trans hγ
  have hkY : Ys.length = k := hYlen.trans hlen
  -- one block
  have hone : ∀ j (hj : j < Ys.length), ∃ U : List (Vec d), OList U ∧
      lspan U = lspan (clusterCols vec inv j) ∧ ∃ h : Ys[j].1 = U.length, ∀ a p q,
        ‖Ys[j].2 a p q - compress (X a) U (Fin.cast h p) (Fin.cast h q)‖ ≤ τ := by
    intro j hj
    obtain ⟨B, hB, h, hYB⟩ := hY j hj
    obtain ⟨U, u1, u2, u3⟩ := hblock δ hδ (hδΔ.trans b1) vec vec' hnorm hκ hvec inv j B hB
    refine ⟨U, u1, u2, h.trans u3.length_eq, fun a p q => ?_⟩
    have h1 := hYB a p q
    have h2 := compress_close hη1 ((hbx a).trans (le_abs_self bx)) u3 u1.norm u3.length_eq (Fin.cast h p)
      (Fin.cast h q)
    refine (norm_sub_le_norm_sub_add_norm_sub _ (compress (X a) B (Fin.cast h p) (Fin.cast h q)) _).trans ?_
    have h3 : Fin.cast u3.length_eq (Fin.cast h p) = Fin.cast (h.trans u3.length_eq) p := rfl
    have h4 : Fin.cast u3.length_eq (Fin.cast h q) = Fin.cast (h.trans u3.length_eq) q := rfl
    rw [h3, h4] at h2
    linarith
  have hsize : ∀ j (hj : j < Ys.length), Ys[j].1 = (Finset.univ.filter fun i => inv i = j).card := by
    intro j hj
    obtain ⟨U, u1, u2, h, _⟩ := hone j hj
    rw [h, oList_length u1, u2, finrank_clusterCols hli]
  refine ⟨Ys, rfl, ?_, ?_, ?_⟩
  · -- one block for every eigenvalue
    rw [hkY]
    have : Finset.univ.image val = Finset.univ.image fun c : Fin k => val (first c) := by
      ext x
      simp only [Finset.mem_image, Finset.mem_univ, true_and]
      constructor
      · rintro ⟨i, rfl⟩
        refine ⟨⟨inv i, hcl.lt i⟩, ?_⟩
        rw [← hinv]
        exact (hcl.mem_iff _ ⟨inv i, hcl.lt i⟩).2 (by simpa using hγ0)
      · rintro ⟨c, rfl⟩
        exact ⟨_, rfl⟩
    rw [this, Finset.card_image_of_injective]
    · simp
    · intro c c' h
      have h1 := (hcl.mem_iff (first c) c).2 (by simpa using hγ0)
      have h2 := (hcl.mem_iff (first c') c').2 (by simpa using hγ0)
      exact Fin.ext (by rw [← h1, ← h2]; exact (hinv _ _).2 h)
  · have e : (Ys.map fun Y => Y.1) = (List.range k).map fun c => (Finset.univ.filter fun i => inv i = c).card := by
      apply List.ext_getElem
      · simp [hkY]
      · intro j h1 h2
        simp only [List.getElem_map, List.getElem_range]
        exact hsize j (by simpa using h1)
    rw [e]
    have hsum : ((List.range k).map fun c => (Finset.univ.filter fun i => inv i = c).card).sum =
        ∑ c ∈ Finset.range k, (Finset.univ.filter fun i => inv i = c).card := rfl
    rw [hsum, ← Finset.card_eq_sum_card_fiberwise (fun i _ => by simpa using hcl.lt i)]
    simp
  have hblk : ∀ b : Fin Ys.length, ∃ (V : Matrix (Fin d) (Fin (Ys.get b).1) ℂ)
      (Z : Fin n → Matrix (Fin (Ys.get b).1) (Fin (Ys.get b).1) ℂ),
      (Vᴴ * V = 1 ∧ (∀ a, X a * V = V * Z a) ∧ (∀ a i j, ‖(Ys.get b).2 a i j - Z a i j‖ ≤ τ) ∧
        (MinimalEigenspaces X M → IrreducibleFamily Z)) ∧
      ∀ i, inv i = b → (conjVec (vec i)).ofLp ∈ Submodule.span ℂ {x : Fin d → ℂ | ∃ j, x = fun i => V i j} := by
    rintro ⟨j, hj⟩
    obtain ⟨U, u1, u2, h, hYU⟩ := hone j hj
    have hint : ∀ a, X a * blockCols U = blockCols U * compress (X a) U := by
      intro a
      refine compress_intertwines u1 ?_
      rw [u2]
      intro x hx
      have e : conjVec (WithLp.toLp 2 (X a *ᵥ (conjVec x).ofLp)) =
          (WithLp.toLp 2 (X a *ᵥ x.ofLp) : Vec d) := by
        ext p
        simp only [conjVec, mulVec, dotProduct, map_sum, map_mul, Complex.conj_conj]
        refine Finset.sum_congr rfl fun q _ => ?_
        rw [Complex.conj_eq_iff_im.2 (hreal a p q)]
      rw [e]
      exact cluster_invariant (hcomm a) hev hli hinv' j x hx
    have hirr : MinimalEigenspaces X M → IrreducibleFamily fun a => compress (X a) U := by
      intro hmin
      set i := first ⟨j, by omega⟩ with hi
      have hij : inv i = j := (hcl.mem_iff i ⟨j, by omega⟩).2 (by rw [hi]; simpa using hγ0)
      have heigU : ∀ x ∈ lspan U, M *ᵥ x.ofLp = val i • x.ofLp := by
        intro x hx
        rw [u2] at hx
        induction hx using Submodule.span_induction with
        | mem x hx =>
          obtain ⟨l, hl, rfl⟩ := mem_clusterCols.1 hx
          rw [hev l, (hinv l i).1 (hl.trans hij.symm)]
        | zero => simp
        | add x y _ _ hx hy => rw [WithLp.ofLp_add, mulVec_add, hx, hy, smul_add]
        | smul c x _ hx => rw [WithLp.ofLp_smul, mulVec_smul, hx, smul_comm]
      refine compress_irreducible hreal u1 ?_ hint ?_
      · intro h0
        have h1 : vec i ∈ lspan U := by
          rw [u2]; exact mem_lspan (mem_clusterCols.2 ⟨i, hij, rfl⟩)
        rw [h0, lspan_nil, Submodule.mem_bot] at h1
        have := hnorm i
        rw [h1, norm_zero] at this
        exact zero_ne_one this
      · intro P hP hP0 hPU b hb
        exact hmin (val i) P hP hP0 (fun u hu => heigU _ (hPU u hu)) _ (heigU b (mem_lspan hb))
    have hV := blockCols_isometry u1
    have hspan : ∀ i, inv i = j → (conjVec (vec i)).ofLp ∈
        Submodule.span ℂ {x : Fin d → ℂ | ∃ l, x = fun p => blockCols U p l} := by
      intro i hi
      have hm : vec i ∈ lspan U := by
        rw [u2]; exact mem_lspan (mem_clusterCols.2 ⟨i, hi, rfl⟩)
      generalize vec i = v at hm ⊢
      induction hm using Submodule.span_induction with
      | mem y hy =>
        obtain ⟨l, hl⟩ := List.mem_iff_get.1 hy
        refine Submodule.subset_span ⟨l, ?_⟩
        funext p
        simp only [conjVec, blockCols]
        rw [hl]
      | zero =>
        have : (conjVec (0 : Vec d)).ofLp = 0 := by
          funext p; simp [conjVec]
        rw [this]
        exact Submodule.zero_mem _
      | add y z _ _ hy hz =>
        rw [conjVec_add]
        exact Submodule.add_mem _ hy hz
      | smul t y _ hy =>
        rw [conjVec_smul]
        exact Submodule.smul_mem _ _ hy
    have key : ∀ Y : Block n, (∃ h : Y.1 = U.length, ∀ a (p q : Fin Y.1),
        ‖Y.2 a p q - compress (X a) U (Fin.cast h p) (Fin.cast h q)‖ ≤ τ) →
        ∃ (V : Matrix (Fin d) (Fin Y.1) ℂ) (Z : Fin n → Matrix (Fin Y.1) (Fin Y.1) ℂ),
        (Vᴴ * V = 1 ∧ (∀ a, X a * V = V * Z a) ∧ (∀ a i j, ‖Y.2 a i j - Z a i j‖ ≤ τ) ∧
          (MinimalEigenspaces X M → IrreducibleFamily Z)) ∧
        ∀ i, inv i = j → (conjVec (vec i)).ofLp ∈
          Submodule.span ℂ {x : Fin d → ℂ | ∃ j, x = fun i => V i j} := by
      rintro ⟨m, Y⟩ ⟨h, hYU⟩
      obtain rfl : m = U.length := h
      exact ⟨blockCols U, fun a => compress (X a) U, ⟨hV, hint, fun a p q => hYU a p q, hirr⟩, hspan⟩
    exact key (Ys.get ⟨j, hj⟩) ⟨h, hYU⟩
  choose V Z hVZ hVs using hblk
  refine ⟨V, Z, hVZ, ?_⟩
  have h2 : ∀ y : Vec d, (conjVec y).ofLp ∈ Submodule.span ℂ {x : Fin d → ℂ | ∃ b j, x = fun i => V b i j} := by
    intro y
    have htop := hli.span_eq_top_of_card_eq_finrank' (by simp)
    have hy : y ∈ Submodule.span ℂ (Set.range vec) := by rw [htop]; trivial
    induction hy using Submodule.span_induction with
    | mem y hy =>
      obtain ⟨i, rfl⟩ := hy
      have hb : inv i < Ys.length := by rw [hkY]; exact hcl.lt i
      exact Submodule.span_mono (by rintro x ⟨l, rfl⟩; exact ⟨⟨inv i, hb⟩, l, rfl⟩) (hVs ⟨inv i, hb⟩ i rfl)
    | zero =>
      have : (conjVec (0 : Vec d)).ofLp = 0 := by
        funext p; simp [conjVec]
      rw [this]
      exact Submodule.zero_mem _
    | add y z _ _ hy hz =>
      rw [conjVec_add]
      exact Submodule.add_mem _ hy hz
    | smul t y _ hy =>
      rw [conjVec_smul]
      exact Submodule.smul_mem _ _ hy
  rw [eq_top_iff]
  intro x _
  have := h2 (conjVec (WithLp.toLp 2 x))
  have e : (conjVec (conjVec (WithLp.toLp 2 x : Vec d))).ofLp = x := by
    funext p
    simp [conjVec]
  rwa [e] at this

end decompose

/-! ### A small backward error of the commuting matrix is not enough -/

/-- Two reflections of the plane: a real orthogonal irreducible family. -/
noncomputable def reflX : Fin 2 → Matrix (Fin 2) (Fin 2) ℂ := ![!![1, 0; 0, -1], !![0, 1; 1, 0]]

/-- A multiple of the identity plus noise of size `t`. -/
noncomputable def noiseM (μ : ℂ) (t : ℝ) : Matrix (Fin 2) (Fin 2) ℂ := !![μ, t; 0, μ + t ^ 2]

/-- Exact unit eigenvectors of `noiseM`. -/
noncomputable def noiseVec (t : ℝ) : Fin 2 → Vec 2 :=
  ![WithLp.toLp 2 ![1, 0], WithLp.toLp 2 ![((√(1 + t ^ 2))⁻¹ : ℝ), ((√(1 + t ^ 2))⁻¹ * t : ℝ)]]

theorem reflX_irreducible : IrreducibleFamily reflX := by
  refine ⟨by norm_num, fun W hW => ?_⟩
  by_cases h0 : W = ⊥
  · exact Or.inl h0
  right
  obtain ⟨w, hw, hne⟩ := (Submodule.ne_bot_iff W).1 h0
  have hx : ∀ u ∈ W, (![u 1, u 0] : Fin 2 → ℂ) ∈ W := by
    intro u hu
    have h := hW 1 u hu
    have e : reflX 1 *ᵥ u = ![u 1, u 0] := by
      funext p; fin_cases p <;> simp [reflX, mulVec, dotProduct, Fin.sum_univ_two]
    rwa [e] at h
  have hz : ∀ u ∈ W, (![u 0, 0] : Fin 2 → ℂ) ∈ W := by
    intro u hu
    have h := W.smul_mem (1 / 2 : ℂ) (W.add_mem hu (hW 0 u hu))
    have e : (1 / 2 : ℂ) • (u + reflX 0 *ᵥ u) = ![u 0, 0] := by
      have e0 : reflX 0 *ᵥ u = ![u 0, -u 1] := by
        funext p; fin_cases p <;> simp [reflX, mulVec, dotProduct, Fin.sum_univ_two]
      rw [e0]
      funext p
      fin_cases p
      · show (1 / 2 : ℂ) * (u 0 + u 0) = u 0
        ring
      · show (1 / 2 : ℂ) * (u 1 + -u 1) = 0
        ring
    rwa [e] at h
  have he : (![1, 0] : Fin 2 → ℂ) ∈ W := by
    have key : ∀ u ∈ W, u 0 ≠ 0 → (![1, 0] : Fin 2 → ℂ) ∈ W := by
      intro u hu hu0
      have h := W.smul_mem (u 0)⁻¹ (hz u hu)
      have e : (u 0)⁻¹ • (![u 0, 0] : Fin 2 → ℂ) = ![1, 0] := by
        funext p; fin_cases p <;> simp [hu0]
      rwa [e] at h
    by_cases hw0 : w 0 = 0
    · refine key _ (hx w hw) ?_
      intro hw1
      apply hne
      funext p
      fin_cases p
      · exact hw0
      · simpa using hw1
    · exact key w hw hw0
  rw [eq_top_iff]
  intro u _
  have e : u = u 0 • (![1, 0] : Fin 2 → ℂ) + u 1 • (![(![1, 0] : Fin 2 → ℂ) 1, (![1, 0] : Fin 2 → ℂ) 0] : Fin 2 → ℂ) := by
    funext p; fin_cases p <;> simp
  rw [e]
  exact W.add_mem (W.smul_mem _ he) (W.smul_mem _ (hx _ he))

theorem noiseVec_norm (t : ℝ) (k : Fin 2) : ‖noiseVec t k‖ = 1 := by
  rw [← sq_eq_sq₀ (norm_nonneg _) zero_le_one, EuclideanSpace.norm_sq_eq, Fin.sum_univ_two]
  fin_cases k
  · simp [noiseVec]
  · have hs : √(1 + t ^ 2) ^ 2 = 1 + t ^ 2 := Real.sq_sqrt (by positivity)
    have hp : √(1 + t ^ 2) ≠ 0 := (Real.sqrt_pos.2 (by positivity)).ne'
    simp only [noiseVec, Fin.mk_one, Matrix.cons_val, Complex.norm_real, Real.norm_eq_abs, sq_abs]
    field_simp
    rw [hs]

/-- C104 (finding): for an irreducible family the commuting matrix is a multiple of the identity. A multiple
of the identity plus noise of any size `t < eps`, with *exact* unit eigenvectors of the noisy matrix, can
make `decompose_rep_into_irreps` return a single `1 × 1` block: the two eigenvalues are clustered, and
`gram_schmidt` drops the second eigenvector. -/
theorem C104_scalar_noise {eps t : ℝ} (ht : 0 < t) (hte : t < eps) (heps : eps ≤ 1 / 10) (μ : ℂ) :
    IrreducibleFamily reflX ∧ (∀ a, (reflX a)ᵀ * reflX a = 1 ∧ ∀ p q, (reflX a p q).im = 0) ∧
      (∀ i j, ‖(noiseM μ t - μ • 1) i j‖ ≤ t) ∧
      (∀ k, noiseM μ t *ᵥ (noiseVec t k).ofLp = (![μ, μ + t ^ 2] : Fin 2 → ℂ) k • (noiseVec t k).ofLp) ∧
      (∀ k, ‖noiseVec t k‖ = 1) ∧ LinearIndependent ℂ (noiseVec t) ∧
      ∀ eig : EigFn, eig 2 (noiseM μ t) = (![μ, μ + t ^ 2], noiseVec t) → ∀ fuel, 2 < fuel →
        ∃ Y, decomposeFrom eig eps reflX (noiseM μ t) fuel = some (.ok [⟨1, Y⟩]) := by
  have hp : √(1 + t ^ 2) ≠ 0 := (Real.sqrt_pos.2 (by positivity)).ne'
  have ht1 : t ^ 2 ≤ t := by nlinarith
  have htn : ‖((t : ℂ)) ^ 2‖ = t ^ 2 := by
    rw [norm_pow, Complex.norm_real, Real.norm_of_nonneg ht.le]
  refine ⟨reflX_irreducible, ?_, ?_, ?_, noiseVec_norm t, ?_, ?_⟩
  · intro a
    constructor
    · ext p q
      fin_cases a <;> fin_cases p <;> fin_cases q <;> simp [reflX, mul_apply, Fin.sum_univ_two]
    · intro p q
      fin_cases a <;> fin_cases p <;> fin_cases q <;> simp [reflX]
  · intro i j
    fin_cases i <;> fin_cases j <;> simp [noiseM, ht.le, abs_of_pos ht]
    exact ht1
  · intro k
    funext p
    fin_cases k <;> fin_cases p <;> simp [noiseM, noiseVec, mulVec, dotProduct, Fin.sum_univ_two]
    ring
  · rw [Fintype.linearIndependent_iff]
    intro g hg
    rw [Fin.sum_univ_two] at hg
    have h1 := congrFun (congrArg WithLp.ofLp hg) 1
    have h0 := congrFun (congrArg WithLp.ofLp hg) 0
    simp [noiseVec, hp, ht.ne'] at h0 h1
    rw [h1, zero_mul, add_zero] at h0
    intro i
    fin_cases i
    · exact h0
    · exact h1
  · intro eig he fuel hf
    have heps0 : 0 < eps := ht.trans hte
    -- the two eigenvalues are clustered
    obtain ⟨k, inv, centers, first, hu, hcl, hinv, hlen, -⟩ := C104_unique (v := fun _ : Fin 2 => μ)
      (a := (![μ, μ + t ^ 2] : Fin 2 → ℂ)) (δ := t ^ 2) (tol := eps) (γ := eps + 3 * t ^ 2) (by norm_num)
      (by positivity) (fun i j h => absurd rfl h)
      (by
        intro i
        fin_cases i
        · simp; positivity
        · simp)
      (by nlinarith) le_rfl fuel hf (uniqueRun_exact (by positivity) _ fuel)
    have hγ : 0 < eps + 3 * t ^ 2 := by positivity
    have hk : k = 1 := by
      have h1 : 0 < k := (Nat.zero_le _).trans_lt (hcl.lt 0)
      by_contra hne
      have h2 : 1 < k := by omega
      have a0 := (hcl.mem_iff (first ⟨0, h1⟩) ⟨0, h1⟩).2 (by simpa using hγ)
      have a1 := (hcl.mem_iff (first ⟨1, h2⟩) ⟨1, h2⟩).2 (by simpa using hγ)
      have := (hinv (first ⟨0, h1⟩) (first ⟨1, h2⟩)).2 rfl
      rw [a0, a1] at this
      exact zero_ne_one this
    have hinv0 : ∀ i, inv i = 0 := fun i => by have := hcl.lt i; omega
    obtain ⟨c, rfl⟩ := List.length_eq_one_iff.1 (hlen.trans hk)
    -- the second eigenvector is dropped
    have hin : inner ℂ (noiseVec t 0) (noiseVec t 1) = (((√(1 + t ^ 2))⁻¹ : ℝ) : ℂ) := by
      rw [EuclideanSpace.inner_eq_star_dotProduct, dotProduct, Fin.sum_univ_two]
      simp [noiseVec]
    have hgs : gramSchmidt eps [noiseVec t 0, noiseVec t 1] = [noiseVec t 0] := by
      have r0 : gsReduce [] (noiseVec t 0) = noiseVec t 0 := rfl
      have r1 : gsReduce [noiseVec t 0] (noiseVec t 1) =
          WithLp.toLp 2 ![0, (((√(1 + t ^ 2))⁻¹ * t : ℝ) : ℂ)] := by
        simp only [gsReduce, List.foldl_cons, List.foldl_nil, hin]
        ext p
        fin_cases p <;> simp [noiseVec]
      have n1 : ‖gsReduce [noiseVec t 0] (noiseVec t 1)‖ ≤ t := by
        rw [r1, ← sq_le_sq₀ (norm_nonneg _) ht.le, EuclideanSpace.norm_sq_eq, Fin.sum_univ_two]
        simp only [Matrix.cons_val, norm_zero, Complex.norm_real, Real.norm_eq_abs, sq_abs]
        have hs : 1 ≤ √(1 + t ^ 2) := Real.one_le_sqrt.2 (by nlinarith)
        have hi : (√(1 + t ^ 2))⁻¹ ≤ 1 := inv_le_one_of_one_le₀ hs
        have hi0 : 0 ≤ (√(1 + t ^ 2))⁻¹ := by positivity
        nlinarith [mul_le_of_le_one_left ht.le hi, mul_nonneg hi0 ht.le]
      unfold gramSchmidt
      rw [gsLoop]
      simp only [r0, noiseVec_norm]
      rw [if_pos (by linarith)]
      simp only [inv_one, Complex.ofReal_one, one_smul, List.nil_append]
      rw [gsLoop, if_neg (by linarith), gsLoop]
    have hlen1 : (blockRows eps [noiseVec t 0, noiseVec t 1]).length = 1 := by
      rw [oList_length (blockRows_oList heps0.le _), blockRows_span heps0.le (by push_cast; nlinarith), hgs,
        ← oList_length ⟨by simpa using noiseVec_norm t 0, by simp⟩]
      rfl
    unfold decomposeFrom eigenspaces
    rw [he]
    simp only [hu]
    have hcols : (((List.finRange 2).filter fun i => inv i = 0).map (noiseVec t)) =
        [noiseVec t 0, noiseVec t 1] := by
      simp [hinv0, List.finRange_succ]
    simp only [List.mapIdx_cons, List.mapIdx_nil, List.map_cons, List.map_nil, hcols]
    revert hlen1
    generalize blockRows eps [noiseVec t 0, noiseVec t 1] = B
    intro hB
    have key : ∀ m, B.length = m → ∃ Y : Fin 2 → Matrix (Fin m) (Fin m) ℂ,
        (⟨B.length, fun a => compress (reflX a) B⟩ : Σ m, Fin 2 → Matrix (Fin m) (Fin m) ℂ) = ⟨m, Y⟩ := by
      rintro _ rfl
      exact ⟨_, rfl⟩
    obtain ⟨Y, hY⟩ := key 1 hB
    exact ⟨Y, by rw [hY]⟩

/-- The hypotheses of `C104_scalar_noise` at the default tolerance. -/
example : ∃ Y, decomposeFrom (fun d _ => if h : d = 2 then h ▸ ((![5, 5 + (((1 / 10 ^ 12 : ℝ) : ℂ)) ^ 2] : Fin 2 → ℂ),
    noiseVec (1 / 10 ^ 12)) else (0, 0)) (1 / 10 ^ 10) reflX (noiseM 5 (1 / 10 ^ 12)) 3 = some (.ok [⟨1, Y⟩]) :=
  (C104_scalar_noise (by norm_num) (by norm_num) (by norm_num) 5).2.2.2.2.2.2 _ (by simp) 3 (by norm_num)

/-- The hypotheses of `C104_unique`: three values, two of them equal. -/
example : ∃ k inv centers, ∃ first : Fin k → Fin 3,
    uniqueWithTol (1 / 10) (![1, 2, 1 + 1 / 100] : Fin 3 → ℝ) 4 = some (.ok ⟨centers, inv⟩) ∧
      IsClustering (1 / 2) (![1, 2, 1] : Fin 3 → ℝ) k inv first ∧ inv 0 = inv 2 ∧ inv 0 ≠ inv 1 := by
  obtain ⟨k, inv, centers, first, h1, h2, h3, -, -⟩ := C104_unique (v := (![1, 2, 1] : Fin 3 → ℝ))
    (a := ![1, 2, 1 + 1 / 100]) (δ := 1 / 100) (tol := 1 / 10) (γ := 1 / 2) (by norm_num) (by norm_num)
    (by intro i j; fin_cases i <;> fin_cases j <;> norm_num)
    (by intro i; fin_cases i <;> norm_num) (by norm_num) (by norm_num) 4 (by norm_num)
    (uniqueRun_exact (by norm_num) _ 4)
  exact ⟨k, inv, centers, first, h1, h2, (h3 0 2).2 (by simp), fun h => by simpa using (h3 0 1).1 h⟩

/-- The hypotheses of `C104_decompose`: a symmetric matrix of the plane, its own commuting matrix. -/
example : ∃ Δ > 0, ∀ δ, 0 ≤ δ → δ ≤ Δ → ∀ (val' : Fin 2 → ℂ) (vec' : Fin 2 → Vec 2),
    (∀ k, ‖val' k - (![1, 2] : Fin 2 → ℂ) k‖ ≤ δ) → (∀ k, ‖vec' k - realVec k‖ ≤ δ) → ∀ res,
    DecomposeRun δ (1 / 10) (fun _ : Fin 1 => !![41 / 25, -(12 / 25); -(12 / 25), 34 / 25]) val' vec' 3 res →
    ∃ Ys, res = some (.ok Ys) ∧ Ys.length = 2 ∧ (Ys.map fun Y => Y.1).sum = 2 := by
  obtain ⟨Δ, hΔ, h⟩ := C104_decompose 2 (eps := 1 / 10) (γ := 1) (κ := 1) (bx := 4) (τ := 1 / 100) (by norm_num)
    (by norm_num) (by norm_num) (by norm_num) (by norm_num) (by norm_num) (by norm_num)
  refine ⟨Δ, hΔ, fun δ h0 h1 val' vec' hval hvec res hrun => ?_⟩
  have hκ : ∀ c : Vec 2, 1 * ‖c‖ ≤ ‖∑ k, c k • realVec k‖ := by
    intro c
    have h := realVec_orthonormal.inner_sum c c Finset.univ
    rw [inner_self_eq_norm_sq_to_K] at h
    have h2 : ‖∑ k, c k • realVec k‖ ^ 2 = ‖c‖ ^ 2 := by
      rw [EuclideanSpace.norm_sq_eq c, ← Complex.ofReal_inj]
      push_cast
      rw [show ((‖∑ k, c k • realVec k‖ : ℝ) : ℂ) ^ 2 = _ from h]
      exact Finset.sum_congr rfl fun i _ => Complex.conj_mul' _
    rw [one_mul]
    exact (sq_le_sq₀ (norm_nonneg _) (norm_nonneg _)).1 h2.ge
  obtain ⟨Ys, e, hl, hs, -⟩ := h δ h0 h1 1 (fun _ => !![41 / 25, -(12 / 25); -(12 / 25), 34 / 25])
    (by intro a p q; fin_cases p <;> fin_cases q <;> simp)
    (by intro a; simp [Fin.sum_univ_two]; norm_num)
    !![41 / 25, -(12 / 25); -(12 / 25), 34 / 25] ![1, 2] realVec (fun _ => rfl)
    (by
      intro k
      funext p
      fin_cases k <;> fin_cases p <;>
        simp [realVec, mulVec, dotProduct, Fin.sum_univ_two] <;> norm_num)
    realVec_orthonormal.1 hκ (by intro i j; fin_cases i <;> fin_cases j <;> norm_num)
    val' vec' hval hvec 3 (by norm_num) res hrun
  refine ⟨Ys, e, ?_, hs⟩
  rw [hl, show (Finset.univ.image (![1, 2] : Fin 2 → ℂ)) = {1, 2} by
    ext x; simp [Fin.exists_fin_two, eq_comm]]
  exact Finset.card_pair (by norm_num)

end LieNN.Props
