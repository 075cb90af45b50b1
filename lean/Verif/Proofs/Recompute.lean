import Verif.Proofs.CGSpace

/-!
# The generic `clebsch_gordan` when there is one solution up to a factor, or none
-/
namespace LieNN.CGSpace

open LieNN.Spec Matrix Module

variable {n h m d₁ d₂ d₃ : ℕ} {eigh : EighFn} {eps : ℝ}

theorem gs_stay (heps : 0 ≤ eps) {v : Vec n} (hv : ‖v‖ = 1) {u : ℂ} (hu : ‖u‖ = 1) (cs : List ℂ) :
    gsLoop eps (cs.map fun c => c • v) [u • v] = [u • v] := by
  induction cs with
  | nil => rfl
  | cons c cs ih =>
    rw [List.map_cons, gsLoop]
    have e : gsReduce [u • v] (c • v) = 0 := by
      have h1 : inner ℂ (u • v) (c • v) = starRingEnd ℂ u * c := by
        rw [inner_smul_left, inner_smul_right, inner_self_eq_norm_sq_to_K, hv]
        simp
      show c • v - inner ℂ (u • v) (c • v) • u • v = 0
      rw [h1, smul_smul, ← sub_smul, mul_right_comm, Complex.conj_mul', hu]
      simp
    simp only [e, norm_zero]
    rw [if_neg (not_lt.2 heps), ih]

theorem gs_first (heps : 0 ≤ eps) {v : Vec n} (hv : ‖v‖ = 1) (cs : List ℂ) (hcs : ∃ c ∈ cs, eps < ‖c‖) :
    ∃ pre c post, cs = pre ++ c :: post ∧ (∀ x ∈ pre, ‖x‖ ≤ eps) ∧ eps < ‖c‖ ∧
      gsLoop eps (cs.map fun c => c • v) [] = [(((‖c‖⁻¹ : ℝ) : ℂ) * c) • v] := by
  induction cs with
  | nil => simp at hcs
  | cons c cs ih =>
    have e : gsReduce [] (c • v) = c • v := rfl
    have en : ‖c • v‖ = ‖c‖ := by rw [norm_smul, hv, mul_one]
    by_cases hc : eps < ‖c‖
    · refine ⟨[], c, cs, rfl, by simp, hc, ?_⟩
      rw [List.map_cons, gsLoop]
      simp only [e, en]
      rw [if_pos hc, List.nil_append, smul_smul]
      refine gs_stay heps hv ?_ cs
      have : ‖c‖ ≠ 0 := by linarith
      rw [norm_mul, Complex.norm_real, norm_inv, norm_norm, inv_mul_cancel₀ this]
    · obtain ⟨x, hx, hxe⟩ := hcs
      have hx' : ∃ c ∈ cs, eps < ‖c‖ := by
        rcases List.mem_cons.1 hx with rfl | hx
        · exact absurd hxe hc
        · exact ⟨x, hx, hxe⟩
      obtain ⟨pre, c', post, h1, h2, h3, h4⟩ := ih hx'
      refine ⟨c :: pre, c', post, by rw [h1]; rfl, ?_, h3, ?_⟩
      · intro y hy
        rcases List.mem_cons.1 hy with rfl | hy
        · exact not_lt.1 hc
        · exact h2 y hy
      · rw [List.map_cons, gsLoop]
        simp only [e, en]
        rw [if_neg hc, h4]

/-- The null space of a matrix whose kernel is a line: the first component above the tolerance is
made positive. -/
theorem nullspace_one (he : EighSpec eigh) (heps : 0 < eps) (A : Matrix (Fin m) (Fin n) ℂ)
    (hn : n * eps ^ 2 < 1) (hgap : Gap eps A) {v : Vec n} (hv : ‖v‖ = 1)
    (hk : ∀ x : Vec n, A *ᵥ x.ofLp = 0 ↔ ∃ c : ℂ, x = c • v) :
    ∃ i : Fin n, (∀ i' < i, ‖v i'‖ ≤ eps) ∧ eps < ‖v i‖ ∧
      nullspace eigh eps A = [(((‖v i‖⁻¹ : ℝ) : ℂ) * starRingEnd ℂ (v i)) • v] := by
  obtain ⟨ho, hev⟩ := eigh_spec_mul he A
  have hsel := selSpan_eq_kernel eps heps ho hev hgap
  have hP : ∀ i, nullProj eps (eigh n (Aᴴ * A)).1 (eigh n (Aᴴ * A)).2 i = starRingEnd ℂ (v i) • v := by
    intro i
    have h1 := nullProj_mem (val := (eigh n (Aᴴ * A)).1) (vec := (eigh n (Aᴴ * A)).2) eps i
    rw [hsel] at h1
    obtain ⟨c, hc⟩ := (hk _).1 h1
    have hvm : v ∈ selSpan eps (eigh n (Aᴴ * A)).1 (eigh n (Aᴴ * A)).2 := by
      rw [hsel]
      exact (hk v).2 ⟨1, (one_smul ℂ v).symm⟩
    have h2 := nullProj_inner eps ho i v hvm
    rw [hc, inner_smul_right, inner_self_eq_norm_sq_to_K, hv] at h2
    rw [hc]
    congr 1
    simpa [EuclideanSpace.inner_single_right] using h2.symm
  have hbig : ∃ i, eps < ‖v i‖ := by
    by_contra hcon
    push Not at hcon
    have h1 : (1 : ℝ) = ∑ i, ‖v i‖ ^ 2 := by
      rw [← EuclideanSpace.norm_sq_eq, hv, one_pow]
    have h2 : ∑ i, ‖v i‖ ^ 2 ≤ ∑ _i : Fin n, eps ^ 2 :=
      Finset.sum_le_sum fun i _ => pow_le_pow_left₀ (norm_nonneg _) (hcon i) 2
    rw [Finset.sum_const, Finset.card_univ, Fintype.card_fin, nsmul_eq_mul] at h2
    linarith
  have hlist : List.ofFn (nullProj eps (eigh n (Aᴴ * A)).1 (eigh n (Aᴴ * A)).2) =
      (List.ofFn fun i => starRingEnd ℂ (v i)).map fun c => c • v := by
    rw [List.map_ofFn]
    congr 1
    funext i
    exact hP i
  obtain ⟨i₀, hi₀⟩ := hbig
  obtain ⟨pre, c, post, h1, h2, h3, h4⟩ := gs_first heps.le hv (List.ofFn fun i => starRingEnd ℂ (v i))
    ⟨starRingEnd ℂ (v i₀), List.mem_ofFn.2 ⟨i₀, rfl⟩, by rwa [RCLike.norm_conj]⟩
  have hlen : pre.length < n := by
    have := congrArg List.length h1
    simp only [List.length_ofFn, List.length_append, List.length_cons] at this
    omega
  have hget : ∀ q (hq : q < n), (pre ++ c :: post)[q]'(by rw [← h1]; simpa using hq) = starRingEnd ℂ (v ⟨q, hq⟩) := by
    intro q hq
    simp only [← h1, List.getElem_ofFn]
  have hc : c = starRingEnd ℂ (v ⟨pre.length, hlen⟩) := by
    rw [← hget _ hlen]
    simp
  refine ⟨⟨pre.length, hlen⟩, ?_, ?_, ?_⟩
  · intro i' hi'
    have hi : (i' : ℕ) < pre.length := hi'
    have := hget i' i'.2
    rw [List.getElem_append_left hi] at this
    rw [← RCLike.norm_conj, ← this]
    exact h2 _ (List.getElem_mem hi)
  · rwa [hc, RCLike.norm_conj] at h3
  · show gsLoop eps _ [] = _
    rw [hlist, h4, hc, RCLike.norm_conj]

theorem infer_eq (he : EighSpec eigh) (hn : n + h ≠ 0) (r₁ : Rep n h d₁) (r₂ : Rep n h d₂)
    (hA : AllCloseA r₁.A r₂.A) (hd : d₂ * d₁ < 10 ^ 8)
    (hgap : Gap (1 / 10 ^ 4) (icobMatrix r₂.allGens r₁.allGens)) :
    Rep.inferChangeOfBasis eigh r₁ r₂ =
      .ok ((nullspace eigh (1 / 10 ^ 4) (icobMatrix r₂.allGens r₁.allGens)).map fun v =>
        ((Real.sqrt d₂ : ℝ) : ℂ) • unvec v) := by
  have hd' : ((d₂ * d₁ : ℕ) : ℝ) * (1 / 10 ^ 4) ^ 2 < 1 := by
    have : ((d₂ * d₁ : ℕ) : ℝ) < 10 ^ 8 := by exact_mod_cast hd
    norm_num at this ⊢
    linarith
  obtain ⟨S, hS, hspan, -, -⟩ := inferChangeOfBasis_spec he (eps := 1 / 10 ^ 4) (by positivity)
    hn r₂.allGens r₁.allGens hd' hgap
  have hS' : LieNN.inferChangeOfBasis eigh (1 / 10 ^ 4) r₂.allGens r₁.allGens =
      .ok ((nullspace eigh (1 / 10 ^ 4) (icobMatrix r₂.allGens r₁.allGens)).map unvec) := if_neg hn
  have e : S = (nullspace eigh (1 / 10 ^ 4) (icobMatrix r₂.allGens r₁.allGens)).map unvec := by
    rw [hS] at hS'
    exact Except.ok.inj hS'
  have hchk : ∀ Q ∈ S, ∀ a i k, IsClose (1 / 10 ^ 8) (1 / 10 ^ 8)
      ((r₂.allGens a * Q) i k) ((Q * r₁.allGens a) i k) := by
    intro Q hQ a i k
    have : Q ∈ intertwiners r₂.allGens r₁.allGens := by
      rw [← hspan]
      exact Submodule.subset_span hQ
    rw [this a]
    exact isClose_refl (by positivity) (by positivity) _
  unfold Rep.inferChangeOfBasis
  rw [pyAssert_of hA, hS]
  simp only [bind, Except.bind]
  rw [pyAssert_of hchk, e, List.map_map]
  rfl

/-- The position in the flattened array: `cg` is computed with the axis of `rep3` first. -/
def pos (i : Fin d₁) (j : Fin d₂) (k : Fin d₃) : Fin (d₃ * (d₁ * d₂)) := finProdFinEquiv (k, finProdFinEquiv (i, j))

theorem vec_norm (D : Fin d₁ → Fin d₂ → Fin d₃ → ℂ) :
    ‖((unvecL d₃ (d₁ * d₂)).symm ((cgL d₁ d₂ d₃).symm D) : Vec (d₃ * (d₁ * d₂)))‖ ^ 2 =
      ∑ i, ∑ j, ∑ k, ‖D i j k‖ ^ 2 := by
  rw [EuclideanSpace.norm_sq_eq, ← finProdFinEquiv.sum_comp, Fintype.sum_prod_type]
  have e : ∀ k (p : Fin (d₁ * d₂)), ((unvecL d₃ (d₁ * d₂)).symm ((cgL d₁ d₂ d₃).symm D) : Vec _)
      (finProdFinEquiv (k, p)) = (cgL d₁ d₂ d₃).symm D k p := by
    intro k p
    have := congrFun (congrFun ((unvecL d₃ (d₁ * d₂)).apply_symm_apply ((cgL d₁ d₂ d₃).symm D)) k) p
    exact this
  have e2 : ∀ i j k, (cgL d₁ d₂ d₃).symm D k (finProdFinEquiv (i, j)) = D i j k := by
    intro i j k
    exact congrFun (congrFun (congrFun ((cgL d₁ d₂ d₃).apply_symm_apply D) i) j) k
  simp only [e]
  rw [Finset.sum_comm, ← finProdFinEquiv.sum_comp, Fintype.sum_prod_type]
  simp only [e2]

theorem vec_apply (D : Fin d₁ → Fin d₂ → Fin d₃ → ℂ) (i j k) :
    ((unvecL d₃ (d₁ * d₂)).symm ((cgL d₁ d₂ d₃).symm D) : Vec (d₃ * (d₁ * d₂))) (pos i j k) = D i j k := by
  have h1 := congrFun (congrFun ((unvecL d₃ (d₁ * d₂)).apply_symm_apply ((cgL d₁ d₂ d₃).symm D)) k)
    (finProdFinEquiv (i, j))
  have h2 := congrFun (congrFun (congrFun ((cgL d₁ d₂ d₃).apply_symm_apply D) i) j) k
  exact h1.trans h2

/-- One solution up to a factor, of norm `√dim`: the generic solver returns it up to a sign, the sign
which makes the first entry above the tolerance positive. -/
theorem generic_one (he : EighSpec eigh) (hn : n + h ≠ 0) (r₁ : Rep n h d₁) (r₂ : Rep n h d₂) (r₃ : Rep n h d₃)
    (h₁₂ : AllCloseA r₁.A r₂.A) (h₁₃ : AllCloseA r₁.A r₃.A) (hd : d₃ * (d₁ * d₂) < 10 ^ 8) (h0 : 0 < d₃)
    (hgap : Gap (1 / 10 ^ 4) (icobMatrix r₃.allGens (r₁.tensorProduct r₂).allGens))
    (C : Fin d₁ → Fin d₂ → Fin d₃ → ℝ) (hC : IsCG r₁ r₂ r₃ fun i j k => (C i j k : ℂ))
    (hnorm : ∑ i, ∑ j, ∑ k, C i j k ^ 2 = d₃)
    (huniq : ∀ D, IsCG r₁ r₂ r₃ D → ∃ c : ℂ, D = c • fun i j k => (C i j k : ℂ)) :
    ∃ s : ℝ, (s = 1 ∨ s = -1) ∧
      Rep.clebschGordan eigh r₁ r₂ r₃ = .ok [fun i j k => ((s * C i j k : ℝ) : ℂ)] ∧
      ∃ i j k, √d₃ / 10 ^ 4 < s * C i j k ∧ ∀ i' j' k', (pos i' j' k' : ℕ) < pos i j k →
        |C i' j' k'| ≤ √d₃ / 10 ^ 4 := by
  set CC : Fin d₁ → Fin d₂ → Fin d₃ → ℂ := fun i j k => (C i j k : ℂ) with hCC
  have hs0 : 0 < √(d₃ : ℝ) := Real.sqrt_pos.2 (by exact_mod_cast h0)
  set v : Vec (d₃ * (d₁ * d₂)) := (((√(d₃ : ℝ))⁻¹ : ℝ) : ℂ) • (unvecL d₃ (d₁ * d₂)).symm ((cgL d₁ d₂ d₃).symm CC) with hvd
  have hv : ‖v‖ = 1 := by
    have h1 : ‖v‖ ^ 2 = 1 := by
      rw [hvd, norm_smul, mul_pow, vec_norm, Complex.norm_real, Real.norm_of_nonneg (by positivity)]
      simp only [hCC, Complex.norm_real, Real.norm_eq_abs, sq_abs]
      rw [hnorm, inv_pow, Real.sq_sqrt (by positivity), inv_mul_cancel₀ (by positivity)]
    nlinarith [norm_nonneg v]
  have hk : ∀ x : Vec (d₃ * (d₁ * d₂)), icobMatrix r₃.allGens (r₁.tensorProduct r₂).allGens *ᵥ x.ofLp = 0 ↔
      ∃ c : ℂ, x = c • v := by
    intro x
    rw [icobMatrix_mulVec]
    have e1 : (∀ a, r₃.allGens a * unvec x = unvec x * (r₁.tensorProduct r₂).allGens a) ↔
        IsCG r₁ r₂ r₃ (cgOf (unvec x)) := (isCG_iff r₁ r₂ r₃ (unvec x)).symm
    rw [e1]
    constructor
    · intro hx
      obtain ⟨c, hc⟩ := huniq _ hx
      refine ⟨c * √(d₃ : ℝ), ?_⟩
      have h2 : x = (unvecL d₃ (d₁ * d₂)).symm ((cgL d₁ d₂ d₃).symm (c • CC)) := by
        rw [← hc, LinearEquiv.eq_symm_apply, LinearEquiv.eq_symm_apply]
        rfl
      rw [h2, map_smul, map_smul, hvd, smul_smul, mul_assoc, ← Complex.ofReal_mul, mul_inv_cancel₀ hs0.ne',
        Complex.ofReal_one, mul_one]
    · rintro ⟨c, rfl⟩
      have h3 : cgOf (unvec (c • v)) = (c * (((√(d₃ : ℝ))⁻¹ : ℝ) : ℂ)) • CC := by
        show cgL d₁ d₂ d₃ (unvecL d₃ (d₁ * d₂) (c • v)) = _
        rw [hvd, smul_smul, map_smul, map_smul, LinearEquiv.apply_symm_apply, LinearEquiv.apply_symm_apply]
      rw [h3]
      exact (cgSpace r₁ r₂ r₃).smul_mem _ hC
  have hd' : ((d₃ * (d₁ * d₂) : ℕ) : ℝ) * (1 / 10 ^ 4) ^ 2 < 1 := by
    have : ((d₃ * (d₁ * d₂) : ℕ) : ℝ) < 10 ^ 8 := by exact_mod_cast hd
    norm_num at this ⊢
    linarith
  obtain ⟨q, hq1, hq2, hq3⟩ := nullspace_one he (eps := 1 / 10 ^ 4) (by positivity) _ hd' hgap hv hk
  obtain ⟨⟨k, p⟩, rfl⟩ := finProdFinEquiv.surjective q
  obtain ⟨⟨i, j⟩, rfl⟩ := finProdFinEquiv.surjective p
  have hvp : ∀ i j k, v (pos i j k) = (((√(d₃ : ℝ))⁻¹ * C i j k : ℝ) : ℂ) := by
    intro i j k
    rw [hvd, PiLp.smul_apply, vec_apply, hCC, smul_eq_mul, ← Complex.ofReal_mul]
  have hvn : ∀ i j k, ‖v (pos i j k)‖ = |C i j k| / √(d₃ : ℝ) := by
    intro i j k
    rw [hvp, Complex.norm_real, Real.norm_eq_abs, abs_mul, abs_of_pos (inv_pos.2 hs0), inv_mul_eq_div]
  have hq2' : √(d₃ : ℝ) / 10 ^ 4 < |C i j k| := by
    have h2 : (1 / 10 ^ 4 : ℝ) < ‖v (pos i j k)‖ := hq2
    rw [hvn, lt_div_iff₀ hs0] at h2
    linarith
  have hne : C i j k ≠ 0 := by
    intro h1
    rw [h1, abs_zero] at hq2'
    have : 0 < √(d₃ : ℝ) / 10 ^ 4 := by positivity
    linarith
  refine ⟨SignType.sign (C i j k), ?_, ?_, i, j, k, ?_, ?_⟩
  · rcases lt_or_gt_of_ne hne with h1 | h1
    · right; rw [sign_neg h1]; simp
    · left; rw [sign_pos h1]; simp
  · unfold Rep.clebschGordan
    rw [pyAssert_of h₁₂, infer_eq he hn (r₁.tensorProduct r₂) r₃ h₁₃ hd hgap, hq3]
    simp only [bind, Except.bind, List.map_cons, List.map_nil, pure, Except.pure]
    congr 2
    funext i' j' k'
    show ((√(d₃ : ℝ) : ℝ) : ℂ) * ((_ • v) (pos i' j' k')) = _
    have hco : (((‖v (pos i j k)‖⁻¹ : ℝ) : ℂ) * starRingEnd ℂ (v (pos i j k))) =
        ((SignType.sign (C i j k) : ℝ) : ℂ) := by
      rw [hvn, hvp, Complex.conj_ofReal, ← Complex.ofReal_mul]
      congr 1
      have := sign_mul_abs (C i j k)
      have ha : |C i j k| ≠ 0 := abs_ne_zero.2 hne
      rw [inv_div]
      field_simp
      linarith
    rw [PiLp.smul_apply]
    show _ * ((((‖v (pos i j k)‖⁻¹ : ℝ) : ℂ) * starRingEnd ℂ (v (pos i j k))) * v (pos i' j' k')) = _
    rw [hco, hvp, ← Complex.ofReal_mul, ← Complex.ofReal_mul]
    congr 1
    field_simp
  · rw [sign_mul_self]
    exact hq2'
  · intro i' j' k' hlt
    have h2 : ‖v (pos i' j' k')‖ ≤ 1 / 10 ^ 4 := hq1 _ hlt
    rw [hvn, div_le_iff₀ hs0] at h2
    linarith

/-- No solution: the generic solver returns the empty array. -/
theorem generic_none (he : EighSpec eigh) (hn : n + h ≠ 0) (r₁ : Rep n h d₁) (r₂ : Rep n h d₂) (r₃ : Rep n h d₃)
    (h₁₂ : AllCloseA r₁.A r₂.A) (h₁₃ : AllCloseA r₁.A r₃.A) (hd : d₃ * (d₁ * d₂) < 10 ^ 8)
    (hgap : Gap (1 / 10 ^ 4) (icobMatrix r₃.allGens (r₁.tensorProduct r₂).allGens))
    (hnone : ∀ D, IsCG r₁ r₂ r₃ D → D = 0) : Rep.clebschGordan eigh r₁ r₂ r₃ = .ok [] := by
  obtain ⟨S, hS, h1, h2⟩ := clebschGordan_spec he hn r₁ r₂ r₃ h₁₂ h₁₃ hd hgap
  have : mspan S = ⊥ := by
    rw [eq_bot_iff]
    intro C hC
    exact (Submodule.mem_bot ℂ).2 (hnone C ((h1 C).1 hC))
  rw [this, finrank_bot] at h2
  rw [hS, List.length_eq_zero_iff.1 h2]

end LieNN.CGSpace
