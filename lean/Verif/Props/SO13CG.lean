import Verif.Proofs.SO13CG
import Verif.Props.Recompute
/-!
# C80: `SO13.clebsch_gordan`
-/
namespace LieNN.Props

open LieNN.Spec Matrix

variable {eigh : EighFn} {sqrtm : {d : ℕ} → Matrix (Fin d) (Fin d) ℂ → Matrix (Fin d) (Fin d) ℂ}

instance (a b c : ℕ) : Decidable (Triangle a b c) := inferInstanceAs (Decidable (_ ∧ _ ∧ _ ∧ _))

/-- The number of independent equivariant arrays of `SL2C`. -/
theorem sl2c_number (r₁ r₂ r₃ : SL2C) : Module.finrank ℂ (cgSpace (SL2C.rep r₁) (SL2C.rep r₂) (SL2C.rep r₃)) =
    if Triangle r₁.l r₂.l r₃.l ∧ Triangle r₁.k r₂.k r₃.k then 1 else 0 := by
  have h := C78_space TBasis.sl2c_goodTable r₁ r₂ r₃
  have ht : (Triangle r₁.l r₂.l r₃.l ∧ Triangle r₁.k r₂.k r₃.k) ↔ r₃ ∈ SL2C.mulL r₁ r₂ := by
    rw [SL2C.mem_mulL, triangle_iff, triangle_iff]
  by_cases hm : r₃ ∈ SL2C.mulL r₁ r₂
  · rw [if_pos (ht.2 hm)]
    refine (h.1 (by rw [SL2C.table_prod]; exact hm)).2.trans ?_
    rw [SL2C.table_cg hm]
    rfl
  · rw [if_neg fun h' => hm (ht.1 h')]
    have e : cgSpace (SL2C.rep r₁) (SL2C.rep r₂) (SL2C.rep r₃) = ⊥ := h.2 (by rw [SL2C.table_prod]; exact hm)
    rw [e, finrank_bot]

/-- Arrays as matrices that intertwine: the rows of an `SL2C` array have the same norm and are orthogonal. -/
theorem sl2c_scalar {r₁ r₂ r₃ : SL2C} {T : Matrix (Fin r₃.dim) (Fin (r₁.dim * r₂.dim)) ℂ}
    (hT : T ∈ intertwiners (SL2C.rep r₃).allGens ((SL2C.rep r₁).tensorProduct (SL2C.rep r₂)).allGens) :
    ∃ c : ℂ, T * Tᴴ = c • 1 := by
  have hcg := (isCG_iff (SL2C.rep r₁) (SL2C.rep r₂) (SL2C.rep r₃) T).2 hT
  have h := C78_space TBasis.sl2c_goodTable r₁ r₂ r₃
  by_cases hm : r₃ ∈ SL2C.mulL r₁ r₂
  · have h1 := (h.1 (by rw [SL2C.table_prod]; exact hm)).1
    have hmem : cgOf T ∈ cgSpace (SL2C.rep r₁) (SL2C.rep r₂) (SL2C.rep r₃) := hcg
    have h1' : cgSpace (SL2C.rep r₁) (SL2C.rep r₂) (SL2C.rep r₃) =
      Submodule.span ℂ {C | C ∈ SL2C.table.cg r₁ r₂ r₃} := h1
    rw [h1', SL2C.table_cg hm] at hmem
    obtain ⟨c, hc⟩ : ∃ c : ℂ, c • SL2C.ctC r₁ r₂ r₃ = cgOf T := by
      refine Submodule.mem_span_singleton.1 (Submodule.span_mono ?_ hmem)
      intro C hC
      exact List.mem_singleton.1 hC
    refine ⟨c * star c, ?_⟩
    ext k l
    rw [Matrix.mul_apply, ← finProdFinEquiv.sum_comp, Fintype.sum_prod_type]
    have e1 : ∀ i j k, T k (finProdFinEquiv (i, j)) = c * (SL2C.ctS r₁ r₂ r₃ i j k : ℂ) := by
      intro i j k
      exact (congrFun (congrFun (congrFun hc i) j) k).symm
    simp only [conjTranspose_apply, e1, star_mul', show ∀ x : ℝ, star (x : ℂ) = x from Complex.conj_ofReal]
    have e2 : ∀ i j, c * (SL2C.ctS r₁ r₂ r₃ i j k : ℂ) * (star c * (SL2C.ctS r₁ r₂ r₃ i j l : ℂ)) =
        c * star c * ((SL2C.ctS r₁ r₂ r₃ i j k * SL2C.ctS r₁ r₂ r₃ i j l : ℝ) : ℂ) := by
      intro i j
      push_cast
      ring
    simp only [e2]
    rw [Matrix.smul_apply, Matrix.one_apply, smul_eq_mul]
    simp only [← Finset.mul_sum, ← Complex.ofReal_sum]
    rw [SL2C.ctS_orth hm hm]
    simp only [true_and, Fin.val_inj]
    split_ifs <;> simp
  · have h1 : cgSpace (SL2C.rep r₁) (SL2C.rep r₂) (SL2C.rep r₃) = ⊥ := h.2 (by rw [SL2C.table_prod]; exact hm)
    have hmem : cgOf T ∈ cgSpace (SL2C.rep r₁) (SL2C.rep r₂) (SL2C.rep r₃) := hcg
    rw [h1, Submodule.mem_bot] at hmem
    have : T = 0 := (cgL r₁.dim r₂.dim r₃.dim).map_eq_zero_iff.1 hmem
    exact ⟨0, by rw [this]; simp⟩

theorem so13_close : AllCloseA SO13.algebra SO13.algebra := fun i j k => by
  change ‖SO13.algebra i j k - SO13.algebra i j k‖ ≤ _
  rw [sub_self, norm_zero]; positivity

theorem so13_gap {r₁ r₂ r₃ : SL2C} {X₁ : Fin 6 → Matrix (Fin r₁.dim) (Fin r₁.dim) ℂ}
    {X₂ : Fin 6 → Matrix (Fin r₂.dim) (Fin r₂.dim) ℂ} {X₃ : Fin 6 → Matrix (Fin r₃.dim) (Fin r₃.dim) ℂ} {W₁ W₂ W₃}
    (h₁ : SO13.Twist SO13.phase W₁ (SL2C.rep r₁).X X₁) (h₂ : SO13.Twist SO13.phase W₂ (SL2C.rep r₂).X X₂)
    (h₃ : SO13.Twist SO13.phase W₃ (SL2C.rep r₃).X X₃) :
    Gap (1 / 10 ^ 4) (icobMatrix (SO13.repOf X₃).allGens ((SO13.repOf X₁).tensorProduct (SO13.repOf X₂)).allGens) := by
  have hT : IsRep ((SL2C.rep r₁).tensorProduct (SL2C.rep r₂)) :=
    isRep_tensorProduct (r₁ := SL2C.rep r₁) (r₂ := SL2C.rep r₂) rfl (SL2C.isRep r₁) (SL2C.isRep r₂)
  have hU : IsUnitaryRep ((SL2C.rep r₁).tensorProduct (SL2C.rep r₂)) :=
    unitary_tensorProduct ⟨fun a => a.elim0, SL2C.skew r₁⟩ ⟨fun a => a.elim0, SL2C.skew r₂⟩
  have gap : Gap (1 / 10 ^ 4) (icobMatrix (SL2C.rep r₃).allGens
      ((SL2C.rep r₁).tensorProduct (SL2C.rep r₂)).allGens) :=
    CGSpace.gap_sl2c rfl (SL2C.isRep r₃) rfl hT (SL2C.skew r₃) hU.2 (by norm_num)
  exact SO13.Twist.gap (p := SO13.phase) SO13.phase_unit (SO13.Twist.allGens (r := SL2C.rep r₃) (s := SO13.repOf X₃) h₃)
    (SO13.Twist.allGens (SO13.Twist.kron (s₁ := SO13.repOf X₁) (s₂ := SO13.repOf X₂) h₁ h₂)) gap

/-- C80: `SO13.clebsch_gordan` returns, without error, exactly one array when the two triangle rules hold and none
otherwise.  The array is equivariant for the generators returned by `continuous_generators`, and its columns are
orthonormal.  Every equivariant array is a combination of the returned ones. -/
theorem C80_cg (he : EighSpec eigh) (hs : SqrtmInvSpec sqrtm) (r₁ r₂ r₃ : SL2C) (b₁ : r₁.dim < 10 ^ 4)
    (b₂ : r₂.dim < 10 ^ 4) (b₃ : r₃.dim < 10 ^ 4) (hd : r₃.dim * (r₁.dim * r₂.dim) < 10 ^ 8) :
    ∃ X₁ X₂ X₃ G, SO13.gens eigh (1 / 10 ^ 4) sqrtm r₁ = .ok X₁ ∧ SO13.gens eigh (1 / 10 ^ 4) sqrtm r₂ = .ok X₂ ∧
      SO13.gens eigh (1 / 10 ^ 4) sqrtm r₃ = .ok X₃ ∧ SO13.clebschGordan eigh sqrtm r₁ r₂ r₃ = .ok G ∧
      G.length = (if Triangle r₁.l r₂.l r₃.l ∧ Triangle r₁.k r₂.k r₃.k then 1 else 0) ∧
      (∀ D, IsCG (SO13.repOf X₁) (SO13.repOf X₂) (SO13.repOf X₃) D ↔ D ∈ mspan G) ∧
      ∀ C ∈ G, ∀ k l, ∑ i, ∑ j, C i j k * star (C i j l) = if k = l then 1 else 0 := by
  obtain ⟨X₁, g₁, -, W₁, t₁⟩ := SO13.gens_twist he hs r₁ b₁
  obtain ⟨X₂, g₂, -, W₂, t₂⟩ := SO13.gens_twist he hs r₂ b₂
  obtain ⟨X₃, g₃, -, W₃, t₃⟩ := SO13.gens_twist he hs r₃ b₃
  have a₃ := SO13.Twist.allGens (r := SL2C.rep r₃) (s := SO13.repOf X₃) t₃
  have a₁₂ := SO13.Twist.allGens (SO13.Twist.kron (s₁ := SO13.repOf X₁) (s₂ := SO13.repOf X₂) t₁ t₂)
  have hint := SO13.Twist.intertwiners (p := SO13.phase) SO13.phase_unit a₃ a₁₂
  have hgap := so13_gap t₁ t₂ t₃
  obtain ⟨S, hS, hspan, hlen, htr⟩ := rep_infer_spec he (by norm_num)
    ((SO13.repOf X₁).tensorProduct (SO13.repOf X₂)) (SO13.repOf X₃) so13_close hd hgap
  have hok : Rep.clebschGordan eigh (SO13.repOf X₁) (SO13.repOf X₂) (SO13.repOf X₃) = .ok (S.map cgOf) := by
    unfold Rep.clebschGordan
    rw [pyAssert_of (show AllCloseA (SO13.repOf X₁).A (SO13.repOf X₂).A from so13_close), hS]
    rfl
  refine ⟨X₁, X₂, X₃, S.map cgOf, g₁, g₂, g₃, ?_, ?_, ?_, ?_⟩
  · unfold SO13.clebschGordan
    rw [g₁, g₂, g₃]
    exact hok
  · rw [List.length_map, hlen, hint, LinearEquiv.finrank_map_eq, ← sl2c_number, SO13.cgSpace_map,
      LinearEquiv.finrank_map_eq]
  · intro D
    rw [mspan_map_cg, hspan, ← SO13.cgSpace_map]
    rfl
  · intro C hC k l
    obtain ⟨Q, hQ, rfl⟩ := List.mem_map.1 hC
    obtain ⟨a, ha, rfl⟩ := List.getElem_of_mem hQ
    have hmem : S[a] ∈ intertwiners (SO13.repOf X₃).allGens
        ((SO13.repOf X₁).tensorProduct (SO13.repOf X₂)).allGens := by
      rw [← hspan]
      exact Submodule.subset_span hQ
    rw [hint, Submodule.mem_map] at hmem
    obtain ⟨T, hT, e⟩ := hmem
    obtain ⟨c, hc⟩ := sl2c_scalar hT
    have e' : S[a] = W₃ * T * (kron W₁ W₂)ᴴ := e.symm
    have hQQ : S[a] * (S[a])ᴴ = c • 1 := by
      rw [e', conjTranspose_mul, conjTranspose_mul, conjTranspose_conjTranspose]
      calc _ = W₃ * T * ((kron W₁ W₂)ᴴ * kron W₁ W₂) * Tᴴ * W₃ᴴ := by simp only [Matrix.mul_assoc]
        _ = W₃ * (T * Tᴴ) * W₃ᴴ := by rw [a₁₂.left, Matrix.mul_one]; simp only [Matrix.mul_assoc]
        _ = c • 1 := by rw [hc, Matrix.mul_smul, Matrix.smul_mul, Matrix.mul_one, t₃.right]
    have h1 := htr ⟨a, ha⟩ ⟨a, ha⟩
    rw [if_pos rfl, Matrix.trace_mul_comm, List.get_eq_getElem] at h1
    simp only at h1
    rw [hQQ, Matrix.trace_smul, Matrix.trace_one, Fintype.card_fin, smul_eq_mul] at h1
    have hd0 : (r₃.dim : ℂ) ≠ 0 := by
      have := k.pos
      exact_mod_cast this.ne'
    have hc1 : c = 1 := mul_right_cancel₀ hd0 (h1.trans (one_mul _).symm)
    have h2 := congrFun (congrFun hQQ k) l
    rw [hc1, one_smul, Matrix.one_apply, Matrix.mul_apply, ← finProdFinEquiv.sum_comp, Fintype.sum_prod_type] at h2
    exact h2

/-- C80: when `l = k` for all three irreps the returned arrays are real. -/
theorem C80_real (he : EighSpec eigh) (hs : SqrtmInvSpec sqrtm) (r₁ r₂ r₃ : SL2C) (b₁ : r₁.dim < 10 ^ 4)
    (b₂ : r₂.dim < 10 ^ 4) (b₃ : r₃.dim < 10 ^ 4) (hd : r₃.dim * (r₁.dim * r₂.dim) < 10 ^ 8)
    (e₁ : r₁.l = r₁.k) (e₂ : r₂.l = r₂.k) (e₃ : r₃.l = r₃.k) {G}
    (hG : SO13.clebschGordan eigh sqrtm r₁ r₂ r₃ = .ok G) : ∀ C ∈ G, ∀ i j k, (C i j k).im = 0 := by
  obtain ⟨X₁, X₂, X₃, G', g₁, g₂, g₃, hG', hlen, hcg, horth⟩ := C80_cg he hs r₁ r₂ r₃ b₁ b₂ b₃ hd
  obtain rfl : G = G' := by rw [hG] at hG'; exact Except.ok.inj hG'
  obtain ⟨X₁', g₁', re₁, W₁, t₁⟩ := SO13.gens_twist he hs r₁ b₁
  obtain ⟨X₂', g₂', re₂, W₂, t₂⟩ := SO13.gens_twist he hs r₂ b₂
  obtain ⟨X₃', g₃', re₃, W₃, t₃⟩ := SO13.gens_twist he hs r₃ b₃
  obtain rfl : X₁ = X₁' := by rw [g₁] at g₁'; exact Except.ok.inj g₁'
  obtain rfl : X₂ = X₂' := by rw [g₂] at g₂'; exact Except.ok.inj g₂'
  obtain rfl : X₃ = X₃' := by rw [g₃] at g₃'; exact Except.ok.inj g₃'
  have hgap := so13_gap t₁ t₂ t₃
  match G, hlen, hcg, horth, hG with
  | [], _, _, _, _ => simp
  | [C], _, hcg, horth, hG =>
    have hgen : Rep.clebschGordan eigh (SO13.repOf X₁) (SO13.repOf X₂) (SO13.repOf X₃) = .ok [C] := by
      rw [← hG]
      unfold SO13.clebschGordan
      rw [g₁, g₂, g₃]
      rfl
    have h0 : 0 < r₃.dim := Nat.mul_pos (Nat.succ_pos _) (Nat.succ_pos _)
    -- conjugation preserves equivariance
    have hsp : mspan [C] = Submodule.span ℂ {C} := by
      unfold mspan
      congr 1
      ext; simp
    have huC : ∀ D, IsCG (SO13.repOf X₁) (SO13.repOf X₂) (SO13.repOf X₃) D → ∃ c : ℂ, D = c • C := by
      intro D hD
      have := (hcg D).1 hD
      rw [hsp, Submodule.mem_span_singleton] at this
      obtain ⟨c, hc⟩ := this
      exact ⟨c, hc.symm⟩
    have hC : IsCG (SO13.repOf X₁) (SO13.repOf X₂) (SO13.repOf X₃) C :=
      (hcg C).2 (by rw [hsp]; exact Submodule.mem_span_singleton_self C)
    have r1 : ∀ a i j, star (X₁ a i j) = X₁ a i j := fun a i j => Complex.conj_eq_iff_im.2 (re₁ e₁ a i j)
    have r2 : ∀ a i j, star (X₂ a i j) = X₂ a i j := fun a i j => Complex.conj_eq_iff_im.2 (re₂ e₂ a i j)
    have r3 : ∀ a i j, star (X₃ a i j) = X₃ a i j := fun a i j => Complex.conj_eq_iff_im.2 (re₃ e₃ a i j)
    have hconj : IsCG (SO13.repOf X₁) (SO13.repOf X₂) (SO13.repOf X₃) fun i j k => star (C i j k) := by
      refine ⟨fun a i j l => ?_, fun a => a.elim0⟩
      have := congrArg star (hC.1 a i j l)
      simpa only [SO13.repOf, star_add, star_sum, star_mul', r1, r2, r3] using this
    obtain ⟨D, hD, hDC⟩ : ∃ D : Fin r₁.dim → Fin r₂.dim → Fin r₃.dim → ℝ,
        IsCG (SO13.repOf X₁) (SO13.repOf X₂) (SO13.repOf X₃) (fun i j k => (D i j k : ℂ)) ∧ D ≠ 0 := by
      have hre : IsCG (SO13.repOf X₁) (SO13.repOf X₂) (SO13.repOf X₃) fun i j k => ((C i j k).re : ℂ) := by
        have h1 := (cgSpace (SO13.repOf X₁) (SO13.repOf X₂) (SO13.repOf X₃)).smul_mem (1 / 2 : ℂ)
          (Submodule.add_mem _ hC hconj)
        have e : ((1 / 2 : ℂ) • (C + fun i j k => star (C i j k))) = fun i j k => ((C i j k).re : ℂ) := by
          funext i j k
          show (1 / 2 : ℂ) * (C i j k + star (C i j k)) = _
          rw [Complex.re_eq_add_conj]
          show _ = (C i j k + star (C i j k)) / 2
          ring
        rw [e] at h1
        exact h1
      have him : IsCG (SO13.repOf X₁) (SO13.repOf X₂) (SO13.repOf X₃) fun i j k => ((C i j k).im : ℂ) := by
        have h1 := (cgSpace (SO13.repOf X₁) (SO13.repOf X₂) (SO13.repOf X₃)).smul_mem (1 / (2 * Complex.I) : ℂ)
          (Submodule.sub_mem _ hC hconj)
        have e : ((1 / (2 * Complex.I) : ℂ) • (C - fun i j k => star (C i j k))) = fun i j k => ((C i j k).im : ℂ) := by
          funext i j k
          show (1 / (2 * Complex.I) : ℂ) * (C i j k - star (C i j k)) = _
          rw [Complex.im_eq_sub_conj]
          show _ = (C i j k - star (C i j k)) / (2 * Complex.I)
          ring
        rw [e] at h1
        exact h1
      by_cases hz : (fun i j k => (C i j k).re : Fin r₁.dim → Fin r₂.dim → Fin r₃.dim → ℝ) = 0
      · refine ⟨_, him, fun hz' => ?_⟩
        have hC0 : C = 0 := by
          funext i j k
          exact Complex.ext (congrFun (congrFun (congrFun hz i) j) k) (congrFun (congrFun (congrFun hz' i) j) k)
        have := horth C (by simp) ⟨0, h0⟩ ⟨0, h0⟩
        rw [hC0] at this
        simp at this
      · exact ⟨_, hre, hz⟩
    -- normalise
    have hN : 0 < ∑ i, ∑ j, ∑ k, D i j k ^ 2 := by
      obtain ⟨i, hi⟩ := Function.ne_iff.1 hDC
      obtain ⟨j, hj⟩ := Function.ne_iff.1 hi
      obtain ⟨k, hk⟩ := Function.ne_iff.1 hj
      have hk' : D i j k ≠ 0 := hk
      refine Finset.sum_pos' (fun _ _ => by positivity) ⟨i, Finset.mem_univ _, ?_⟩
      refine Finset.sum_pos' (fun _ _ => by positivity) ⟨j, Finset.mem_univ _, ?_⟩
      exact Finset.sum_pos' (fun _ _ => by positivity) ⟨k, Finset.mem_univ _, by positivity⟩
    set N := ∑ i, ∑ j, ∑ k, D i j k ^ 2 with hNd
    set t : ℝ := Real.sqrt (r₃.dim / N) with ht
    have htt : t ^ 2 * N = r₃.dim := by
      rw [ht, Real.sq_sqrt (by positivity), div_mul_cancel₀ _ hN.ne']
    have ht0 : t ≠ 0 := by
      rw [ht]
      exact (Real.sqrt_pos.2 (div_pos (by exact_mod_cast h0) hN)).ne'
    obtain ⟨s, -, hres, -⟩ := CGSpace.generic_one he (by norm_num) (SO13.repOf X₁) (SO13.repOf X₂) (SO13.repOf X₃)
      so13_close so13_close hd h0 hgap (fun i j k => t * D i j k) (by
        have h1 := (cgSpace (SO13.repOf X₁) (SO13.repOf X₂) (SO13.repOf X₃)).smul_mem (t : ℂ) hD
        have e : ((t : ℂ) • fun i j k => (D i j k : ℂ)) = fun i j k => ((t * D i j k : ℝ) : ℂ) := by
          funext i j k
          show (t : ℂ) * (D i j k : ℂ) = _
          push_cast; rfl
        rw [e] at h1
        exact h1) (by
        simp only [mul_pow, ← Finset.mul_sum]
        exact htt) (by
        intro E hE
        obtain ⟨c, rfl⟩ := huC E hE
        obtain ⟨b, hb⟩ := huC _ hD
        have hb0 : b ≠ 0 := by
          rintro rfl
          rw [zero_smul] at hb
          apply hDC
          funext i j k
          have := congrFun (congrFun (congrFun hb i) j) k
          exact Complex.ofReal_eq_zero.1 this
        refine ⟨c / (t * b), ?_⟩
        funext i j k
        have h3 : (D i j k : ℂ) = b * C i j k := congrFun (congrFun (congrFun hb i) j) k
        show c * C i j k = c / (t * b) * ((t * D i j k : ℝ) : ℂ)
        push_cast
        rw [h3]
        have : (t : ℂ) ≠ 0 := by exact_mod_cast ht0
        field_simp)
    rw [hgen] at hres
    have hCe := (List.cons.inj (Except.ok.inj hres)).1
    intro C' hC' i j k
    rw [List.mem_singleton.1 hC', hCe]
    exact Complex.ofReal_im _
  | C :: C' :: G, hlen, _, _, _ =>
    exfalso
    simp only [List.length_cons] at hlen
    split_ifs at hlen <;> omega

/-- C80: `SO13(l, k)` raises exactly when a weight is negative or the sum is odd. -/
theorem C80_make (l k : ℤ) : (0 ≤ l ∧ 0 ≤ k ∧ 2 ∣ l + k → SO13.make l k = .ok (l.toNat, k.toNat)) ∧
    (¬ (0 ≤ l ∧ 0 ≤ k ∧ 2 ∣ l + k) → SO13.make l k = .error .assertionError) := by
  unfold SO13.make pyAssert
  constructor
  · rintro ⟨h1, h2, h3⟩
    rw [if_pos h1, if_pos h2, if_pos (by omega)]
    rfl
  · intro h
    by_cases h1 : 0 ≤ l
    · by_cases h2 : 0 ≤ k
      · rw [if_pos h1, if_pos h2, if_neg (by omega)]
        rfl
      · rw [if_pos h1, if_neg h2]
        rfl
    · rw [if_neg h1]
      rfl

/-- C80: the irreps listed by `__mul__` are those for which an array is returned. -/
theorem C80_mul (he : EighSpec eigh) (hs : SqrtmInvSpec sqrtm) (r₁ r₂ r₃ : SL2C) (b₁ : r₁.dim < 10 ^ 4)
    (b₂ : r₂.dim < 10 ^ 4) (b₃ : r₃.dim < 10 ^ 4) (hd : r₃.dim * (r₁.dim * r₂.dim) < 10 ^ 8)
    (v₁ : (r₁.l + r₁.k) % 2 = 0) (v₂ : (r₂.l + r₂.k) % 2 = 0) :
    ∃ L G, SO13.mul (r₁.l, r₁.k) (r₂.l, r₂.k) = .ok L ∧ SO13.clebschGordan eigh sqrtm r₁ r₂ r₃ = .ok G ∧
      L.count (r₃.l, r₃.k) = G.length := by
  obtain ⟨X₁, X₂, X₃, G, -, -, -, hG, hlen, -⟩ := C80_cg he hs r₁ r₂ r₃ b₁ b₂ b₃ hd
  refine ⟨_, G, SO13.mul_eq v₁ v₂, hG, ?_⟩
  rw [hlen]
  have hnd : ((SL2C.mulL r₁ r₂).map fun r : SL2C => (r.l, r.k)).Nodup := by
    refine List.Nodup.map (fun a b h => ?_) ?_
    · obtain ⟨l, k⟩ := a
      obtain ⟨l', k'⟩ := b
      simpa using h
    · obtain ⟨L, hL, hn, -⟩ := SL2C.selection.1 r₁ r₂ trivial trivial
      rw [SL2C.mul_eq] at hL
      rw [Except.ok.inj hL]
      exact hn
  have hiff : (r₃.l, r₃.k) ∈ (SL2C.mulL r₁ r₂).map (fun r : SL2C => (r.l, r.k)) ↔
      Triangle r₁.l r₂.l r₃.l ∧ Triangle r₁.k r₂.k r₃.k := by
    rw [← triangle_iff, ← triangle_iff, ← SL2C.mem_mulL, List.mem_map]
    constructor
    · rintro ⟨r, hr, e⟩
      have : r = r₃ := by
        obtain ⟨l, k⟩ := r
        obtain ⟨l', k'⟩ := r₃
        simpa using e
      rwa [this] at hr
    · exact fun h => ⟨r₃, h, rfl⟩
  by_cases ht : Triangle r₁.l r₂.l r₃.l ∧ Triangle r₁.k r₂.k r₃.k
  · rw [if_pos ht]
    exact List.count_eq_one_of_mem hnd (hiff.2 ht)
  · rw [if_neg ht]
    exact List.count_eq_zero_of_not_mem fun h => ht (hiff.1 h)

/-- Two four-vectors `(1, 1)` couple to an antisymmetric tensor part `(2, 0)`: one complex array; to `(1, 1)`: none. -/
example : ∃ (sqrtm : {d : ℕ} → Matrix (Fin d) (Fin d) ℂ → Matrix (Fin d) (Fin d) ℂ) (C : _),
    SO13.clebschGordan exactEigh sqrtm ⟨1, 1⟩ ⟨1, 1⟩ ⟨2, 0⟩ = .ok [C] ∧
    SO13.clebschGordan exactEigh sqrtm ⟨1, 1⟩ ⟨1, 1⟩ ⟨1, 1⟩ = .ok [] := by
  obtain ⟨sqrtm, hs⟩ := SO13.exists_sqrtm
  have tr : Triangle 1 1 2 ∧ Triangle 1 1 0 ∧ ¬ Triangle 1 1 1 := by
    unfold Triangle; omega
  obtain ⟨-, -, -, G, -, -, -, hG, hlen, -⟩ := C80_cg exactEigh_spec hs ⟨1, 1⟩ ⟨1, 1⟩ ⟨2, 0⟩ (by norm_num [SL2C.dim])
    (by norm_num [SL2C.dim]) (by norm_num [SL2C.dim]) (by norm_num [SL2C.dim])
  obtain ⟨-, -, -, G', -, -, -, hG', hlen', -⟩ := C80_cg exactEigh_spec hs ⟨1, 1⟩ ⟨1, 1⟩ ⟨1, 1⟩ (by norm_num [SL2C.dim])
    (by norm_num [SL2C.dim]) (by norm_num [SL2C.dim]) (by norm_num [SL2C.dim])
  rw [if_pos ⟨tr.1, tr.2.1⟩] at hlen
  rw [if_neg fun h => tr.2.2 h.1] at hlen'
  obtain ⟨C, rfl⟩ := List.length_eq_one_iff.1 hlen
  exact ⟨sqrtm, C, hG, by rw [hG', List.length_eq_zero_iff.1 hlen']⟩

example : SO13.make 1 0 = .error .assertionError ∧ SO13.make 2 0 = .ok (2, 0) :=
  ⟨(C80_make 1 0).2 (by omega), (C80_make 2 0).1 (by omega)⟩

end LieNN.Props
