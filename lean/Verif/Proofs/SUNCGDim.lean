import Verif.Proofs.SUNCGMain
/-!
# The number of the solutions
-/
namespace LieNN.SUN

open Spec Finset Matrix

section
variable {S₁ S₂ S₃ : List ℤ}

theorem genFn_exists {n : ℕ} {x : Matrix (Fin n) (Fin n) ℂ} (hx : x ∈ suBasis n) :
    ∃ i : Fin (n ^ 2 - 1), (suBasis n).getD i 0 = x := by
  obtain ⟨i, hi, rfl⟩ := List.mem_iff_getElem.1 hx
  exact ⟨⟨i, by rw [← length_suBasis']; exact hi⟩, List.getD_eq_getElem _ _ hi⟩

theorem suBasis_getD_mem {n : ℕ} (i : Fin (n ^ 2 - 1)) : (suBasis n).getD i 0 ∈ suBasis n := by
  have hi : (i : ℕ) < (suBasis n).length := by rw [length_suBasis']; exact i.2
  rw [List.getD_eq_getElem _ _ hi]
  exact List.getElem_mem hi

/-- Equivariant arrays are intertwiners of the ladder operators. -/
theorem isCG_ladder (h : Labels S₁ S₂ S₃) {n : ℕ} (hn : S₃.length = n)
    {L₁ : List (Matrix (Fin (pats S₁).length) (Fin (pats S₁).length) ℂ)}
    {L₂ : List (Matrix (Fin (pats S₂).length) (Fin (pats S₂).length) ℂ)}
    {L₃ : List (Matrix (Fin (pats S₃).length) (Fin (pats S₃).length) ℂ)}
    (hL₁ : generators (pats S₁).length S₁ = .ok L₁) (hL₂ : generators (pats S₂).length S₂ = .ok L₂)
    (hL₃ : generators (pats S₃).length S₃ = .ok L₃)
    (A₁ A₂ A₃ : Fin (n ^ 2 - 1) → Fin (n ^ 2 - 1) → Fin (n ^ 2 - 1) → ℂ)
    (C : Fin (pats S₁).length → Fin (pats S₂).length → Fin (pats S₃).length → ℂ) :
    IsCG (⟨A₁, genFn (n ^ 2 - 1) L₁, Fin.elim0⟩ : Rep (n ^ 2 - 1) 0 _) ⟨A₂, genFn (n ^ 2 - 1) L₂, Fin.elim0⟩
      ⟨A₃, genFn (n ^ 2 - 1) L₃, Fin.elim0⟩ C ↔ LadderInt S₁ S₂ S₃ (cgMat C) := by
  have h2 : 2 ≤ n := hn ▸ h.two
  obtain ⟨f₁, e₁, b₁, s₁, u₁, d₁⟩ := gens_of_length h.w₁ h.p₁ (h.l₁.trans hn) h2
  obtain ⟨f₂, e₂, b₂, s₂, u₂, d₂⟩ := gens_of_length h.w₂ h.p₂ (h.l₂.trans hn) h2
  obtain ⟨f₃, e₃, b₃, s₃, u₃, d₃⟩ := gens_of_length h.w₃ h.p₃ hn h2
  rw [hL₁] at e₁
  rw [hL₂] at e₂
  rw [hL₃] at e₃
  cases e₁
  cases e₂
  cases e₃
  have sk : ∀ {d : ℕ} (f : Matrix (Fin n) (Fin n) ℂ →ₗ[ℂ] Matrix (Fin d) (Fin d) ℂ) (_ : ∀ x, f xᴴ = (f x)ᴴ)
      (a : Fin (n ^ 2 - 1)), (genFn (n ^ 2 - 1) ((suBasis n).map f) a)ᴴ = -genFn (n ^ 2 - 1) ((suBasis n).map f) a := by
    intro d f hf a
    rw [genFn_map, ← hf, suBasis_skew (suBasis_getD_mem a), map_neg]
  rw [isCG_iff_intertwines A₁ A₂ A₃ (sk f₁ s₁) (sk f₂ s₂) (sk f₃ s₃)]
  simp only [genFn_map]
  constructor
  · intro hc
    have hb : ∀ x ∈ suBasis n, cgMat C * f₃ x = tensMap f₁ f₂ x * cgMat C := by
      intro x hx
      obtain ⟨i, rfl⟩ := genFn_exists hx
      exact hc i
    refine ⟨fun l hl => ?_, fun l hl => ?_⟩
    · have := intertwines_of_basis hb (k := l) (l := l + 1) (by omega) (by omega) (by omega)
      rwa [tensMap_apply, u₁ l (by omega), u₂ l (by omega), u₃ l (by omega)] at this
    · have := intertwines_of_basis hb (k := l + 1) (l := l) (by omega) (by omega) (by omega)
      rwa [tensMap_apply, d₁ l (by omega), d₂ l (by omega), d₃ l (by omega), ← Ladder.tens_conj] at this
  · intro hl a
    refine basis_of_ladder (f := f₃) (f' := tensMap f₁ f₂) b₃ (tensMap_lie b₁ b₂) (fun l hl' => ?_) (fun l hl' => ?_) _
      (suBasis_getD_mem a)
    · rw [tensMap_apply, u₁ l hl', u₂ l hl', u₃ l hl']
      exact hl.1 l (by omega)
    · rw [tensMap_apply, d₁ l hl', d₂ l hl', d₃ l hl', ← Ladder.tens_conj]
      exact hl.2 l (by omega)

/-! ## Complex conjugation -/

theorem mul_conj {ι κ μ : Type} [Fintype κ] (A : Matrix ι κ ℂ) (B : Matrix κ μ ℂ) :
    (A * B).map star = A.map star * B.map star := by
  ext i j
  simp only [Matrix.map_apply, Matrix.mul_apply, star_sum, star_mul']

theorem Jp_real (S : List ℤ) (l : ℕ) : (Jp S l).map star = Jp S l := by
  ext a b
  simp [Jp_JR]

theorem JT_real (S₁ S₂ : List ℤ) (l : ℕ) : (JT S₁ S₂ l).map star = JT S₁ S₂ l := by
  ext a b
  change star (Ladder.tens (Jp S₁ l) (Jp S₂ l) a b) = Ladder.tens (Jp S₁ l) (Jp S₂ l) a b
  rw [Ladder.tens_apply, star_add]
  congr 1
  · split_ifs <;> simp [Jp_JR]
  · split_ifs <;> simp [Jp_JR]

theorem map_star_conj {ι κ : Type} {A : Matrix ι κ ℂ} (h : A.map star = A) : Aᴴ.map star = Aᴴ := by
  ext a b
  have := congrFun₂ h b a
  rw [Matrix.map_apply] at this
  rw [Matrix.map_apply, conjTranspose_apply, this]
  exact this

theorem LadderInt.conj {T : Matrix (Fin (pats S₁).length × Fin (pats S₂).length) (Fin (pats S₃).length) ℂ}
    (hT : LadderInt S₁ S₂ S₃ T) : LadderInt S₁ S₂ S₃ (T.map star) := by
  refine ⟨fun l hl => ?_, fun l hl => ?_⟩
  · have := congrArg (fun A => Matrix.map A star) (hT.1 l hl)
    simp only [mul_conj] at this
    rwa [Jp_real, JT_real] at this
  · have := congrArg (fun A => Matrix.map A star) (hT.2 l hl)
    simp only [mul_conj] at this
    rwa [map_star_conj (Jp_real S₃ l), map_star_conj (JT_real S₁ S₂ l)] at this

theorem LadderInt.add {T T' : Matrix (Fin (pats S₁).length × Fin (pats S₂).length) (Fin (pats S₃).length) ℂ}
    (hT : LadderInt S₁ S₂ S₃ T) (hT' : LadderInt S₁ S₂ S₃ T') : LadderInt S₁ S₂ S₃ (T + T') := by
  refine ⟨fun l hl => ?_, fun l hl => ?_⟩
  · rw [Matrix.add_mul, Matrix.mul_add, hT.1 l hl, hT'.1 l hl]
  · rw [Matrix.add_mul, Matrix.mul_add, hT.2 l hl, hT'.2 l hl]

theorem LadderInt.smul {T : Matrix (Fin (pats S₁).length × Fin (pats S₂).length) (Fin (pats S₃).length) ℂ}
    (hT : LadderInt S₁ S₂ S₃ T) (c : ℂ) : LadderInt S₁ S₂ S₃ (c • T) := by
  refine ⟨fun l hl => ?_, fun l hl => ?_⟩
  · rw [Matrix.smul_mul, Matrix.mul_smul, hT.1 l hl]
  · rw [Matrix.smul_mul, Matrix.mul_smul, hT.2 l hl]

theorem LadderInt.zero_of_top (h : Labels S₁ S₂ S₃)
    {T : Matrix (Fin (pats S₁).length × Fin (pats S₂).length) (Fin (pats S₃).length) ℂ}
    (hT : LadderInt S₁ S₂ S₃ T) (h0 : ∀ x, T x (topIdx h.w₃) = 0) : T = 0 :=
  Ladder.intertwiner_unique (sys_Jp h.w₃) (top_Jp h.w₃) T hT.1 hT.2 (by
    rw [mulVec_top]
    funext x
    exact h0 x)

/-- The intertwiner of a real vector is real. -/
theorem LadderInt.real (h : Labels S₁ S₂ S₃)
    {T : Matrix (Fin (pats S₁).length × Fin (pats S₂).length) (Fin (pats S₃).length) ℂ}
    (hT : LadderInt S₁ S₂ S₃ T) {v : Matrix (Fin (pats S₁).length) (Fin (pats S₂).length) ℝ}
    (htop : T *ᵥ Pi.single (topIdx h.w₃) 1 = tvec v) : T.map star = T := by
  have h1 : T.map star + (-1 : ℂ) • T = 0 := by
    refine LadderInt.zero_of_top h (hT.conj.add (hT.smul _)) fun x => ?_
    rw [mulVec_top] at htop
    have := congrFun htop x
    rw [Matrix.add_apply, Matrix.smul_apply, Matrix.map_apply, this, tvec]
    simp
  have h2 : T.map star = -((-1 : ℂ) • T) := eq_neg_of_add_eq_zero_left h1
  rw [h2, neg_smul, one_smul, neg_neg]

/-! ## The dimension -/

/-- The intertwiners of the highest vectors span all equivariant arrays. -/
theorem finrank_of_ladder (h : Labels S₁ S₂ S₃) {vs : List (Matrix (Fin (pats S₁).length) (Fin (pats S₂).length) ℝ)}
    (hE : Eldest (rowsVal S₁ S₂ (topPat S₃)) vs)
    (V : Submodule ℂ (Fin (pats S₁).length → Fin (pats S₂).length → Fin (pats S₃).length → ℂ))
    (hV : ∀ C, C ∈ V ↔ LadderInt S₁ S₂ S₃ (cgMat C)) : Module.finrank ℂ V = vs.length := by
  have hex : ∀ α : Fin vs.length, ∃ T, LadderInt S₁ S₂ S₃ T ∧ T *ᵥ Pi.single (topIdx h.w₃) 1 = tvec (vs.get α) :=
    fun α => (kernel_int h _).1 ((hE.span _).2 (Submodule.subset_span (List.get_mem _ _)))
  choose T hT htop using hex
  let c : Fin vs.length → (Fin (pats S₁).length → Fin (pats S₂).length → Fin (pats S₃).length → ℂ) :=
    fun α i j k => T α (i, j) k
  have hct : ∀ α i j, c α i j (topIdx h.w₃) = ((vs.get α i j : ℝ) : ℂ) := by
    intro α i j
    have := congrFun (htop α) (i, j)
    rw [mulVec_top] at this
    exact this
  have hcV : ∀ α, c α ∈ V := by
    intro α
    rw [hV]
    have : cgMat (c α) = T α := by
      refine Eq.trans ?_ ((hT α).real h (htop α))
      ext x k
      rfl
    rw [this]
    exact hT α
  have horth : ∀ α β : Fin vs.length, ∑ i, ∑ j, vs.get α i j * vs.get β i j = if α = β then 1 else 0 := by
    intro α β
    by_cases e : α = β
    · subst e
      rw [if_pos rfl, ← hE.unit _ (List.get_mem vs α)]
      simp only [pow_two]
    · rw [if_neg e]
      rcases lt_or_gt_of_ne e with hlt | hlt
      · exact List.pairwise_iff_get.1 hE.orth α β hlt
      · rw [← List.pairwise_iff_get.1 hE.orth β α hlt]
        simp only [mul_comm]
  have hli : LinearIndependent ℂ c := by
    rw [Fintype.linearIndependent_iff]
    intro a ha β
    have e : ∀ i j, ∑ α, a α * ((vs.get α i j : ℝ) : ℂ) = 0 := by
      intro i j
      have := congrFun (congrFun (congrFun ha i) j) (topIdx h.w₃)
      rw [Finset.sum_apply, Finset.sum_apply, Finset.sum_apply, Pi.zero_apply, Pi.zero_apply, Pi.zero_apply] at this
      simpa only [Pi.smul_apply, smul_eq_mul, hct] using this
    have e2 : ∑ i, ∑ j, (∑ α, a α * ((vs.get α i j : ℝ) : ℂ)) * ((vs.get β i j : ℝ) : ℂ) = a β := by
      have : ∀ α, ∑ i, ∑ j, a α * ((vs.get α i j : ℝ) : ℂ) * ((vs.get β i j : ℝ) : ℂ) = a α * if α = β then 1 else 0 := by
        intro α
        have h1 := congrArg (fun x : ℝ => (x : ℂ)) (horth α β)
        simp only [Complex.ofReal_sum, Complex.ofReal_mul] at h1
        simp only [mul_assoc, ← mul_sum]
        rw [h1]
        split_ifs <;> simp
      simp only [sum_mul]
      rw [sum_congr rfl fun i _ => sum_comm, sum_comm, sum_congr rfl fun α _ => this α]
      simp
    rw [← e2]
    simp only [e, zero_mul, sum_const_zero]
  have hspan : V = Submodule.span ℂ (Set.range c) := by
    apply le_antisymm
    · intro C hC
      have hW := (hV C).1 hC
      -- a combination with a given real top column
      have comb : ∀ u : Matrix (Fin (pats S₁).length) (Fin (pats S₂).length) ℝ, u ∈ Submodule.span ℝ {y | y ∈ vs} →
          ∃ D ∈ Submodule.span ℂ (Set.range c), ∀ i j, D i j (topIdx h.w₃) = ((u i j : ℝ) : ℂ) := by
        intro u hu
        induction hu using Submodule.span_induction with
        | mem y hy =>
          obtain ⟨α, rfl⟩ := List.mem_iff_get.1 hy
          exact ⟨c α, Submodule.subset_span ⟨α, rfl⟩, hct α⟩
        | zero => exact ⟨0, Submodule.zero_mem _, fun i j => by simp⟩
        | add x y _ _ hx hy =>
          obtain ⟨D, hD, e⟩ := hx
          obtain ⟨D', hD', e'⟩ := hy
          refine ⟨D + D', Submodule.add_mem _ hD hD', fun i j => ?_⟩
          rw [Pi.add_apply, Pi.add_apply, Pi.add_apply, e, e', Matrix.add_apply]
          push_cast
          rfl
        | smul a x _ hx =>
          obtain ⟨D, hD, e⟩ := hx
          refine ⟨(a : ℂ) • D, Submodule.smul_mem _ _ hD, fun i j => ?_⟩
          rw [Pi.smul_apply, Pi.smul_apply, Pi.smul_apply, e, Matrix.smul_apply]
          simp
      have real : ∀ T', LadderInt S₁ S₂ S₃ T' → ∀ u : Matrix (Fin (pats S₁).length) (Fin (pats S₂).length) ℝ,
          (∀ x, T' x (topIdx h.w₃) = ((u x.1 x.2 : ℝ) : ℂ)) → u ∈ Submodule.span ℝ {y | y ∈ vs} := by
        intro T' hT' u hu
        refine (hE.span u).1 ((kernel_int h u).2 ⟨T', hT', ?_⟩)
        rw [mulVec_top]
        funext x
        exact hu x
      obtain ⟨D, hD, eD⟩ := comb (Matrix.of fun i j => (C i j (topIdx h.w₃)).re)
        (real _ ((hW.add hW.conj).smul (1 / 2)) _ fun x => by
          rw [Matrix.smul_apply, Matrix.add_apply, Matrix.map_apply, cgMat, Matrix.of_apply, star_star]
          apply Complex.ext <;> simp
          ring)
      obtain ⟨D', hD', eD'⟩ := comb (Matrix.of fun i j => (C i j (topIdx h.w₃)).im)
        (real _ ((hW.add (hW.conj.smul (-1))).smul (Complex.I / 2)) _ fun x => by
          rw [Matrix.smul_apply, Matrix.add_apply, Matrix.smul_apply, Matrix.map_apply, cgMat, Matrix.of_apply, star_star]
          apply Complex.ext <;> simp <;> ring)
      have hDV : D + Complex.I • D' ∈ V := by
        have hle : Submodule.span ℂ (Set.range c) ≤ V := by
          rw [Submodule.span_le]
          rintro _ ⟨α, rfl⟩
          exact hcV α
        exact V.add_mem (hle hD) (V.smul_mem _ (hle hD'))
      have h0 : cgMat (C - (D + Complex.I • D')) = 0 := by
        refine LadderInt.zero_of_top h ((hV _).1 (V.sub_mem hC hDV)) fun x => ?_
        simp only [cgMat, Matrix.of_apply, Pi.sub_apply, Pi.add_apply, Pi.smul_apply, smul_eq_mul, eD, eD']
        rw [star_eq_zero]
        apply Complex.ext <;> simp
      have : C = D + Complex.I • D' := by
        funext i j k
        have := congrFun₂ h0 (i, j) k
        rw [cgMat, Matrix.of_apply, Matrix.zero_apply, star_eq_zero] at this
        exact sub_eq_zero.1 this
      rw [this]
      exact Submodule.add_mem _ hD (Submodule.smul_mem _ _ hD')
    · rw [Submodule.span_le]
      rintro _ ⟨α, rfl⟩
      exact hcV α
  rw [hspan, finrank_span_eq_card hli, Fintype.card_fin]

end

end LieNN.SUN
