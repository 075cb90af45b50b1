import Verif.Proofs.SUNGapRep
import Verif.Props.SUNLR
import Verif.Props.LinAlg

/-!
# C79: the generic `clebsch_gordan` is right for all labels of `SU(N)`
-/
namespace LieNN.Props

open LieNN.Spec LieNN.SUN LieNN.SUNGap Matrix

section
variable {n d₁ d₂ d₃ d₄ : ℕ} {S₁ S₂ S₃ S₄ : List ℤ} {r₁ : Rep (n ^ 2 - 1) 0 d₁} {r₂ : Rep (n ^ 2 - 1) 0 d₂}
  {r₃ : Rep (n ^ 2 - 1) 0 d₃} {r₄ : Rep (n ^ 2 - 1) 0 d₄} {eigh : EighFn}

/-- The generators of an accepted label as the images of the basis. -/
theorem gl_of_label {S : List ℤ} {d : ℕ} {r : Rep (n ^ 2 - 1) 0 d} (hn : 2 ≤ n) (hm : SUN.make S = .ok S)
    (hl : S.length = n) (hd : dim S = .ok (d : ℤ)) (hg : ∃ L, generators _ S = .ok L ∧ r.X = genFn (n ^ 2 - 1) L) :
    ∃ f : Matrix (Fin n) (Fin n) ℂ →ₗ[ℂ] Matrix (Fin d) (Fin d) ℂ, GLRep f ∧
      ∀ a, r.X a = f ((suBasis n).getD a 0) := by
  obtain ⟨hS, h0, -⟩ := make_weight hm
  obtain rfl := dim_pats hS hd
  subst hl
  obtain ⟨L, hL, hX⟩ := hg
  rw [generators_eq hS h0 hn] at hL
  cases hL
  exact ⟨Phi S, phi_gl hS, fun a => by rw [hX, genFn_map]⟩

theorem SUNTriple.gap (h : SUNTriple n S₁ S₂ S₃ r₁ r₂ r₃) {eps : ℝ} (heps : eps ≤ 1) :
    Gap eps (icobMatrix r₃.allGens (r₁.tensorProduct r₂).allGens) := by
  obtain ⟨f₁, hf₁, e₁⟩ := gl_of_label h.two h.m₁ h.l₁ h.d₁ h.g₁
  obtain ⟨f₂, hf₂, e₂⟩ := gl_of_label h.two h.m₂ h.l₂ h.d₂ h.g₂
  obtain ⟨f₃, hf₃, e₃⟩ := gl_of_label h.two h.m₃ h.l₃ h.d₃ h.g₃
  refine gap_gl hf₃ (tens_gl hf₁ hf₂) e₃ (fun a => ?_) heps
  change kron (r₁.X a) 1 + kron 1 (r₂.X a) = _
  rw [e₁, e₂]
  rfl

/-- C79: for all accepted labels the generic `clebsch_gordan` does not raise and returns exactly as many
arrays as `mul_rep` yields the third label; all of them are equivariant, they are independent, and every
equivariant array is a combination of them. -/
theorem C79_generic (he : EighSpec eigh) (h : SUNTriple n S₁ S₂ S₃ r₁ r₂ r₃) (h₁₂ : r₁.A = r₂.A) (h₁₃ : r₁.A = r₃.A)
    (hd : d₃ * (d₁ * d₂) < 10 ^ 8) :
    ∃ G L, Rep.clebschGordan eigh r₁ r₂ r₃ = .ok G ∧ mulRep S₁ S₂ = .ok L ∧ G.length = L.count S₃ ∧
      (∀ C ∈ G, IsCG r₁ r₂ r₃ C) ∧ (∀ C, IsCG r₁ r₂ r₃ C → C ∈ Submodule.span ℂ {D | D ∈ G}) ∧
      LinearIndependent ℂ G.get := by
  have close : ∀ A : Fin (n ^ 2 - 1) → Fin (n ^ 2 - 1) → Fin (n ^ 2 - 1) → ℂ, AllCloseA A A := fun A i j k => by
    change ‖A i j k - A i j k‖ ≤ _
    rw [sub_self, norm_zero]; positivity
  have hn : n ^ 2 - 1 + 0 ≠ 0 := by
    have := h.two
    have : 2 ^ 2 ≤ n ^ 2 := Nat.pow_le_pow_left this 2
    omega
  obtain ⟨G, hG, hG1, hG2, hG3⟩ := C31_clebsch_gordan he hn r₁ r₂ r₃ (h₁₂ ▸ close _) (h₁₃ ▸ close _) hd
    (h.gap (by norm_num))
  obtain ⟨L, hL, hc⟩ := C77_multiplicity h
  have hsp : mspan G = cgSpace r₁ r₂ r₃ := by
    apply le_antisymm
    · exact Submodule.span_le.2 fun C hC => hG1 C hC
    · exact fun C hC => hG2 C hC
  refine ⟨G, L, hG, hL, by rw [hG3, hsp, hc], hG1, hG2, ?_⟩
  rw [linearIndependent_iff_card_eq_finrank_span, Fintype.card_fin]
  refine hG3.trans ?_
  have : {D | D ∈ G} = Set.range G.get := by
    ext D
    exact List.mem_iff_get
  unfold mspan Set.finrank
  rw [this]

/-- The product of an equivariant array with the adjoint of another one intertwines. -/
theorem cg_gram_intertwines {C : Fin d₁ → Fin d₂ → Fin d₃ → ℂ} {D : Fin d₁ → Fin d₂ → Fin d₄ → ℂ}
    (s₁ : ∀ a, (r₁.X a)ᴴ = -r₁.X a) (s₂ : ∀ a, (r₂.X a)ᴴ = -r₂.X a) (s₄ : ∀ a, (r₄.X a)ᴴ = -r₄.X a)
    (hC : IsCG r₁ r₂ r₃ C) (hD : IsCG r₁ r₂ r₄ D) :
    ∀ a, r₃.X a * Matrix.of (fun k l => ∑ i, ∑ j, C i j k * star (D i j l)) =
      Matrix.of (fun k l => ∑ i, ∑ j, C i j k * star (D i j l)) * r₄.X a := by
  intro a
  have eC : cgOf ((cgL d₁ d₂ d₃).symm C) = C := (cgL d₁ d₂ d₃).apply_symm_apply C
  have eD : cgOf ((cgL d₁ d₂ d₄).symm D) = D := (cgL d₁ d₂ d₄).apply_symm_apply D
  set P := (cgL d₁ d₂ d₃).symm C with hP
  set Q := (cgL d₁ d₂ d₄).symm D with hQ
  rw [← eC, isCG_iff] at hC
  rw [← eD, isCG_iff] at hD
  obtain ⟨hC, -⟩ := (allGens_iff _).1 hC
  obtain ⟨hD, -⟩ := (allGens_iff _).1 hD
  have eM : Matrix.of (fun k l => ∑ i, ∑ j, C i j k * star (D i j l)) = P * Qᴴ := by
    ext k l
    rw [Matrix.of_apply, Matrix.mul_apply, ← finProdFinEquiv.sum_comp, Fintype.sum_prod_type, ← eC, ← eD]
    rfl
  have sR : ((r₁.tensorProduct r₂).X a)ᴴ = -(r₁.tensorProduct r₂).X a :=
    (unitary_tensorProduct ⟨fun b => b.elim0, s₁⟩ ⟨fun b => b.elim0, s₂⟩).2 a
  rw [eM, ← Matrix.mul_assoc, hC a, Matrix.mul_assoc, Matrix.mul_assoc]
  congr 1
  have e := congrArg conjTranspose (hD a)
  rw [conjTranspose_mul, conjTranspose_mul, sR, s₄, Matrix.mul_neg, Matrix.neg_mul, neg_inj] at e
  exact e.symm

theorem skew_of_label {S : List ℤ} {d : ℕ} {r : Rep (n ^ 2 - 1) 0 d} (hn : 2 ≤ n) (hm : SUN.make S = .ok S)
    (hl : S.length = n) (hd : dim S = .ok (d : ℤ)) (hg : ∃ L, generators _ S = .ok L ∧ r.X = genFn (n ^ 2 - 1) L)
    (a : Fin (n ^ 2 - 1)) : (r.X a)ᴴ = -r.X a := by
  obtain ⟨f, hf, e⟩ := gl_of_label hn hm hl hd hg
  rw [e, ← hf.conj, suBasis_skew (getD_mem (by rw [length_suBasis']; exact a.2)), map_neg]

/-- C79: the returned arrays are orthonormal: stacked over the solutions they form an isometry. -/
theorem C79_orthonormal (he : EighSpec eigh) (h : SUNTriple n S₁ S₂ S₃ r₁ r₂ r₃) (h₁₂ : r₁.A = r₂.A)
    (h₁₃ : r₁.A = r₃.A) (hd : d₃ * (d₁ * d₂) < 10 ^ 8) {G : List (Fin d₁ → Fin d₂ → Fin d₃ → ℂ)}
    (hG : Rep.clebschGordan eigh r₁ r₂ r₃ = .ok G) (a b : Fin G.length) (k l : Fin d₃) :
    ∑ i, ∑ j, G.get a i j k * star (G.get b i j l) = if a = b ∧ k = l then 1 else 0 := by
  have close : ∀ A : Fin (n ^ 2 - 1) → Fin (n ^ 2 - 1) → Fin (n ^ 2 - 1) → ℂ, AllCloseA A A := fun A i j k => by
    change ‖A i j k - A i j k‖ ≤ _
    rw [sub_self, norm_zero]; positivity
  have hn : n ^ 2 - 1 + 0 ≠ 0 := by
    have := h.two
    have : 2 ^ 2 ≤ n ^ 2 := Nat.pow_le_pow_left this 2
    omega
  obtain ⟨G', L, hG', -, -, hcg, -⟩ := C79_generic he h h₁₂ h₁₃ hd
  obtain rfl : G = G' := by rw [hG] at hG'; exact Except.ok.inj hG'
  have hcom := cg_gram_intertwines (skew_of_label h.two h.m₁ h.l₁ h.d₁ h.g₁) (skew_of_label h.two h.m₂ h.l₂ h.d₂ h.g₂)
    (skew_of_label h.two h.m₃ h.l₃ h.d₃ h.g₃) (hcg _ (List.get_mem G a)) (hcg _ (List.get_mem G b))
  set M : Matrix (Fin d₃) (Fin d₃) ℂ := Matrix.of (fun k l => ∑ i, ∑ j, G.get a i j k * star (G.get b i j l)) with hM
  obtain ⟨L₃, hL₃, e₃⟩ := h.g₃
  have h2 : 2 ≤ S₃.length := by rw [h.l₃]; exact h.two
  obtain ⟨c, hc⟩ := C72_schur h.m₃ h2 h.d₃ hL₃ M (by
    intro x hx
    obtain ⟨i, hi, rfl⟩ := List.mem_iff_getElem.1 hx
    have hlen : L₃.length = n ^ 2 - 1 := by
      obtain ⟨hS, h0, -⟩ := make_weight h.m₃
      obtain rfl := dim_pats hS h.d₃
      rw [generators_eq hS h0 h2] at hL₃
      cases hL₃
      rw [List.length_map, length_suBasis', h.l₃]
    have := hcom ⟨i, by omega⟩
    rw [e₃] at this
    unfold genFn at this
    simp only [List.getD_eq_getElem _ _ hi] at this
    exact this.symm)
  -- the trace
  obtain ⟨Q, hQ, -, -, htr⟩ := rep_infer_spec he hn (r₁.tensorProduct r₂) r₃ (h₁₃ ▸ close _) hd (h.gap (by norm_num))
  have hok : Rep.clebschGordan eigh r₁ r₂ r₃ = .ok (Q.map cgOf) := by
    unfold Rep.clebschGordan
    rw [pyAssert_of (h₁₂ ▸ close _), hQ]
    rfl
  rw [hok] at hG
  obtain rfl := Except.ok.inj hG
  have hlen : (Q.map cgOf : List (Fin d₁ → Fin d₂ → Fin d₃ → ℂ)).length = Q.length := List.length_map ..
  have h1 := htr (b.cast hlen) (a.cast hlen)
  have eM : M.trace = ((Q.get (b.cast hlen))ᴴ * Q.get (a.cast hlen)).trace := by
    rw [Matrix.trace_mul_comm]
    unfold Matrix.trace
    refine Finset.sum_congr rfl fun k _ => ?_
    rw [Matrix.diag_apply, Matrix.diag_apply, hM, Matrix.of_apply, Matrix.mul_apply, ← finProdFinEquiv.sum_comp,
      Fintype.sum_prod_type]
    refine Finset.sum_congr rfl fun i _ => Finset.sum_congr rfl fun j _ => ?_
    rw [List.get_eq_getElem, List.get_eq_getElem, List.getElem_map, List.getElem_map]
    rfl
  have hd0 : (d₃ : ℂ) ≠ 0 := by
    have := k.pos
    exact_mod_cast this.ne'
  rw [← eM, hc, Matrix.trace_smul, Matrix.trace_one, Fintype.card_fin, smul_eq_mul] at h1
  have hMkl : ∑ i, ∑ j, (Q.map cgOf).get a i j k * star ((Q.map cgOf).get b i j l) = M k l := rfl
  rw [hMkl, hc, Matrix.smul_apply, Matrix.one_apply, smul_eq_mul]
  have hab : (b.cast hlen = a.cast hlen) ↔ a = b := by
    rw [Fin.ext_iff, Fin.ext_iff]
    exact eq_comm
  by_cases c1 : a = b
  · rw [if_pos (hab.2 c1)] at h1
    have : c = 1 := by
      have := mul_right_cancel₀ hd0 (h1.trans (one_mul _).symm)
      exact this
    rw [this]
    by_cases c2 : k = l <;> simp [c1, c2]
  · rw [if_neg fun h' => c1 (hab.1 h')] at h1
    have : c = 0 := (mul_eq_zero.1 h1).resolve_right hd0
    rw [this]
    simp [c1]

/-- C79: arrays of different labels are orthogonal. -/
theorem C79_orthogonal (h : SUNTriple n S₁ S₂ S₃ r₁ r₂ r₃) (h' : SUNTriple n S₁ S₂ S₄ r₁ r₂ r₄) (hne : S₃ ≠ S₄)
    {C : Fin d₁ → Fin d₂ → Fin d₃ → ℂ} {D : Fin d₁ → Fin d₂ → Fin d₄ → ℂ} (hC : IsCG r₁ r₂ r₃ C)
    (hD : IsCG r₁ r₂ r₄ D) (k : Fin d₃) (l : Fin d₄) : ∑ i, ∑ j, C i j k * star (D i j l) = 0 := by
  have hcom := cg_gram_intertwines (skew_of_label h.two h.m₁ h.l₁ h.d₁ h.g₁) (skew_of_label h.two h.m₂ h.l₂ h.d₂ h.g₂)
    (skew_of_label h'.two h'.m₃ h'.l₃ h'.d₃ h'.g₃) hC hD
  obtain ⟨L₃, hL₃, e₃⟩ := h.g₃
  obtain ⟨L₄, hL₄, e₄⟩ := h'.g₃
  have hl₃ := h.l₃
  subst hl₃
  have hbot := C72_inequivalent h.m₃ h'.m₃ h'.l₃ h.two hne h.d₃ h'.d₃ hL₃ hL₄
  have hmem : Matrix.of (fun k l => ∑ i, ∑ j, C i j k * star (D i j l)) ∈
      intertwiners (genFn (S₃.length ^ 2 - 1) L₃) (genFn (S₃.length ^ 2 - 1) L₄) := by
    intro a
    rw [← e₃, ← e₄]
    exact hcom a
  rw [hbot] at hmem
  have := congrFun (congrFun (show Matrix.of (fun k l => ∑ i, ∑ j, C i j k * star (D i j l)) = 0 from hmem) k) l
  exact this

/-- The hypotheses are met by the octets of `SU(3)`: eight by eight by eight entries.  The generic solver
finds two arrays, both equivariant; the tabulated one finds none that is (`C49_octets_wrong`). -/
example : ∃ G, Rep.clebschGordan exactEigh (labelRep 3 [2, 1, 0]) (labelRep 3 [2, 1, 0]) (labelRep 3 [2, 1, 0]) = .ok G ∧
    G.length = 2 ∧ ∀ C ∈ G, IsCG (labelRep 3 [2, 1, 0]) (labelRep 3 [2, 1, 0]) (labelRep 3 [2, 1, 0]) C := by
  have h := labelRep_triple (n := 3) (S₁ := [2, 1, 0]) (S₂ := [2, 1, 0]) (S₃ := [2, 1, 0]) (by decide)
    (by decide +kernel) (by decide +kernel) (by decide +kernel) rfl rfl rfl
  obtain ⟨G, L, hG, hL, hc, hcg, -⟩ := C79_generic exactEigh_spec h rfl rfl (by decide +kernel)
  refine ⟨G, hG, ?_, hcg⟩
  have e : (mulRep [2, 1, 0] [2, 1, 0]).map (List.count [2, 1, 0]) = .ok 2 := by decide +kernel
  rw [hL] at e
  rw [hc]
  exact Except.ok.inj e

end
end LieNN.Props
