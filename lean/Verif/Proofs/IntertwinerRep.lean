import Mathlib.Analysis.Matrix.Spectrum
import Verif.Proofs.Intertwiner
import Verif.Proofs.RepOps
import Verif.Spec.CG
/-!
# `infer_change_of_basis` and `clebsch_gordan` on representations; the gap hypothesis
-/
namespace LieNN

open Matrix Spec

variable {n h d d₁ d₂ d₃ : ℕ} {eigh : EighFn} {eps : ℝ}

theorem icobBlock_conjTranspose (x₁ : Matrix (Fin d₁) (Fin d₁) ℂ) (x₂ : Matrix (Fin d₂) (Fin d₂) ℂ) :
    (icobBlock x₁ x₂)ᴴ = icobBlock x₁ᴴ x₂ᴴ := by
  unfold icobBlock
  rw [conjTranspose_sub, kron_conjTranspose, kron_conjTranspose, conjTranspose_one, conjTranspose_one]
  rfl

/-- The normal equations of `infer_change_of_basis`. -/
theorem icobMatrix_normal (X₁ : Fin n → Matrix (Fin d₁) (Fin d₁) ℂ)
    (X₂ : Fin n → Matrix (Fin d₂) (Fin d₂) ℂ) (v : Vec (d₁ * d₂)) (i : Fin d₁) (j : Fin d₂) :
    (((icobMatrix X₁ X₂)ᴴ * icobMatrix X₁ X₂) *ᵥ v.ofLp) (finProdFinEquiv (i, j)) =
      ∑ a, ((X₁ a)ᴴ * (X₁ a * unvec v - unvec v * X₂ a) -
        (X₁ a * unvec v - unvec v * X₂ a) * (X₂ a)ᴴ) i j := by
  have hsum : (icobMatrix X₁ X₂)ᴴ * icobMatrix X₁ X₂ =
      ∑ a, (icobBlock (X₁ a) (X₂ a))ᴴ * icobBlock (X₁ a) (X₂ a) := by
    ext p q
    rw [Matrix.sum_apply, Matrix.mul_apply, ← finProdFinEquiv.sum_comp, Fintype.sum_prod_type]
    refine Finset.sum_congr rfl fun a _ => ?_
    rw [Matrix.mul_apply]
    refine Finset.sum_congr rfl fun r _ => ?_
    have h := finProdFinEquiv.symm_apply_apply (a, r)
    have h1 : (finProdFinEquiv (a, r)).divNat = a := congrArg Prod.fst h
    have h2 : (finProdFinEquiv (a, r)).modNat = r := congrArg Prod.snd h
    simp only [conjTranspose_apply, icobMatrix, h1, h2]
  rw [hsum, Matrix.sum_mulVec, Finset.sum_apply]
  refine Finset.sum_congr rfl fun a _ => ?_
  rw [← mulVec_mulVec, icobBlock_conjTranspose]
  have h1 := icobBlock_mulVec (X₁ a)ᴴ (X₂ a)ᴴ
    (WithLp.toLp 2 (icobBlock (X₁ a) (X₂ a) *ᵥ v.ofLp)) i j
  have h2 : unvec (WithLp.toLp 2 (icobBlock (X₁ a) (X₂ a) *ᵥ v.ofLp)) =
      X₁ a * unvec v - unvec v * X₂ a := by
    ext k l
    exact icobBlock_mulVec _ _ _ _ _
  rw [h2] at h1
  exact h1

/-- The gap hypothesis in terms of matrices. -/
theorem gap_icob {X₁ : Fin n → Matrix (Fin d₁) (Fin d₁) ℂ} {X₂ : Fin n → Matrix (Fin d₂) (Fin d₂) ℂ}
    (hS : ∀ (μ : ℝ) (S : Matrix (Fin d₁) (Fin d₂) ℂ), S ≠ 0 →
      ∑ a, ((X₁ a)ᴴ * (X₁ a * S - S * X₂ a) - (X₁ a * S - S * X₂ a) * (X₂ a)ᴴ) = (μ : ℂ) • S →
      0 < μ → eps ≤ μ) : Gap eps (icobMatrix X₁ X₂) := by
  intro μ x hx hev hμ
  refine hS μ (unvec (WithLp.toLp 2 x)) ?_ ?_ hμ
  · intro h0
    apply hx
    have : unvecL d₁ d₂ (WithLp.toLp 2 x) = 0 := h0
    have := (unvecL d₁ d₂).map_eq_zero_iff.1 this
    exact congrArg WithLp.ofLp this
  · ext i j
    rw [Matrix.sum_apply]
    have h1 := icobMatrix_normal X₁ X₂ (WithLp.toLp 2 x) i j
    simp only at h1
    rw [← h1, hev]
    rfl

/-- Every matrix has a gap for a small enough tolerance. -/
theorem exists_gap {m n : ℕ} (A : Matrix (Fin m) (Fin n) ℂ) :
    ∃ e > 0, ∀ eps ≤ e, Gap eps A := by
  have hH := isHermitian_conjTranspose_mul_self A
  have hfin : ({μ : ℝ | 0 < μ ∧ Module.End.HasEigenvalue (Matrix.toLin' (Aᴴ * A)) (μ : ℂ)}).Finite := by
    have h1 : ({c : ℂ | Module.End.HasEigenvalue (Matrix.toLin' (Aᴴ * A)) c}).Finite :=
      Module.End.finite_hasEigenvalue _
    have h2 := h1.preimage (f := fun μ : ℝ => (μ : ℂ)) (fun a _ b _ hab => Complex.ofReal_injective hab)
    exact h2.subset fun μ hμ => hμ.2
  have hmem : ∀ (μ : ℝ) (x : Fin n → ℂ), x ≠ 0 → (Aᴴ * A) *ᵥ x = (μ : ℂ) • x → 0 < μ →
      μ ∈ {μ : ℝ | 0 < μ ∧ Module.End.HasEigenvalue (Matrix.toLin' (Aᴴ * A)) (μ : ℂ)} := by
    intro μ x hx hev hμ
    refine ⟨hμ, Module.End.hasEigenvalue_of_hasEigenvector (x := x) ⟨?_, hx⟩⟩
    rw [Module.End.mem_eigenspace_iff, toLin'_apply]
    exact hev
  rcases Set.eq_empty_or_nonempty
    {μ : ℝ | 0 < μ ∧ Module.End.HasEigenvalue (Matrix.toLin' (Aᴴ * A)) (μ : ℂ)} with h0 | h0
  · refine ⟨1, one_pos, ?_⟩
    intro eps _ μ x hx hev hμ
    have := hmem μ x hx hev hμ
    rw [h0] at this
    exact absurd this (Set.notMem_empty _)
  · obtain ⟨e, he, hmin⟩ := hfin.exists_minimal h0
    refine ⟨e, he.1, ?_⟩
    intro eps heps μ x hx hev hμ
    have hm := hmem μ x hx hev hμ
    rcases le_total e μ with h | h
    · exact heps.trans h
    · exact heps.trans (hmin hm h)

/-- An exact eigendecomposition. -/
noncomputable def exactEigh : EighFn := fun _ M =>
  open Classical in
  if h : M.IsHermitian then (h.eigenvalues, fun k => h.eigenvectorBasis k)
  else (0, 0)

theorem exactEigh_spec : EighSpec exactEigh := by
  intro n M hM
  unfold exactEigh
  rw [dif_pos hM]
  refine ⟨hM.eigenvectorBasis.orthonormal, fun k => ?_⟩
  have := hM.mulVec_eigenvectorBasis k
  simpa using this

/-! ### Representations -/

theorem pyAssert_of {p : Prop} {_ : Decidable p} (hp : p) : pyAssert p = .ok () := by
  simp only [pyAssert, if_pos hp]

theorem isClose_refl {a r : ℝ} (ha : 0 ≤ a) (hr : 0 ≤ r) (z : ℂ) : IsClose a r z z := by
  unfold IsClose
  rw [sub_self, norm_zero]
  positivity

theorem allGens_iff {r₁ : Rep n h d₁} {r₂ : Rep n h d₂} (Q : Matrix (Fin d₁) (Fin d₂) ℂ) :
    (∀ a, r₁.allGens a * Q = Q * r₂.allGens a) ↔
      (∀ a, r₁.X a * Q = Q * r₂.X a) ∧ ∀ a, r₁.H a * Q = Q * r₂.H a := by
  constructor
  · intro hq
    refine ⟨fun a => ?_, fun a => ?_⟩
    · have := hq (Fin.castAdd h a)
      simpa [Rep.allGens] using this
    · have := hq (Fin.natAdd n a)
      simpa [Rep.allGens] using this
  · rintro ⟨h1, h2⟩ a
    refine Fin.addCases (fun a => ?_) (fun a => ?_) a
    · simpa [Rep.allGens] using h1 a
    · simpa [Rep.allGens] using h2 a

theorem rep_infer_spec (he : EighSpec eigh) (hn : n + h ≠ 0) (r₁ : Rep n h d₁) (r₂ : Rep n h d₂)
    (hA : AllCloseA r₁.A r₂.A) (hd : d₂ * d₁ < 10 ^ 8)
    (hgap : Gap (1 / 10 ^ 4) (icobMatrix r₂.allGens r₁.allGens)) :
    ∃ S, Rep.inferChangeOfBasis eigh r₁ r₂ = .ok S ∧
      mspan S = intertwiners r₂.allGens r₁.allGens ∧
      S.length = Module.finrank ℂ (intertwiners r₂.allGens r₁.allGens) ∧
      ∀ i j : Fin S.length, ((S.get i)ᴴ * S.get j).trace = if i = j then (d₂ : ℂ) else 0 := by
  have hd' : ((d₂ * d₁ : ℕ) : ℝ) * (1 / 10 ^ 4) ^ 2 < 1 := by
    have : ((d₂ * d₁ : ℕ) : ℝ) < 10 ^ 8 := by exact_mod_cast hd
    norm_num at this ⊢
    linarith
  obtain ⟨S, hS, hspan, hlen, horth⟩ := inferChangeOfBasis_spec he (eps := 1 / 10 ^ 4) (by positivity)
    hn r₂.allGens r₁.allGens hd' hgap
  have hmem : ∀ Q ∈ S, Q ∈ intertwiners r₂.allGens r₁.allGens := by
    intro Q hQ
    rw [← hspan]
    exact Submodule.subset_span hQ
  have hchk : ∀ Q ∈ S, ∀ a i k, IsClose (1 / 10 ^ 8) (1 / 10 ^ 8)
      ((r₂.allGens a * Q) i k) ((Q * r₁.allGens a) i k) := by
    intro Q hQ a i k
    rw [hmem Q hQ a]
    exact isClose_refl (by positivity) (by positivity) _
  have hok : Rep.inferChangeOfBasis eigh r₁ r₂ =
      .ok (S.map fun Q => ((Real.sqrt d₂ : ℝ) : ℂ) • Q) := by
    unfold Rep.inferChangeOfBasis
    rw [pyAssert_of hA, hS]
    simp only [bind, Except.bind]
    rw [pyAssert_of hchk]
    rfl
  refine ⟨_, hok, ?_, ?_, ?_⟩
  · rw [← hspan]
    rcases Nat.eq_zero_or_pos d₂ with h0 | h0
    · subst h0
      exact Subsingleton.elim (α := Submodule ℂ (Matrix (Fin 0) (Fin d₁) ℂ)) _ _
    · have hne : ((Real.sqrt d₂ : ℝ) : ℂ) ≠ 0 := by
        have : 0 < Real.sqrt d₂ := Real.sqrt_pos.2 (by exact_mod_cast h0)
        exact_mod_cast this.ne'
      apply le_antisymm
      · refine Submodule.span_le.2 ?_
        intro Q hQ
        obtain ⟨P, hP, rfl⟩ := List.mem_map.1 hQ
        exact Submodule.smul_mem _ _ (Submodule.subset_span hP)
      · refine Submodule.span_le.2 ?_
        intro Q hQ
        have : ((Real.sqrt d₂ : ℝ) : ℂ) • Q ∈
            mspan (S.map fun Q => ((Real.sqrt d₂ : ℝ) : ℂ) • Q) :=
          Submodule.subset_span (List.mem_map.2 ⟨Q, hQ, rfl⟩)
        exact (Submodule.smul_mem_iff _ hne).1 this
  · rw [List.length_map, hlen]
  · intro i j
    have := horth (i.cast (by simp)) (j.cast (by simp))
    simp only [List.get_eq_getElem, List.getElem_map, conjTranspose_smul, Matrix.smul_mul,
      Matrix.mul_smul, Matrix.trace_smul, Fin.val_cast] at this ⊢
    rw [this]
    have hsq : ((Real.sqrt d₂ : ℝ) : ℂ) * ((Real.sqrt d₂ : ℝ) : ℂ) = d₂ := by
      rw [← Complex.ofReal_mul, Real.mul_self_sqrt (Nat.cast_nonneg _)]
      simp
    by_cases hij : i = j
    · subst hij
      simp [hsq]
    · have : (Fin.cast (by simp) i : Fin S.length) ≠ Fin.cast (by simp) j := by
        intro hc; exact hij (Fin.ext (by simpa [Fin.ext_iff] using hc))
      simp [hij, this]

/-- The tensor of a matrix `Q : (d₃, d₁ d₂)`. -/
def cgOf (Q : Matrix (Fin d₃) (Fin (d₁ * d₂)) ℂ) : Fin d₁ → Fin d₂ → Fin d₃ → ℂ :=
  fun i j k => Q k (finProdFinEquiv (i, j))

theorem isCG_iff (r₁ : Rep n h d₁) (r₂ : Rep n h d₂) (r₃ : Rep n h d₃)
    (Q : Matrix (Fin d₃) (Fin (d₁ * d₂)) ℂ) :
    IsCG r₁ r₂ r₃ (cgOf Q) ↔ Q ∈ intertwiners r₃.allGens (r₁.tensorProduct r₂).allGens := by
  show _ ↔ ∀ a, _
  rw [allGens_iff]
  have key : ∀ (M₃ : Matrix (Fin d₃) (Fin d₃) ℂ) (M : Matrix (Fin (d₁ * d₂)) (Fin (d₁ * d₂)) ℂ),
      M₃ * Q = Q * M ↔ ∀ i j l, ∑ k, M₃ l k * cgOf Q i j k =
        ∑ i', ∑ j', cgOf Q i' j' l * M (finProdFinEquiv (i', j')) (finProdFinEquiv (i, j)) := by
    intro M₃ M
    rw [← Matrix.ext_iff]
    constructor
    · intro hq i j l
      have := hq l (finProdFinEquiv (i, j))
      rw [Matrix.mul_apply, Matrix.mul_apply, ← finProdFinEquiv.sum_comp (fun p => Q l p * _),
        Fintype.sum_prod_type] at this
      exact this
    · intro hq l p
      obtain ⟨⟨i, j⟩, rfl⟩ := finProdFinEquiv.surjective p
      rw [Matrix.mul_apply, Matrix.mul_apply, ← finProdFinEquiv.sum_comp (fun p => Q l p * _),
        Fintype.sum_prod_type]
      exact hq i j l
  refine and_congr (forall_congr' fun a => ?_) (forall_congr' fun a => ?_)
  · rw [key]
    refine forall_congr' fun i => forall_congr' fun j => forall_congr' fun l => ?_
    have e1 : ∑ k, r₃.X a l k * cgOf Q i j k = ∑ k, cgOf Q i j k * r₃.X a l k :=
      Finset.sum_congr rfl fun k _ => mul_comm _ _
    have e2 : ∑ i', ∑ j', cgOf Q i' j' l * (r₁.tensorProduct r₂).X a (finProdFinEquiv (i', j'))
        (finProdFinEquiv (i, j)) =
        ∑ i', r₁.X a i' i * cgOf Q i' j l + ∑ j', r₂.X a j' j * cgOf Q i j' l := by
      simp only [Rep.tensorProduct, Matrix.add_apply, kron_apply, mul_add, Finset.sum_add_distrib]
      congr 1
      · refine Finset.sum_congr rfl fun i' _ => ?_
        simp [Matrix.one_apply, mul_comm]
      · rw [Finset.sum_comm]
        refine Finset.sum_congr rfl fun j' _ => ?_
        simp [Matrix.one_apply, mul_comm]
    rw [e1, e2]
  · rw [key]
    refine forall_congr' fun i => forall_congr' fun j => forall_congr' fun l => ?_
    have e2 : ∑ i', ∑ j', cgOf Q i' j' l * (r₁.tensorProduct r₂).H a (finProdFinEquiv (i', j'))
        (finProdFinEquiv (i, j)) =
        ∑ i', ∑ j', r₁.H a i' i * r₂.H a j' j * cgOf Q i' j' l := by
      refine Finset.sum_congr rfl fun i' _ => Finset.sum_congr rfl fun j' _ => ?_
      simp only [Rep.tensorProduct, kron_apply]
      ring
    have e1 : ∑ k, r₃.H a l k * cgOf Q i j k = ∑ k, cgOf Q i j k * r₃.H a l k :=
      Finset.sum_congr rfl fun k _ => mul_comm _ _
    rw [e1, e2]

/-- `cgOf` as a linear equivalence. -/
def cgL (d₁ d₂ d₃ : ℕ) :
    Matrix (Fin d₃) (Fin (d₁ * d₂)) ℂ ≃ₗ[ℂ] (Fin d₁ → Fin d₂ → Fin d₃ → ℂ) where
  toFun := cgOf
  map_add' _ _ := rfl
  map_smul' _ _ := rfl
  invFun C := fun k p => C p.divNat p.modNat k
  left_inv Q := by
    funext k p
    show Q k (finProdFinEquiv (finProdFinEquiv.symm p)) = Q k p
    rw [Equiv.apply_symm_apply]
  right_inv C := by
    funext i j k
    have h := finProdFinEquiv.symm_apply_apply (i, j)
    have h1 : (finProdFinEquiv (i, j)).divNat = i := congrArg Prod.fst h
    have h2 : (finProdFinEquiv (i, j)).modNat = j := congrArg Prod.snd h
    simp [cgOf, h1, h2]

theorem mspan_map_cg (l : List (Matrix (Fin d₃) (Fin (d₁ * d₂)) ℂ)) :
    mspan (l.map cgOf) = (mspan l).map (cgL d₁ d₂ d₃).toLinearMap := by
  unfold mspan
  rw [Submodule.map_span]
  congr 1
  ext x
  simp only [List.mem_map, Set.mem_ofPred_eq, Set.mem_image]
  rfl

theorem clebschGordan_spec (he : EighSpec eigh) (hn : n + h ≠ 0) (r₁ : Rep n h d₁)
    (r₂ : Rep n h d₂) (r₃ : Rep n h d₃) (h₁₂ : AllCloseA r₁.A r₂.A) (h₁₃ : AllCloseA r₁.A r₃.A)
    (hd : d₃ * (d₁ * d₂) < 10 ^ 8)
    (hgap : Gap (1 / 10 ^ 4) (icobMatrix r₃.allGens (r₁.tensorProduct r₂).allGens)) :
    ∃ S, Rep.clebschGordan eigh r₁ r₂ r₃ = .ok S ∧
      (∀ C, C ∈ mspan S ↔ IsCG r₁ r₂ r₃ C) ∧ S.length = Module.finrank ℂ (mspan S) := by
  obtain ⟨S, hS, hspan, hlen, _⟩ := rep_infer_spec he hn (r₁.tensorProduct r₂) r₃ h₁₃ hd hgap
  have hok : Rep.clebschGordan eigh r₁ r₂ r₃ = .ok (S.map cgOf) := by
    unfold Rep.clebschGordan
    rw [pyAssert_of h₁₂, hS]
    rfl
  refine ⟨_, hok, ?_, ?_⟩
  · intro C
    rw [mspan_map_cg, hspan, Submodule.mem_map]
    constructor
    · rintro ⟨Q, hQ, rfl⟩
      exact (isCG_iff r₁ r₂ r₃ Q).2 hQ
    · intro hC
      refine ⟨(cgL d₁ d₂ d₃).symm C, ?_, (cgL d₁ d₂ d₃).apply_symm_apply C⟩
      rw [← isCG_iff]
      have e : cgOf ((cgL d₁ d₂ d₃).symm C) = C := (cgL d₁ d₂ d₃).apply_symm_apply C
      rw [e]
      exact hC
  · rw [List.length_map, hlen, mspan_map_cg, hspan, LinearEquiv.finrank_map_eq]

end LieNN
