import Verif.Proofs.SUNCGInt
import Verif.Spec.SUNCG
import Mathlib.LinearAlgebra.Dimension.Constructions
import Mathlib.LinearAlgebra.FiniteDimensional.Lemmas
/-!
# The result of `clebsch_gordan_matrix`
-/
namespace LieNN.SUN

open Spec Finset Matrix

/-! ## `clebsch_gordan_eldest` -/

/-- The reading of a row of the null space. -/
def unflip {d₁ d₂ : ℕ} (v : Fin (d₁ * d₂) → ℝ) : Matrix (Fin d₁) (Fin d₂) ℝ :=
  Matrix.of fun i j => v (finProdFinEquiv (i, j)).rev

theorem flipIdx_unflip {d₁ d₂ : ℕ} (p : Fin d₁ × Fin d₂) : flipIdx (finProdFinEquiv p).rev = p := by
  unfold flipIdx
  rw [Fin.rev_rev]
  exact finProdFinEquiv.symm_apply_apply p

theorem sum_flip {d₁ d₂ : ℕ} (f : Fin (d₁ * d₂) → ℝ) : ∑ k, f k = ∑ i, ∑ j, f (finProdFinEquiv (i, j)).rev := by
  rw [← Fintype.sum_prod_type' (f := fun i j => f (finProdFinEquiv (i, j)).rev),
    ← Equiv.sum_comp (finProdFinEquiv (m := d₁) (n := d₂)).symm (fun p => f (finProdFinEquiv (p.1, p.2)).rev)]
  simp only [Prod.mk.eta, Equiv.apply_symm_apply]
  exact (Equiv.sum_comp Fin.revPerm f).symm

theorem unflip_surj {d₁ d₂ : ℕ} (w : Matrix (Fin d₁) (Fin d₂) ℝ) : unflip (fun k => w (flipIdx k).1 (flipIdx k).2) = w := by
  ext i j
  simp only [unflip, Matrix.of_apply, flipIdx_unflip]

theorem nullMatrix_kernel {d₁ d₂ : ℕ} (rows : List (Matrix (Fin d₁) (Fin d₂) ℝ)) (x : Fin (d₁ * d₂) → ℝ) :
    nullMatrix rows *ᵥ x = 0 ↔ ∀ R ∈ rows, ∑ i, ∑ j, R i j * unflip x i j = 0 := by
  have e : ∀ r, (nullMatrix rows *ᵥ x) r = ∑ i, ∑ j, rows.get r i j * unflip x i j := by
    intro r
    rw [mulVec, dotProduct, sum_flip]
    refine sum_congr rfl fun i _ => sum_congr rfl fun j _ => ?_
    simp only [nullMatrix, unflip, Matrix.of_apply, flipIdx_unflip]
  constructor
  · intro h R hR
    obtain ⟨r, rfl⟩ := List.mem_iff_get.1 hR
    rw [← e, h]
    rfl
  · intro h
    funext r
    rw [e, h _ (List.get_mem _ _)]
    rfl

/-- What is known of the highest vectors. -/
structure Eldest (rows : List (Matrix (Fin d₁) (Fin d₂) ℝ)) (vs : List (Matrix (Fin d₁) (Fin d₂) ℝ)) : Prop where
  orth : vs.Pairwise fun x y => ∑ i, ∑ j, x i j * y i j = 0
  unit : ∀ x ∈ vs, ∑ i, ∑ j, x i j ^ 2 = 1
  span : ∀ w, (∀ R ∈ rows, ∑ i, ∑ j, R i j * w i j = 0) ↔ w ∈ Submodule.span ℝ {y | y ∈ vs}

theorem eldest_of_null {d₁ d₂ : ℕ} {rows : List (Matrix (Fin d₁) (Fin d₂) ℝ)} {L : List (Fin (d₁ * d₂) → ℝ)}
    (h : ExactNull (nullMatrix rows) L) : Eldest rows (L.map unflip) := by
  have hdot : ∀ x y : Fin (d₁ * d₂) → ℝ, ∑ i, ∑ j, unflip x i j * unflip y i j = x ⬝ᵥ y := by
    intro x y
    rw [dotProduct, sum_flip]
    rfl
  refine ⟨?_, ?_, fun w => ?_⟩
  · rw [List.pairwise_map]
    exact h.orth.imp fun {x y} e => (hdot x y).trans e
  · intro x hx
    obtain ⟨y, hy, rfl⟩ := List.mem_map.1 hx
    simp only [pow_two]
    exact (hdot y y).trans (h.unit y hy)
  · let U : (Fin (d₁ * d₂) → ℝ) →ₗ[ℝ] Matrix (Fin d₁) (Fin d₂) ℝ :=
      { toFun := unflip, map_add' := fun x y => rfl, map_smul' := fun c x => rfl }
    have hset : {y | y ∈ L.map unflip} = U '' {y | y ∈ L} := by
      ext y
      simp only [Set.mem_ofPred_eq, List.mem_map, Set.mem_image]
      rfl
    rw [hset, ← Submodule.map_span]
    constructor
    · intro hw
      refine ⟨fun k => w (flipIdx k).1 (flipIdx k).2, (h.span _).1 ((nullMatrix_kernel _ _).2 ?_), unflip_surj w⟩
      rw [unflip_surj]
      exact hw
    · rintro ⟨x, hx, rfl⟩
      exact (nullMatrix_kernel _ _).1 ((h.span x).2 hx)

/-! ## The intertwiners -/

section
variable {S₁ S₂ S₃ : List ℤ}

/-- The common assumptions. -/
structure Labels (S₁ S₂ S₃ : List ℤ) : Prop where
  w₁ : IsWeight S₁
  w₂ : IsWeight S₂
  w₃ : IsWeight S₃
  p₁ : ∀ s ∈ S₁, 0 ≤ s
  p₂ : ∀ s ∈ S₂, 0 ≤ s
  p₃ : ∀ s ∈ S₃, 0 ≤ s
  l₁ : S₁.length = S₃.length
  l₂ : S₂.length = S₃.length
  two : 2 ≤ S₃.length

/-- The raising operators on the tensor product. -/
noncomputable abbrev JT (S₁ S₂ : List ℤ) (l : ℕ) := Ladder.tens (Jp S₁ l) (Jp S₂ l)

/-- A matrix that intertwines the ladder operators. -/
def LadderInt (S₁ S₂ S₃ : List ℤ)
    (T : Matrix (Fin (pats S₁).length × Fin (pats S₂).length) (Fin (pats S₃).length) ℂ) : Prop :=
  (∀ l, l < S₃.length - 1 → T * Jp S₃ l = JT S₁ S₂ l * T) ∧
    ∀ l, l < S₃.length - 1 → T * (Jp S₃ l)ᴴ = (JT S₁ S₂ l)ᴴ * T

theorem sysT (h : Labels S₁ S₂ S₃) : Ladder.Sys (S₃.length - 1) cartan (JT S₁ S₂)
    (fun i => Ladder.tens (Jz S₁ i) (Jz S₂ i)) (fun x => height S₁ x.1 + height S₂ x.2) := by
  have a := sys_Jp h.w₁
  have b := sys_Jp h.w₂
  rw [h.l₁] at a
  rw [h.l₂] at b
  exact a.tensor b

theorem Jz_top' (hS : IsWeight S₃) (i : ℕ) : Jz S₃ i *ᵥ Pi.single (topIdx hS) 1 =
    (((mToZWeight (topPat S₃)).getD i 0 : ℚ) : ℂ) • Pi.single (topIdx hS) 1 := by
  unfold Jz
  funext a
  rw [mulVec_diagonal, Pi.smul_apply]
  by_cases h : a = topIdx hS
  · subst h
    rw [topIdx_spec]
    simp
  · rw [Pi.single_eq_of_ne h, mul_zero, smul_zero]

/-- The vectors in the kernel of the constraint matrix are the images of the highest vector under the intertwiners. -/
theorem kernel_int (h : Labels S₁ S₂ S₃) (v : Matrix (Fin (pats S₁).length) (Fin (pats S₂).length) ℝ) :
    (∀ R ∈ rowsVal S₁ S₂ (topPat S₃), ∑ i, ∑ j, R i j * v i j = 0) ↔
      ∃ T, LadderInt S₁ S₂ S₃ T ∧ T *ᵥ Pi.single (topIdx h.w₃) 1 = tvec v := by
  have hT : Triangular S₁.length (topPat S₃) := by
    rw [h.l₁]
    exact topPat_tri S₃
  rw [kernel_iff h.w₁ h.w₂ hT (by rw [h.l₁, h.l₂]), h.l₁]
  constructor
  · rintro ⟨hk, hz⟩
    obtain ⟨T, h1, h2, h3⟩ := Ladder.lift (sys_Jp h.w₃) (sysT h) (top_Jp h.w₃) hk
      (fun i hi => ⟨_, Jz_top' h.w₃ i, hz i hi⟩)
    exact ⟨T, ⟨h2, h3⟩, h1⟩
  · rintro ⟨T, ⟨h2, h3⟩, h1⟩
    refine ⟨fun l hl => ?_, fun i hi => ?_⟩
    · rw [← h1, mulVec_mulVec, ← h2 l hl, ← mulVec_mulVec, (top_Jp h.w₃).killed l hl, mulVec_zero]
    · have hZ : T * Jz S₃ i = Ladder.tens (Jz S₁ i) (Jz S₂ i) * T := by
        have e1 := (sys_Jp h.w₃).comm i i hi hi
        have e2 := (sysT h).comm i i hi hi
        rw [if_pos rfl] at e1 e2
        refine smul_right_injective _ (two_ne_zero (α := ℂ)) ?_
        change (2 : ℂ) • (T * Jz S₃ i) = (2 : ℂ) • (Ladder.tens (Jz S₁ i) (Jz S₂ i) * T)
        rw [← Matrix.mul_smul, ← Matrix.smul_mul, ← e1, ← e2, Matrix.mul_sub, Matrix.sub_mul, ← Matrix.mul_assoc, h2 i hi,
          Matrix.mul_assoc, h3 i hi, ← Matrix.mul_assoc T, h3 i hi, Matrix.mul_assoc _ T, h2 i hi]
        simp only [Matrix.mul_assoc]
      rw [← h1, mulVec_mulVec, ← hZ, ← mulVec_mulVec, Jz_top', mulVec_smul]

theorem cgood_of_unit (h : Labels S₁ S₂ S₃) {v : Matrix (Fin (pats S₁).length) (Fin (pats S₂).length) ℝ}
    (hv : ∑ i, ∑ j, v i j ^ 2 = 1) {T : Matrix (Fin (pats S₁).length × Fin (pats S₂).length) (Fin (pats S₃).length) ℂ}
    (hT : LadderInt S₁ S₂ S₃ T) (htop : T *ᵥ Pi.single (topIdx h.w₃) 1 = tvec v) : CGood S₁ S₂ S₃ T := by
  obtain ⟨a, ha⟩ := Ladder.isometry (sys_Jp h.w₃) (top_Jp h.w₃) hT.1 hT.2
  have e1 : star (tvec v) ⬝ᵥ tvec v = 1 := by
    have : star (tvec v) ⬝ᵥ tvec v = ((∑ i, ∑ j, v i j ^ 2 : ℝ) : ℂ) := by
      rw [dotProduct, Fintype.sum_prod_type]
      push_cast
      refine sum_congr rfl fun i _ => sum_congr rfl fun j _ => ?_
      simp only [Pi.star_apply, tvec, RCLike.star_def, Complex.conj_ofReal]
      ring
    rw [this, hv]
    simp
  have e2 : a = 1 := by
    rw [← htop, Ladder.adj_dot, mulVec_mulVec, ha, smul_mulVec, one_mulVec, star_smul, smul_dotProduct] at e1
    have e3 : star (Pi.single (topIdx h.w₃) (1 : ℂ)) ⬝ᵥ Pi.single (topIdx h.w₃) 1 = 1 := by
      rw [dotProduct_single_one, Pi.star_apply, Pi.single_eq_same, star_one]
    rw [e3, smul_eq_mul, mul_one] at e1
    rw [← star_star a, e1, star_one]
  exact ⟨h.w₁, h.w₂, h.w₃, h.p₁, h.p₂, h.p₃, h.l₁, h.l₂, by rw [ha, e2, one_smul], hT.1, hT.2⟩

/-! ## The whole function -/

/-- The null space is exact for the matrix at hand. -/
def NullOK (rnd : ℝ → ℝ) (null : ∀ m n : ℕ, Matrix (Fin m) (Fin n) ℝ → List (Fin n → ℝ)) (S₁ S₂ S₃ : List ℤ) : Prop :=
  ∀ rows : List (Matrix (Fin (pats S₁).length) (Fin (pats S₂).length) ℝ),
    constraintRows rnd S₁ S₂ (topPat S₃) = .ok rows → ExactNull (nullMatrix rows) (null _ _ (nullMatrix rows))

theorem cg_ok' (h : Labels S₁ S₂ S₃) {rnd : ℝ → ℝ} (hr₁ : RoundOK rnd S₁) (hr₂ : RoundOK rnd S₂)
    {null : ∀ m n : ℕ, Matrix (Fin m) (Fin n) ℝ → List (Fin n → ℝ)} (hn : NullOK rnd null S₁ S₂ S₃) :
    ∃ vs, vs = (null _ _ (nullMatrix (rowsVal S₁ S₂ (topPat S₃)))).map unflip ∧
      Eldest (rowsVal S₁ S₂ (topPat S₃)) vs ∧ ∀ fuel, (pats S₃).length ≤ fuel + 1 →
      (vs = [] ∧ clebschGordanMatrix rnd null fuel (pats S₁).length (pats S₂).length (pats S₃).length S₁ S₂ S₃ = some (.ok [])) ∨
      ∃ v rest T C ML F, vs = v :: rest ∧ CGood S₁ S₂ S₃ T ∧ T *ᵥ Pi.single (topIdx h.w₃) 1 = tvec v ∧
        clebschGordanMatrix rnd null fuel (pats S₁).length (pats S₂).length (pats S₃).length S₁ S₂ S₃ =
          some (.ok (C :: rest.map initC)) ∧
        ML.length = (pats S₃).length ∧ Inv h.w₃ T C ML F := by
  have hT1 : (topPat S₃).length = S₁.length := by rw [h.l₁]; exact (topPat_tri S₃).1
  have hT2 : (topPat S₃).length = S₂.length := by rw [h.l₂]; exact (topPat_tri S₃).1
  have hrows := constraintRows_eq h.w₁ h.w₂ h.p₁ h.p₂ hr₁ hr₂ hT1 hT2
  have hE := eldest_of_null (hn _ hrows)
  refine ⟨_, rfl, hE, fun fuel hf => ?_⟩
  have hst : ∀ Cs, cgLoop S₁ S₂ S₃ fuel
      (((null _ _ (nullMatrix (rowsVal S₁ S₂ (topPat S₃)))).map unflip).map initC) [topPat S₃] = Cs →
      clebschGordanMatrix rnd null fuel (pats S₁).length (pats S₂).length (pats S₃).length S₁ S₂ S₃ = Cs := by
    intro Cs e
    rw [← e]
    unfold clebschGordanMatrix
    rw [sToMs_eq _ h.w₃]
    simp only [SU2.ok_bind', (pats_last h.w₃).1]
    unfold eldest
    rw [hrows]
    rfl
  generalize (null _ _ (nullMatrix (rowsVal S₁ S₂ (topPat S₃)))).map unflip = vs at hE hst
  cases vs with
  | nil => exact .inl ⟨rfl, hst _ rfl⟩
  | cons v rest =>
    refine .inr ?_
    obtain ⟨T, hT, htop⟩ := (kernel_int h v).1 ((hE.span v).2 (Submodule.subset_span (by simp)))
    have g := cgood_of_unit h (hE.unit v (by simp)) hT htop
    obtain ⟨C, ML, F, h1, h2, h3⟩ := cgWhile_ok g fuel (initC v) [topPat S₃] _ (Inv.init h.w₃ htop) (by
      rw [List.length_singleton]; omega)
    refine ⟨v, rest, T, C, ML, F, rfl, g, htop, hst _ ?_, h2, h3⟩
    rw [List.map_cons]
    unfold cgLoop
    rw [h1]
    simp only [cgLoop_full fuel h2]

theorem cg_ok (h : Labels S₁ S₂ S₃) {rnd : ℝ → ℝ} (hr₁ : RoundOK rnd S₁) (hr₂ : RoundOK rnd S₂)
    {null : ∀ m n : ℕ, Matrix (Fin m) (Fin n) ℝ → List (Fin n → ℝ)} (hn : NullOK rnd null S₁ S₂ S₃) :
    ∃ vs, Eldest (rowsVal S₁ S₂ (topPat S₃)) vs ∧ ∀ fuel, (pats S₃).length ≤ fuel + 1 →
      (vs = [] ∧ clebschGordanMatrix rnd null fuel (pats S₁).length (pats S₂).length (pats S₃).length S₁ S₂ S₃ = some (.ok [])) ∨
      ∃ v rest T C ML F, vs = v :: rest ∧ CGood S₁ S₂ S₃ T ∧ T *ᵥ Pi.single (topIdx h.w₃) 1 = tvec v ∧
        clebschGordanMatrix rnd null fuel (pats S₁).length (pats S₂).length (pats S₃).length S₁ S₂ S₃ =
          some (.ok (C :: rest.map initC)) ∧
        ML.length = (pats S₃).length ∧ Inv h.w₃ T C ML F := by
  obtain ⟨vs, -, h'⟩ := cg_ok' h hr₁ hr₂ hn
  exact ⟨vs, h'⟩

/-! ## The first array -/

/-- A real array as a matrix. -/
def realMat {d₁ d₂ d₃ : ℕ} (C : Fin d₁ → Fin d₂ → Fin d₃ → ℝ) : Matrix (Fin d₁ × Fin d₂) (Fin d₃) ℂ :=
  Matrix.of fun x k => (C x.1 x.2 k : ℂ)

theorem cgMat_real {d₁ d₂ d₃ : ℕ} (C : Fin d₁ → Fin d₂ → Fin d₃ → ℝ) :
    cgMat (fun i j k => (C i j k : ℂ)) = realMat C := by
  ext x k
  simp [cgMat, realMat]

theorem mulVec_top {ι κ : Type} [Fintype ι] [DecidableEq ι] (T : Matrix κ ι ℂ) (k : ι) :
    T *ᵥ Pi.single k 1 = fun x => T x k := by
  rw [mulVec_single_one]
  rfl

/-- The first array is the intertwiner exactly if the columns of `F` are the coordinate vectors. -/
theorem first_iff (h : Labels S₁ S₂ S₃)
    {T : Matrix (Fin (pats S₁).length × Fin (pats S₂).length) (Fin (pats S₃).length) ℂ} (g : CGood S₁ S₂ S₃ T)
    {C : Fin (pats S₁).length → Fin (pats S₂).length → Fin (pats S₃).length → ℝ}
    {ML : List Pat} {F : Fin (pats S₃).length → Fin (pats S₃).length → ℝ} (hI : Inv h.w₃ T C ML F) :
    LadderInt S₁ S₂ S₃ (realMat C) ↔ ∀ k, F k = Pi.single k 1 := by
  have hcol : ∀ k, (fun x => realMat C x k) = T *ᵥ cvec (F k) := fun k => by
    rw [← hI.col k]
    rfl
  have hcs : ∀ k : Fin (pats S₃).length, cvec (Pi.single k (1 : ℝ)) = Pi.single k 1 := by
    intro k
    funext a
    by_cases e : a = k
    · subst e; simp [cvec]
    · simp [cvec, Pi.single_eq_of_ne e]
  constructor
  · intro hW k
    have hD : realMat C - T = 0 := by
      refine Ladder.intertwiner_unique (P' := JT S₁ S₂) (sys_Jp h.w₃) (top_Jp h.w₃) _ (fun l hl => ?_) (fun l hl => ?_) ?_
      · rw [Matrix.sub_mul, Matrix.mul_sub, hW.1 l hl, g.up l hl]
      · rw [Matrix.sub_mul, Matrix.mul_sub, hW.2 l hl, g.dn l hl]
      · rw [sub_mulVec, mulVec_top, hcol, hI.first, hcs, sub_self]
    have e : T *ᵥ cvec (F k) = T *ᵥ Pi.single k 1 := by
      rw [← hcol, sub_eq_zero.1 hD, mulVec_top]
    have e2 := congrArg (fun y => Tᴴ *ᵥ y) e
    simp only [mulVec_mulVec, g.iso, one_mulVec] at e2
    rw [← hcs] at e2
    funext a
    have := congrFun e2 a
    simpa [cvec] using this
  · intro hF
    have : realMat C = T := by
      ext x k
      have := congrFun (hcol k) x
      rw [hF k, hcs, mulVec_top] at this
      exact this
    rw [this]
    exact ⟨g.up, g.dn⟩

theorem F_of_unique (h : Labels S₁ S₂ S₃)
    {T : Matrix (Fin (pats S₁).length × Fin (pats S₂).length) (Fin (pats S₃).length) ℂ} (g : CGood S₁ S₂ S₃ T)
    {C : Fin (pats S₁).length → Fin (pats S₂).length → Fin (pats S₃).length → ℝ}
    {ML : List Pat} {F : Fin (pats S₃).length → Fin (pats S₃).length → ℝ} (hI : Inv h.w₃ T C ML F)
    (hlen : ML.length = (pats S₃).length)
    (hu : ∀ l c k k', l + 1 < S₃.length → JR S₃ l c k ≠ 0 → JR S₃ l c k' ≠ 0 → k = k') : ∀ k, F k = Pi.single k 1 := by
  classical
  by_contra hno
  push Not at hno
  obtain ⟨k₀, hk₀⟩ := hno
  obtain ⟨k, hk, hmax⟩ := exists_max_image (univ.filter fun k => F k ≠ Pi.single k 1) (height S₃)
    ⟨k₀, by rw [mem_filter]; exact ⟨mem_univ _, hk₀⟩⟩
  rw [mem_filter] at hk
  have hkt : k ≠ topIdx h.w₃ := by
    rintro rfl
    exact hk.2 hI.first
  obtain ⟨l, c, t, h1, h2, -, h4, h5⟩ := hI.step k (hI.all g hlen k) hkt
  have hup := (sys_Jp h.w₃).up l (by omega) c k (by rw [Jp_JR]; exact_mod_cast h2)
  have hFc : F c = Pi.single c 1 := by
    by_contra hc
    have := hmax c (by rw [mem_filter]; exact ⟨mem_univ _, hc⟩)
    omega
  have hlow : ∀ a, lowV S₃ l (F c) a = JR S₃ l c a := by
    intro a
    rw [lowV, hFc, sum_eq_single c]
    · simp
    · intro b _ hb
      rw [Pi.single_eq_of_ne hb, mul_zero]
    · intro hb
      exact absurd (mem_univ _) hb
  have hFk : ∀ a, a ≠ k → F k a = 0 := by
    intro a ha
    rw [h5]
    simp only [hlow]
    by_contra hne
    exact ha (hu l c a k h1 (right_ne_zero_of_mul hne) h2)
  have hs := hI.unit k (hI.all g hlen k)
  rw [sum_eq_single k (fun a _ ha => by rw [hFk a ha]; norm_num) (fun hb => absurd (mem_univ _) hb)] at hs
  have hp := hI.diag k (hI.all g hlen k)
  have h1' : F k k = 1 := by nlinarith
  apply hk.2
  funext a
  by_cases e : a = k
  · subst e
    rw [h1', Pi.single_eq_same]
  · rw [hFk a e, Pi.single_eq_of_ne e]

theorem F_of_double (h : Labels S₁ S₂ S₃)
    {T : Matrix (Fin (pats S₁).length × Fin (pats S₂).length) (Fin (pats S₃).length) ℂ} (g : CGood S₁ S₂ S₃ T)
    {C : Fin (pats S₁).length → Fin (pats S₂).length → Fin (pats S₃).length → ℝ}
    {ML : List Pat} {F : Fin (pats S₃).length → Fin (pats S₃).length → ℝ} (hI : Inv h.w₃ T C ML F)
    (hlen : ML.length = (pats S₃).length) {k : Fin (pats S₃).length} (hkt : k ≠ topIdx h.w₃)
    (hd : ∀ l c, l + 1 < S₃.length → JR S₃ l c k ≠ 0 → ∃ k', k' ≠ k ∧ JR S₃ l c k' ≠ 0) : F k ≠ Pi.single k 1 := by
  intro e
  obtain ⟨l, c, t, h1, h2, h3, h4, h5⟩ := hI.step k (hI.all g hlen k) hkt
  obtain ⟨k', hk', hne⟩ := hd l c h1 h2
  have h6 := congrFun h5 k'
  rw [e, Pi.single_eq_of_ne hk'] at h6
  have hpos : 0 < lowV S₃ l (F c) k' := by
    refine lt_of_lt_of_le (mul_pos (lt_of_le_of_ne (JR_nonneg _ _ _ _) (Ne.symm hne)) (hI.diag c h3)) ?_
    exact single_le_sum (f := fun b => JR S₃ l b k' * F c b)
      (fun b _ => mul_nonneg (JR_nonneg _ _ _ _) (hI.nonneg _ _)) (mem_univ c)
  exact absurd h6.symm (mul_pos h4 hpos).ne'

end

end LieNN.SUN
