import Verif.Proofs.SUNCGCount
import Verif.Props.SUNGen
import Verif.Props.SUNIrr
/-!
# C49: the Clebsch-Gordan arrays of `SU(N)`

The code computes the highest vectors of all solutions, and then lowers them with one list of finished
states that all solutions share. The theorems say for all labels what comes out: the number of the arrays
is right, the first array is equivariant exactly for some labels, and the other arrays are not equivariant.
-/
namespace LieNN.Props

open Matrix Spec SUN

/-- The three labels are accepted, they belong to the same `SU(N)` with `N ≥ 2`, and `r₁`, `r₂`, `r₃` are
the representations that belong to them (with any structure constants: an equivariant array does not
depend on them). -/
structure SUNTriple (n : ℕ) (S₁ S₂ S₃ : List ℤ) {d₁ d₂ d₃ : ℕ} (r₁ : Rep (n ^ 2 - 1) 0 d₁)
    (r₂ : Rep (n ^ 2 - 1) 0 d₂) (r₃ : Rep (n ^ 2 - 1) 0 d₃) : Prop where
  two : 2 ≤ n
  m₁ : SUN.make S₁ = .ok S₁
  m₂ : SUN.make S₂ = .ok S₂
  m₃ : SUN.make S₃ = .ok S₃
  l₁ : S₁.length = n
  l₂ : S₂.length = n
  l₃ : S₃.length = n
  d₁ : dim S₁ = .ok (d₁ : ℤ)
  d₂ : dim S₂ = .ok (d₂ : ℤ)
  d₃ : dim S₃ = .ok (d₃ : ℤ)
  g₁ : ∃ L, generators _ S₁ = .ok L ∧ r₁.X = genFn (n ^ 2 - 1) L
  g₂ : ∃ L, generators _ S₂ = .ok L ∧ r₂.X = genFn (n ^ 2 - 1) L
  g₃ : ∃ L, generators _ S₃ = .ok L ∧ r₃.X = genFn (n ^ 2 - 1) L

/-- The rounding does not change zero, one and the entries of the raising operators. -/
def KeepsLadder (rnd : ℝ → ℝ) (S : List ℤ) : Prop :=
  rnd 0 = 0 ∧ rnd 1 = 1 ∧ ∀ l N M x, l + 1 < S.length → IsGT S N → IsGT S M → upperLadder l N M = .ok x → rnd x = x

/-- `nullspace` is exact on the matrix of the highest weight conditions. -/
def NullExact (rnd : ℝ → ℝ) (null : ∀ m n : ℕ, Matrix (Fin m) (Fin n) ℝ → List (Fin n → ℝ)) (d₁ d₂ : ℕ)
    (S₁ S₂ S₃ : List ℤ) : Prop :=
  ∀ Ms E, sToMs S₃ = .ok Ms → Ms.getLast? = some E →
    ∀ rows : List (Matrix (Fin d₁) (Fin d₂) ℝ), constraintRows rnd S₁ S₂ E = .ok rows →
      ExactNull (nullMatrix rows) (null _ _ (nullMatrix rows))

/-- The representations in which no lowering operator meets two states of the same weight: the symmetric
powers, their duals and the exterior powers. -/
def NoBranch (S : List ℤ) : Prop :=
  S.getD 1 0 = 0 ∨ S.getD (S.length - 2) 0 = S.getD 0 0 ∨ S.getD 0 0 ≤ 1

section
variable {n d₁ d₂ d₃ : ℕ} {S₁ S₂ S₃ : List ℤ} {r₁ : Rep (n ^ 2 - 1) 0 d₁} {r₂ : Rep (n ^ 2 - 1) 0 d₂}
  {r₃ : Rep (n ^ 2 - 1) 0 d₃}

theorem SUNTriple.labels (h : SUNTriple n S₁ S₂ S₃ r₁ r₂ r₃) : Labels S₁ S₂ S₃ := by
  obtain ⟨w₁, p₁, -⟩ := make_weight h.m₁
  obtain ⟨w₂, p₂, -⟩ := make_weight h.m₂
  obtain ⟨w₃, p₃, -⟩ := make_weight h.m₃
  exact ⟨w₁, w₂, w₃, p₁, p₂, p₃, by rw [h.l₁, h.l₃], by rw [h.l₂, h.l₃], by rw [h.l₃]; exact h.two⟩

theorem KeepsLadder.roundOK {rnd : ℝ → ℝ} {S : List ℤ} (h : KeepsLadder rnd S) (hS : IsWeight S)
    (h0 : ∀ s ∈ S, 0 ≤ s) : RoundOK rnd S := by
  refine ⟨h.1, h.2.1, fun l a b hl => h.2.2 l _ _ _ hl (idx_gt hS a) (idx_gt hS b) ?_⟩
  exact upperLadder_eq (goodPat_of_mem hS h0 (by omega) (List.getElem_mem _))
    (goodPat_of_mem hS h0 (by omega) (List.getElem_mem _)) hl

/-- The equivariant arrays in terms of the ladder operators. -/
theorem SUNTriple.isCG {r₁ : Rep (n ^ 2 - 1) 0 (pats S₁).length} {r₂ : Rep (n ^ 2 - 1) 0 (pats S₂).length}
    {r₃ : Rep (n ^ 2 - 1) 0 (pats S₃).length} (h : SUNTriple n S₁ S₂ S₃ r₁ r₂ r₃)
    (C : Fin (pats S₁).length → Fin (pats S₂).length → Fin (pats S₃).length → ℂ) :
    IsCG r₁ r₂ r₃ C ↔ LadderInt S₁ S₂ S₃ (cgMat C) := by
  obtain ⟨L₁, hL₁, e₁⟩ := h.g₁
  obtain ⟨L₂, hL₂, e₂⟩ := h.g₂
  obtain ⟨L₃, hL₃, e₃⟩ := h.g₃
  rw [← isCG_ladder h.labels h.l₃ hL₁ hL₂ hL₃ r₁.A r₂.A r₃.A C]
  obtain ⟨A₁, X₁, H₁⟩ := r₁
  obtain ⟨A₂, X₂, H₂⟩ := r₂
  obtain ⟨A₃, X₃, H₃⟩ := r₃
  obtain rfl : X₁ = _ := e₁
  obtain rfl : X₂ = _ := e₂
  obtain rfl : X₃ = _ := e₃
  rw [Subsingleton.elim H₁ Fin.elim0, Subsingleton.elim H₂ Fin.elim0, Subsingleton.elim H₃ Fin.elim0]

/-- The result, with the highest vectors. -/
theorem cg_result {r₁ : Rep (n ^ 2 - 1) 0 (pats S₁).length} {r₂ : Rep (n ^ 2 - 1) 0 (pats S₂).length}
    {r₃ : Rep (n ^ 2 - 1) 0 (pats S₃).length} (h : SUNTriple n S₁ S₂ S₃ r₁ r₂ r₃)
    {rnd : ℝ → ℝ} (hr₁ : KeepsLadder rnd S₁) (hr₂ : KeepsLadder rnd S₂)
    {null : ∀ m n : ℕ, Matrix (Fin m) (Fin n) ℝ → List (Fin n → ℝ)}
    (hn : NullExact rnd null (pats S₁).length (pats S₂).length S₁ S₂ S₃) :
    ∃ vs, Eldest (rowsVal S₁ S₂ (topPat S₃)) vs ∧ ∀ fuel, (pats S₃).length ≤ fuel + 1 →
      (vs = [] ∧ clebschGordanMatrix rnd null fuel (pats S₁).length (pats S₂).length (pats S₃).length S₁ S₂ S₃ = some (.ok [])) ∨
      ∃ v rest T C ML F, vs = v :: rest ∧ CGood S₁ S₂ S₃ T ∧ T *ᵥ Pi.single (topIdx h.labels.w₃) 1 = tvec v ∧
        clebschGordanMatrix rnd null fuel (pats S₁).length (pats S₂).length (pats S₃).length S₁ S₂ S₃ =
          some (.ok (C :: rest.map initC)) ∧
        ML.length = (pats S₃).length ∧ Inv h.labels.w₃ T C ML F := by
  refine cg_ok h.labels (hr₁.roundOK h.labels.w₁ h.labels.p₁) (hr₂.roundOK h.labels.w₂ h.labels.p₂) ?_
  exact fun rows hrows => hn _ _ (sToMs_eq S₃ h.labels.w₃) (pats_last h.labels.w₃).1 rows hrows

/-- C49: for all accepted labels the computation ends after at most `dim S₃ - 1` rounds, does not raise,
and the number of the arrays is the dimension of the space of the equivariant arrays. -/
theorem C49_number (h : SUNTriple n S₁ S₂ S₃ r₁ r₂ r₃) {rnd : ℝ → ℝ} (hr₁ : KeepsLadder rnd S₁)
    (hr₂ : KeepsLadder rnd S₂) {null : ∀ m n : ℕ, Matrix (Fin m) (Fin n) ℝ → List (Fin n → ℝ)}
    (hn : NullExact rnd null d₁ d₂ S₁ S₂ S₃) {fuel : ℕ} (hf : d₃ ≤ fuel + 1) :
    ∃ Cs, clebschGordanMatrix rnd null fuel d₁ d₂ d₃ S₁ S₂ S₃ = some (.ok Cs) ∧
      Cs.length = Module.finrank ℂ (cgSpace r₁ r₂ r₃) := by
  obtain rfl := dim_pats h.labels.w₁ h.d₁
  obtain rfl := dim_pats h.labels.w₂ h.d₂
  obtain rfl := dim_pats h.labels.w₃ h.d₃
  obtain ⟨vs, hE, hvs⟩ := cg_result h hr₁ hr₂ hn
  have hd := finrank_of_ladder h.labels hE (cgSpace r₁ r₂ r₃) h.isCG
  rcases hvs fuel hf with ⟨rfl, e⟩ | ⟨v, rest, T, C, ML, F, rfl, -, -, e, -, -⟩
  · exact ⟨_, e, by rw [hd]; rfl⟩
  · exact ⟨_, e, by rw [hd]; simp⟩

/-- C49: the columns of the highest weight of the arrays are orthonormal, and every column of the first
array has norm one. -/
theorem C49_orthonormal (h : SUNTriple n S₁ S₂ S₃ r₁ r₂ r₃) {rnd : ℝ → ℝ} (hr₁ : KeepsLadder rnd S₁)
    (hr₂ : KeepsLadder rnd S₂) {null : ∀ m n : ℕ, Matrix (Fin m) (Fin n) ℝ → List (Fin n → ℝ)}
    (hn : NullExact rnd null d₁ d₂ S₁ S₂ S₃) {fuel : ℕ} (hf : d₃ ≤ fuel + 1)
    {Cs : List (Fin d₁ → Fin d₂ → Fin d₃ → ℝ)}
    (hCs : clebschGordanMatrix rnd null fuel d₁ d₂ d₃ S₁ S₂ S₃ = some (.ok Cs)) :
    (∀ k : Fin d₃, (k : ℕ) + 1 = d₃ → Cs.Pairwise (fun C D => ∑ i, ∑ j, C i j k * D i j k = 0) ∧
      ∀ C ∈ Cs, ∑ i, ∑ j, C i j k ^ 2 = 1) ∧
    ∀ C ∈ Cs.head?, ∀ k, ∑ i, ∑ j, C i j k ^ 2 = 1 := by
  obtain rfl := dim_pats h.labels.w₁ h.d₁
  obtain rfl := dim_pats h.labels.w₂ h.d₂
  obtain rfl := dim_pats h.labels.w₃ h.d₃
  obtain ⟨vs, hE, hvs⟩ := cg_result h hr₁ hr₂ hn
  rcases hvs fuel hf with ⟨rfl, e⟩ | ⟨v, rest, T, C, ML, F, rfl, g, ht, e, hlen, hI⟩
  · rw [e] at hCs
    cases hCs
    simp
  rw [e] at hCs
  cases hCs
  have hnorm : ∀ k, ∑ i, ∑ j, C i j k ^ 2 = 1 := by
    intro k
    have h1 : star (tvec (Matrix.of fun i j => C i j k)) ⬝ᵥ tvec (Matrix.of fun i j => C i j k) =
        ((∑ i, ∑ j, C i j k ^ 2 : ℝ) : ℂ) := by
      rw [dotProduct, Fintype.sum_prod_type]
      push_cast
      refine Finset.sum_congr rfl fun i _ => Finset.sum_congr rfl fun j _ => ?_
      simp only [Pi.star_apply, tvec, RCLike.star_def, Complex.conj_ofReal, Matrix.of_apply]
      ring
    have h2 : star (cvec (F k)) ⬝ᵥ cvec (F k) = ((∑ a, F k a ^ 2 : ℝ) : ℂ) := by
      rw [dotProduct]
      push_cast
      refine Finset.sum_congr rfl fun i _ => ?_
      simp only [Pi.star_apply, cvec, RCLike.star_def, Complex.conj_ofReal]
      ring
    rw [hI.col k, star_mulVec, ← dotProduct_mulVec, mulVec_mulVec, g.iso, one_mulVec, h2,
      hI.unit k (hI.all g hlen k)] at h1
    exact_mod_cast h1.symm
  have htop : ∀ k : Fin (pats S₃).length, (k : ℕ) + 1 = (pats S₃).length → ∀ i j, C i j k = v i j := by
    intro k hk i j
    have hkt : k = topIdx h.labels.w₃ := Fin.ext (by have := (pats_last h.labels.w₃).2; omega)
    have h1 := congrFun (hI.col k) (i, j)
    have h2 : cvec (Pi.single (topIdx h.labels.w₃) (1 : ℝ)) = Pi.single (topIdx h.labels.w₃) 1 := by
      funext a
      by_cases ha : a = topIdx h.labels.w₃
      · subst ha
        simp [cvec]
      · simp [cvec, ha]
    rw [hkt, hI.first, h2, ht] at h1
    have : ((C i j k : ℝ) : ℂ) = (v i j : ℂ) := by
      rw [hkt]
      exact h1
    exact_mod_cast this
  refine ⟨fun k hk => ⟨?_, fun D hD => ?_⟩, fun D hD k => ?_⟩
  · have ho := hE.orth
    rw [List.pairwise_cons] at ho ⊢
    refine ⟨fun D hD => ?_, ?_⟩
    · obtain ⟨w, hw, rfl⟩ := List.mem_map.1 hD
      rw [← ho.1 w hw]
      refine Finset.sum_congr rfl fun i _ => Finset.sum_congr rfl fun j _ => ?_
      rw [htop k hk, initC, if_pos hk]
    · rw [List.pairwise_map]
      refine ho.2.imp fun {x y} hxy => ?_
      rw [← hxy]
      refine Finset.sum_congr rfl fun i _ => Finset.sum_congr rfl fun j _ => ?_
      rw [initC, initC, if_pos hk, if_pos hk]
  · rcases List.mem_cons.1 hD with rfl | hD
    · exact hnorm k
    · obtain ⟨w, hw, rfl⟩ := List.mem_map.1 hD
      rw [← hE.unit w (List.mem_cons_of_mem _ hw)]
      refine Finset.sum_congr rfl fun i _ => Finset.sum_congr rfl fun j _ => ?_
      rw [initC, if_pos hk]
  · rw [List.head?_cons, Option.mem_some_iff] at hD
    subst hD
    exact hnorm k

/-- C49: the first array is equivariant exactly if `S₃` is the label of a symmetric power, of the dual of
a symmetric power or of an exterior power. -/
theorem C49_first_iff (h : SUNTriple n S₁ S₂ S₃ r₁ r₂ r₃) {rnd : ℝ → ℝ} (hr₁ : KeepsLadder rnd S₁)
    (hr₂ : KeepsLadder rnd S₂) {null : ∀ m n : ℕ, Matrix (Fin m) (Fin n) ℝ → List (Fin n → ℝ)}
    (hn : NullExact rnd null d₁ d₂ S₁ S₂ S₃) {fuel : ℕ} (hf : d₃ ≤ fuel + 1)
    {C : Fin d₁ → Fin d₂ → Fin d₃ → ℝ} {Cs : List (Fin d₁ → Fin d₂ → Fin d₃ → ℝ)}
    (hCs : clebschGordanMatrix rnd null fuel d₁ d₂ d₃ S₁ S₂ S₃ = some (.ok (C :: Cs))) :
    IsCG r₁ r₂ r₃ (fun i j k => (C i j k : ℂ)) ↔ NoBranch S₃ := by
  obtain rfl := dim_pats h.labels.w₁ h.d₁
  obtain rfl := dim_pats h.labels.w₂ h.d₂
  obtain rfl := dim_pats h.labels.w₃ h.d₃
  obtain ⟨vs, hE, hvs⟩ := cg_result h hr₁ hr₂ hn
  rcases hvs fuel hf with ⟨rfl, e⟩ | ⟨v, rest, T, C', ML, F, rfl, g, ht, e, hlen, hI⟩
  · rw [e] at hCs
    cases hCs
  rw [e] at hCs
  cases hCs
  rw [h.isCG, cgMat_real, first_iff h.labels g hI]
  constructor
  · intro hF
    by_contra hb
    unfold NoBranch at hb
    push Not at hb
    obtain ⟨k, hk, hd⟩ := double_lowering h.labels.w₃ h.labels.p₃ (make_weight h.m₃).2.2 hb.1 hb.2.1 hb.2.2
    exact F_of_double h.labels g hI hlen hk hd (hF k)
  · intro hb
    exact F_of_unique h.labels g hI hlen (unique_lowering h.labels.w₃ h.labels.p₃ hb)

/-- C49: in every array after the first all columns except that of the highest weight are zero, and the
array is equivariant only if `S₃` has dimension one. -/
theorem C49_rest (h : SUNTriple n S₁ S₂ S₃ r₁ r₂ r₃) {rnd : ℝ → ℝ} (hr₁ : KeepsLadder rnd S₁)
    (hr₂ : KeepsLadder rnd S₂) {null : ∀ m n : ℕ, Matrix (Fin m) (Fin n) ℝ → List (Fin n → ℝ)}
    (hn : NullExact rnd null d₁ d₂ S₁ S₂ S₃) {fuel : ℕ} (hf : d₃ ≤ fuel + 1)
    {C : Fin d₁ → Fin d₂ → Fin d₃ → ℝ} {Cs : List (Fin d₁ → Fin d₂ → Fin d₃ → ℝ)}
    (hCs : clebschGordanMatrix rnd null fuel d₁ d₂ d₃ S₁ S₂ S₃ = some (.ok (C :: Cs))) :
    ∀ D ∈ Cs, (∀ i j (k : Fin d₃), (k : ℕ) + 1 ≠ d₃ → D i j k = 0) ∧
      (IsCG r₁ r₂ r₃ (fun i j k => (D i j k : ℂ)) ↔ d₃ = 1) := by
  obtain rfl := dim_pats h.labels.w₁ h.d₁
  obtain rfl := dim_pats h.labels.w₂ h.d₂
  obtain rfl := dim_pats h.labels.w₃ h.d₃
  obtain ⟨vs, hE, hvs⟩ := cg_result h hr₁ hr₂ hn
  rcases hvs fuel hf with ⟨rfl, e⟩ | ⟨v, rest, T, C', ML, F, rfl, g, ht, e, hlen, hI⟩
  · rw [e] at hCs
    cases hCs
  rw [e] at hCs
  cases hCs
  intro D hD
  obtain ⟨w, hw, rfl⟩ := List.mem_map.1 hD
  have hlast := (pats_last h.labels.w₃).2
  have hcol : realMat (initC (d₃ := (pats S₃).length) w) *ᵥ Pi.single (topIdx h.labels.w₃) 1 = tvec w := by
    rw [mulVec_top]
    funext x
    rw [realMat, Matrix.of_apply, initC, if_pos hlast, tvec]
  refine ⟨fun i j k hk => if_neg hk, ?_⟩
  rw [h.isCG, cgMat_real]
  constructor
  · intro hT
    by_contra hne
    have g' := cgood_of_unit h.labels (hE.unit w (List.mem_cons_of_mem _ hw)) hT hcol
    have hpos := (topIdx h.labels.w₃).2
    have h2 : 0 < (pats S₃).length - 1 := by omega
    have h3 := congrFun₂ g'.iso ⟨0, by omega⟩ ⟨0, by omega⟩
    rw [Matrix.one_apply_eq, Matrix.mul_apply] at h3
    have h4 : ∀ x, realMat (initC (d₃ := (pats S₃).length) w) x ⟨0, by omega⟩ = 0 := by
      intro x
      rw [realMat, Matrix.of_apply, initC, if_neg (by change ¬ (0 + 1 = _); omega)]
      simp
    simp [h4] at h3
  · intro h1
    obtain ⟨T', hT', ht'⟩ := (kernel_int h.labels w).1 ((hE.span w).2 (Submodule.subset_span (List.mem_cons_of_mem _ hw)))
    have : realMat (initC (d₃ := (pats S₃).length) w) = T' := by
      ext x k
      have hk : k = topIdx h.labels.w₃ := Fin.ext (by have := k.2; omega)
      rw [← hcol, mulVec_top, mulVec_top] at ht'
      rw [hk]
      exact (congrFun ht' x).symm
    rw [this]
    exact hT'

/-- C49: what would have to hold for all labels, and the labels for which it holds: all arrays are
equivariant exactly if there is no array, or `S₃` has dimension one, or there is one array and `S₃`
is one of the labels of `C49_first_iff`. -/
theorem C49_all_iff (h : SUNTriple n S₁ S₂ S₃ r₁ r₂ r₃) {rnd : ℝ → ℝ} (hr₁ : KeepsLadder rnd S₁)
    (hr₂ : KeepsLadder rnd S₂) {null : ∀ m n : ℕ, Matrix (Fin m) (Fin n) ℝ → List (Fin n → ℝ)}
    (hn : NullExact rnd null d₁ d₂ S₁ S₂ S₃) {fuel : ℕ} (hf : d₃ ≤ fuel + 1)
    {Cs : List (Fin d₁ → Fin d₂ → Fin d₃ → ℝ)}
    (hCs : clebschGordanMatrix rnd null fuel d₁ d₂ d₃ S₁ S₂ S₃ = some (.ok Cs)) :
    (∀ C ∈ Cs, IsCG r₁ r₂ r₃ (fun i j k => (C i j k : ℂ))) ↔
      Module.finrank ℂ (cgSpace r₁ r₂ r₃) = 0 ∨ d₃ = 1 ∨
        Module.finrank ℂ (cgSpace r₁ r₂ r₃) = 1 ∧ NoBranch S₃ := by
  obtain ⟨Cs', e, hlen⟩ := C49_number h hr₁ hr₂ hn hf
  rw [hCs] at e
  cases e
  rw [← hlen]
  cases Cs with
  | nil => simp
  | cons C rest =>
    have h1 := C49_first_iff h hr₁ hr₂ hn hf hCs
    have h2 := C49_rest h hr₁ hr₂ hn hf hCs
    have hd1 : d₃ = 1 → NoBranch S₃ := by
      rintro rfl
      by_contra hb
      unfold NoBranch at hb
      push Not at hb
      obtain ⟨k, hk, -⟩ := double_lowering h.labels.w₃ h.labels.p₃ (make_weight h.m₃).2.2 hb.1 hb.2.1 hb.2.2
      have := dim_pats h.labels.w₃ h.d₃
      exact hk (Fin.ext (by have := k.2; have := (topIdx h.labels.w₃).2; omega))
    rw [List.forall_mem_cons, h1]
    constructor
    · rintro ⟨hb, hrest⟩
      cases rest with
      | nil => exact Or.inr (Or.inr ⟨rfl, hb⟩)
      | cons D rest => exact Or.inr (Or.inl ((h2 D List.mem_cons_self).2.1 (hrest D List.mem_cons_self)))
    · rintro (h0 | h0 | ⟨h0, hb⟩)
      · simp at h0
      · exact ⟨hd1 h0, fun D hD => (h2 D hD).2.2 h0⟩
      · rw [List.length_cons] at h0
        have : rest = [] := List.length_eq_zero_iff.1 (by omega)
        subst this
        exact ⟨hb, by simp⟩

end

/-! ## Cases that meet the hypotheses -/

/-- The identity is a rounding, and there is an exact `nullspace`. -/
theorem keepsLadder_id (S : List ℤ) : KeepsLadder id S := ⟨rfl, rfl, fun _ _ _ _ _ _ _ _ => rfl⟩

/-- An exact `nullspace`. -/
noncomputable def exactNull (m n : ℕ) (A : Matrix (Fin m) (Fin n) ℝ) : List (Fin n → ℝ) := (exists_exactNull A).choose

theorem nullExact_exactNull (rnd : ℝ → ℝ) (d₁ d₂ : ℕ) (S₁ S₂ S₃ : List ℤ) : NullExact rnd exactNull d₁ d₂ S₁ S₂ S₃ :=
  fun _ _ _ _ rows _ => (exists_exactNull (nullMatrix rows)).choose_spec

/-- The representation of a label. -/
noncomputable def labelRep (n : ℕ) (S : List ℤ) : Rep (n ^ 2 - 1) 0 (pats S).length :=
  ⟨0, genFn (n ^ 2 - 1) ((suBasis S.length).map (Phi S)), Fin.elim0⟩

theorem labelRep_triple {n : ℕ} {S₁ S₂ S₃ : List ℤ} (hn : 2 ≤ n) (m₁ : SUN.make S₁ = .ok S₁) (m₂ : SUN.make S₂ = .ok S₂)
    (m₃ : SUN.make S₃ = .ok S₃) (l₁ : S₁.length = n) (l₂ : S₂.length = n) (l₃ : S₃.length = n) :
    SUNTriple n S₁ S₂ S₃ (labelRep n S₁) (labelRep n S₂) (labelRep n S₃) := by
  obtain ⟨w₁, p₁, -⟩ := make_weight m₁
  obtain ⟨w₂, p₂, -⟩ := make_weight m₂
  obtain ⟨w₃, p₃, -⟩ := make_weight m₃
  exact ⟨hn, m₁, m₂, m₃, l₁, l₂, l₃, dim_eq _ w₁, dim_eq _ w₂, dim_eq _ w₃,
    ⟨_, generators_eq w₁ p₁ (by omega), rfl⟩, ⟨_, generators_eq w₂ p₂ (by omega), rfl⟩,
    ⟨_, generators_eq w₃ p₃ (by omega), rfl⟩⟩

/-- A lower bound of the number of solutions that can be evaluated. -/
theorem finrank_ge {n : ℕ} {S₁ S₂ S₃ : List ℤ} (h : SUNTriple n S₁ S₂ S₃ (labelRep n S₁) (labelRep n S₂) (labelRep n S₃))
    (R : Finset (Fin (pats S₁).length × Fin (pats S₂).length)) (Q : Finset (Fin (pats S₁).length × Fin (pats S₂).length × ℕ))
    (hR : ∀ m ∈ R, wrongB S₁ S₂ (topPat S₃) m = false)
    (hQ : ∀ a b, ∀ l < n - 1, (a, b, l) ∉ Q → ∀ m ∈ R, entryTest S₁ S₂ (a, b, l) m = false) :
    R.card ≤ Module.finrank ℂ (cgSpace (labelRep n S₁) (labelRep n S₂) (labelRep n S₃)) + Q.card := by
  obtain ⟨vs, hE, -⟩ := cg_result h (keepsLadder_id _) (keepsLadder_id _)
    (nullExact_exactNull id _ _ S₁ S₂ S₃)
  rw [finrank_of_ladder h.labels hE _ h.isCG]
  refine length_ge hE R Q hR fun q hq hqQ m hm => entry_zero_of_test (hQ q.1 q.2.1 q.2.2 ?_ hqQ m hm)
  rwa [(topPat_tri S₃).1, h.l₃] at hq

/-- The set of the equations that involve a component of `R`. -/
def eqSet (n : ℕ) (S₁ S₂ : List ℤ) (R : Finset (Fin (pats S₁).length × Fin (pats S₂).length)) :
    Finset (Fin (pats S₁).length × Fin (pats S₂).length × ℕ) :=
  (Finset.univ ×ˢ Finset.univ ×ˢ Finset.range (n - 1)).filter fun q => ∃ m ∈ R, entryTest S₁ S₂ q m = true

theorem finrank_ge' {n : ℕ} {S₁ S₂ S₃ : List ℤ} (h : SUNTriple n S₁ S₂ S₃ (labelRep n S₁) (labelRep n S₂) (labelRep n S₃)) :
    (Finset.univ.filter fun m => wrongB S₁ S₂ (topPat S₃) m = false).card ≤
      Module.finrank ℂ (cgSpace (labelRep n S₁) (labelRep n S₂) (labelRep n S₃)) +
        (eqSet n S₁ S₂ (Finset.univ.filter fun m => wrongB S₁ S₂ (topPat S₃) m = false)).card := by
  refine finrank_ge h _ _ (fun m hm => (Finset.mem_filter.1 hm).2) fun a b l hl hq m hm => ?_
  by_contra hne
  refine hq (Finset.mem_filter.2 ⟨?_, m, hm, by simpa using hne⟩)
  simpa using hl

/-- C49, a case in which everything is right: two spins one half and spin one. -/
example : ∃ C Cs, clebschGordanMatrix id exactNull 2 2 2 3 [1, 0] [1, 0] [2, 0] = some (.ok (C :: Cs)) ∧
    IsCG (labelRep 2 [1, 0]) (labelRep 2 [1, 0]) (labelRep 2 [2, 0]) (fun i j k => (C i j k : ℂ)) := by
  have h := labelRep_triple (n := 2) (S₁ := [1, 0]) (S₂ := [1, 0]) (S₃ := [2, 0]) (by decide) (by decide +kernel)
    (by decide +kernel) (by decide +kernel) rfl rfl rfl
  obtain ⟨Cs, e, hlen⟩ := C49_number h (keepsLadder_id _) (keepsLadder_id _) (nullExact_exactNull _ _ _ _ _ _)
    (fuel := 2) (by decide +kernel)
  have hge := finrank_ge' h
  rw [← hlen] at hge
  cases Cs with
  | nil =>
    exfalso
    revert hge
    rw [List.length_nil]
    decide +kernel
  | cons C Cs =>
    exact ⟨C, Cs, e, (C49_first_iff h (keepsLadder_id _) (keepsLadder_id _) (nullExact_exactNull _ _ _ _ _ _)
      (by decide +kernel) e).2 (Or.inl rfl)⟩

/-- C49 fails for the octet in the product of the quark and the antiquark: there is an array, and it is
not equivariant. -/
theorem C49_octet_wrong :
    ∃ C Cs, clebschGordanMatrix id exactNull 7 3 3 8 [1, 0, 0] [1, 1, 0] [2, 1, 0] = some (.ok (C :: Cs)) ∧
      ¬ IsCG (labelRep 3 [1, 0, 0]) (labelRep 3 [1, 1, 0]) (labelRep 3 [2, 1, 0]) (fun i j k => (C i j k : ℂ)) := by
  have h := labelRep_triple (n := 3) (S₁ := [1, 0, 0]) (S₂ := [1, 1, 0]) (S₃ := [2, 1, 0]) (by decide)
    (by decide +kernel) (by decide +kernel) (by decide +kernel) rfl rfl rfl
  obtain ⟨Cs, e, hlen⟩ := C49_number h (keepsLadder_id _) (keepsLadder_id _) (nullExact_exactNull _ _ _ _ _ _)
    (fuel := 7) (by decide +kernel)
  have hge := finrank_ge' h
  rw [← hlen] at hge
  cases Cs with
  | nil =>
    exfalso
    revert hge
    rw [List.length_nil]
    decide +kernel
  | cons C Cs =>
    refine ⟨C, Cs, e, fun hC => ?_⟩
    have := (C49_first_iff h (keepsLadder_id _) (keepsLadder_id _) (nullExact_exactNull _ _ _ _ _ _)
      (by decide +kernel) e).1 hC
    revert this
    unfold NoBranch
    decide

/-- C49 fails for the octets in the product of two octets: there are at least two arrays, and none of them
is equivariant. -/
theorem C49_octets_wrong :
    ∃ C D Cs, clebschGordanMatrix id exactNull 7 8 8 8 [2, 1, 0] [2, 1, 0] [2, 1, 0] = some (.ok (C :: D :: Cs)) ∧
      ∀ E ∈ C :: D :: Cs,
        ¬ IsCG (labelRep 3 [2, 1, 0]) (labelRep 3 [2, 1, 0]) (labelRep 3 [2, 1, 0]) (fun i j k => (E i j k : ℂ)) := by
  have h := labelRep_triple (n := 3) (S₁ := [2, 1, 0]) (S₂ := [2, 1, 0]) (S₃ := [2, 1, 0]) (by decide)
    (by decide +kernel) (by decide +kernel) (by decide +kernel) rfl rfl rfl
  obtain ⟨Cs, e, hlen⟩ := C49_number h (keepsLadder_id _) (keepsLadder_id _) (nullExact_exactNull _ _ _ _ _ _)
    (fuel := 7) (by decide +kernel)
  have hge := finrank_ge' h
  rw [← hlen] at hge
  have h6 : (Finset.univ.filter fun m => wrongB [2, 1, 0] [2, 1, 0] (topPat [2, 1, 0]) m = false).card = 6 := by
    decide +kernel
  have h4 : (eqSet 3 [2, 1, 0] [2, 1, 0]
      (Finset.univ.filter fun m => wrongB [2, 1, 0] [2, 1, 0] (topPat [2, 1, 0]) m = false)).card = 4 := by
    decide +kernel
  match Cs, e, hge with
  | [], e, hge =>
    rw [h6, h4] at hge
    simp at hge
  | [C], e, hge =>
    rw [h6, h4] at hge
    simp at hge
  | C :: D :: Cs, e, _ =>
    refine ⟨C, D, Cs, e, fun E hE hcg => ?_⟩
    rcases List.mem_cons.1 hE with rfl | hE
    · have := (C49_first_iff h (keepsLadder_id _) (keepsLadder_id _) (nullExact_exactNull _ _ _ _ _ _)
        (by decide +kernel) e).1 hcg
      revert this
      unfold NoBranch
      decide
    · have := ((C49_rest h (keepsLadder_id _) (keepsLadder_id _) (nullExact_exactNull _ _ _ _ _ _)
        (by decide +kernel) e) E hE).2.1 hcg
      revert this
      decide +kernel

end LieNN.Props
