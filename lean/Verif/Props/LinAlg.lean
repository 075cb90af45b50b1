import Verif.Proofs.SeqNull
import Verif.Proofs.IntertwinerRep
import Verif.Proofs.RepExamples
/-!
# C12-C17, C31: numerical linear algebra, intertwiners and Clebsch-Gordan tensors

`EighSpec eigh` says that `np.linalg.eigh` returns an orthonormal eigenbasis; it is met by
`exactEigh`.  `Gap eps A` says that `Aᴴ A` has no eigenvalue in `(0, eps)`; every matrix has a gap
for `eps` small enough (`exists_gap`).
-/
namespace LieNN.Props

open Matrix Spec Examples

variable {m n h d d₁ d₂ d₃ : ℕ} {eigh : EighFn} {eps : ℝ}

/-! ## C12: `gram_schmidt` -/

/-- C12: the rows are orthonormal, at most `min(rows, cols)` many, in the row span of the input, and
every input row is within `epsilon` of their span. -/
theorem C12_gram_schmidt (heps : 0 ≤ eps) (A : List (Vec n)) :
    OrthonormalList (gramSchmidt eps A) ∧
    (∀ q ∈ gramSchmidt eps A, q ∈ lspan A) ∧
    (gramSchmidt eps A).length ≤ min A.length n ∧
    ∀ a ∈ A, ∃ y ∈ lspan (gramSchmidt eps A), ‖a - y‖ ≤ eps := by
  have ho : OList (gramSchmidt eps A) := gsLoop_oList heps _ _ ⟨by simp, List.Pairwise.nil⟩
  refine ⟨ho.orthonormal, gsLoop_mem _ _ (fun a ha => mem_lspan ha) (by simp), le_min ?_ ?_,
    gsLoop_close heps _ _⟩
  · have := gsLoop_length_le eps A []
    rw [List.length_nil, zero_add] at this
    exact this
  · rw [oList_length ho]
    exact (Submodule.finrank_le _).trans (by simp)

/-- C12: with `epsilon = 0` the spans are equal. -/
theorem C12_gram_schmidt_exact (A : List (Vec n)) : lspan (gramSchmidt 0 A) = lspan A := by
  obtain ⟨_, h1, _, h2⟩ := C12_gram_schmidt le_rfl A
  refine le_antisymm (lspan_le.2 h1) (lspan_le.2 fun a ha => ?_)
  obtain ⟨y, hy, hay⟩ := h2 a ha
  have : a = y := sub_eq_zero.1 (norm_le_zero_iff.1 hay)
  rw [this]; exact hy

/-- C12: an orthonormal input is returned unchanged (`epsilon < 1`). -/
theorem C12_gram_schmidt_fixed (heps : eps < 1) (A : List (Vec n)) (hA : OrthonormalList A) :
    gramSchmidt eps A = A := by
  have hred : ∀ (Q : List (Vec n)) (v : Vec n), (∀ q ∈ Q, inner ℂ q v = 0) → gsReduce Q v = v := by
    intro Q
    induction Q with
    | nil => intro v _; rfl
    | cons w Q ih =>
      intro v hv
      rw [gsReduce_cons, hv w (by simp), zero_smul, sub_zero]
      exact ih v fun q hq => hv q (by simp [hq])
  have key : ∀ (B Q : List (Vec n)), OList (Q ++ B) → gsLoop eps B Q = Q ++ B := by
    intro B
    induction B with
    | nil => intro Q _; simp [gsLoop]
    | cons b B ih =>
      intro Q hQ
      have hb : gsReduce Q b = b := by
        apply hred
        intro q hq
        exact (List.pairwise_append.1 hQ.pw).2.2 q hq b (by simp)
      have hn : ‖b‖ = 1 := hQ.norm b (by simp)
      rw [gsLoop_cons, hb, hn, if_pos heps]
      simp only [inv_one, Complex.ofReal_one, one_smul]
      rw [ih _ (by simpa using hQ)]
      simp
  exact key A [] (by simpa using oList_of_orthonormal hA)

/-- Non-vacuity: `gram_schmidt` of two dependent rows keeps one row. -/
example : (gramSchmidt 0 [EuclideanSpace.single (0 : Fin 2) (1 : ℂ),
    EuclideanSpace.single (0 : Fin 2) (1 : ℂ)]).length = 1 := by
  simp [gramSchmidt, gsLoop, gsReduce]

/-! ## C13: `extend_basis` -/

/-- C13: `extend_basis(A)` returns `n` orthonormal rows, starting with `gram_schmidt(A)`, and
`returns='E'` the added ones; it raises exactly when there is nothing to return. -/
theorem C13_extend_basis (heps : 0 ≤ eps) (hn : n * eps ^ 2 < 1) (hn0 : n ≠ 0) (A : List (Vec n)) :
    ∃ E : List (Vec n),
      extendBasis eps A .Q = .ok (gramSchmidt eps A ++ E) ∧
      OrthonormalList (gramSchmidt eps A ++ E) ∧
      (gramSchmidt eps A ++ E).length = n ∧
      lspan (gramSchmidt eps A ++ E) = ⊤ ∧
      extendBasis eps A .E = if E = [] then .error .valueError else .ok E := by
  have ho : OList (gramSchmidt eps A) := gsLoop_oList heps _ _ ⟨by simp, List.Pairwise.nil⟩
  have ho' := gsLoop_oList heps (eyeRows n) _ ho
  have hspan : lspan (gsLoop eps (eyeRows n) (gramSchmidt eps A)) = ⊤ := by
    refine gsLoop_full heps hn ⊤ (fun i => EuclideanSpace.single i (1 : ℂ))
      (fun i => EuclideanSpace.single i (1 : ℂ)) pars_single (fun _ _ _ => rfl) _ _
      (fun _ _ => trivial) ?_ (fun _ _ => trivial)
    intro i
    exact List.mem_map.2 ⟨i, List.mem_finRange i, rfl⟩
  have hlen : (gsLoop eps (eyeRows n) (gramSchmidt eps A)).length = n := by
    rw [oList_length ho', hspan]
    simp
  have heq := gsLoop_eq_append eps (eyeRows n) (gramSchmidt eps A)
  refine ⟨gsAdded eps (eyeRows n) (gramSchmidt eps A), ?_, ?_, ?_, ?_, rfl⟩
  · have hne : gsLoop eps (eyeRows n) (gramSchmidt eps A) ≠ [] := by
      intro h0; rw [h0] at hlen; exact hn0 hlen.symm
    rw [← heq]
    unfold extendBasis
    simp only [if_neg hne]
  · rw [← heq]; exact ho'.orthonormal
  · rw [← heq]; exact hlen
  · rw [← heq]; exact hspan

/-- C13 (defect): `extend_basis(A, returns='E')` raises `ValueError` whenever `A` already has full
rank in the sense that `gram_schmidt(A)` has `n` rows, instead of returning an empty array. -/
theorem C13_extend_basis_full_rank_raises (heps : 0 ≤ eps) (hn : n * eps ^ 2 < 1) (hn0 : n ≠ 0)
    (A : List (Vec n)) : extendBasis eps A .E = .error .valueError ↔ (gramSchmidt eps A).length = n := by
  obtain ⟨E, _, _, hlen, _, hE⟩ := C13_extend_basis heps hn hn0 A
  rw [hE]
  rw [List.length_append] at hlen
  constructor
  · intro h0
    by_cases hE0 : E = []
    · subst hE0; simpa using hlen
    · rw [if_neg hE0] at h0; exact absurd h0 (by simp)
  · intro h0
    have : E = [] := List.eq_nil_of_length_eq_zero (by omega)
    rw [if_pos this]

/-- Non-vacuity of C13 at the default `epsilon = 1e-4`: for `n = 3`. -/
example : ((3 : ℕ) : ℝ) * (1 / 10 ^ 4) ^ 2 < 1 := by norm_num

/-! ## C14: `nullspace` -/

/-- C14: with a gap, the rows of `nullspace(A)` are an orthonormal basis of `{x | A x = 0}`. -/
theorem C14_nullspace (he : EighSpec eigh) (heps : 0 < eps) (hn : n * eps ^ 2 < 1)
    (A : Matrix (Fin m) (Fin n) ℂ) (hgap : Gap eps A) :
    OrthonormalList (nullspace eigh eps A) ∧ ∀ x : Vec n,
      x ∈ lspan (nullspace eigh eps A) ↔ A *ᵥ x.ofLp = 0 := by
  refine ⟨(nullspace_oList heps A).orthonormal, fun x => ?_⟩
  rw [nullspace_kernel he heps A hn hgap]
  rfl

/-- C14: the number of rows is the dimension of the kernel. -/
theorem C14_nullspace_length (he : EighSpec eigh) (heps : 0 < eps) (hn : n * eps ^ 2 < 1)
    (A : Matrix (Fin m) (Fin n) ℂ) (hgap : Gap eps A) :
    (nullspace eigh eps A).length = n - A.rank := by
  rw [oList_length (nullspace_oList heps A), nullspace_kernel he heps A hn hgap]
  have h1 : Module.finrank ℂ (kernel A) = Module.finrank ℂ (LinearMap.ker A.mulVecLin) := by
    have : kernel A = (LinearMap.ker A.mulVecLin).comap
        (WithLp.linearEquiv 2 ℂ (Fin n → ℂ)).toLinearMap := by
      ext x; rfl
    rw [this, Submodule.comap_equiv_eq_map_symm, LinearEquiv.finrank_map_eq]
  have h2 := LinearMap.finrank_range_add_finrank_ker A.mulVecLin
  rw [h1, Matrix.rank]
  simp at h2
  omega

/-- C14 (no gap needed): every returned row is a unit vector with `|A r|² < epsilon`. -/
theorem C14_nullspace_residual (he : EighSpec eigh) (heps : 0 < eps)
    (A : Matrix (Fin m) (Fin n) ℂ) :
    ∀ r ∈ nullspace eigh eps A, ‖r‖ = 1 ∧ ∑ i, ‖(A *ᵥ r.ofLp) i‖ ^ 2 < eps := by
  intro r hr
  obtain ⟨ho, hev⟩ := eigh_spec_mul he A
  have h1 := (nullspace_oList (eigh := eigh) heps A).norm r hr
  refine ⟨h1, ?_⟩
  have hmem := gsLoop_mem (K := selSpan eps (eigh n (Aᴴ * A)).1 (eigh n (Aᴴ * A)).2)
    (List.ofFn (nullProj eps (eigh n (Aᴴ * A)).1 (eigh n (Aᴴ * A)).2)) [] (by
      intro a ha
      obtain ⟨i, rfl⟩ := (List.mem_ofFn' _ _).1 ha
      exact nullProj_mem eps i) (by simp) r hr
  have := sqNormMul_lt eps ho hev hmem h1
  unfold sqNormMul at this
  rw [EuclideanSpace.norm_sq_eq] at this
  exact this

/-- Non-vacuity: an exact `eigh` exists, and every matrix has a gap for small `epsilon`. -/
example (A : Matrix (Fin m) (Fin n) ℂ) :
    EighSpec exactEigh ∧ ∃ e > 0, ∀ eps ≤ e, Gap eps A := ⟨exactEigh_spec, exists_gap A⟩

/-! ## C15: `sequential_nullspace` -/

/-- C15: `sequential_nullspace` consumes the shortest non-empty prefix of the constraints whose
common kernel has at most the requested dimension and returns an orthonormal basis of that kernel;
it raises `ValueError` iff there is no such prefix. -/
theorem C15_sequential_nullspace (he : EighSpec eigh) (heps : 0 < eps) (hn : n * eps ^ 2 < 1)
    (gen : List (Constraint n)) (dim : ℕ)
    (hgap : ∀ k (hk : k < gen.length), GapOn eps (commonKernel (gen.take k)) gen[k].2) :
    (∃ k S, 1 ≤ k ∧ k ≤ gen.length ∧ sequentialNullspace eigh eps gen dim = .ok S ∧
      OrthonormalList S ∧ lspan S = commonKernel (gen.take k) ∧
      S.length = Module.finrank ℂ (commonKernel (gen.take k)) ∧ S.length ≤ dim ∧
      ∀ j, 1 ≤ j → j < k → dim < Module.finrank ℂ (commonKernel (gen.take j))) ∨
    (sequentialNullspace eigh eps gen dim = .error .valueError ∧
      ∀ j, 1 ≤ j → j ≤ gen.length → dim < Module.finrank ℂ (commonKernel (gen.take j))) := by
  have h := seqNullLoop_spec he heps hn dim gen [] none rfl (by simpa using hgap)
  rcases h with ⟨k, hk, S, h1, h2, h3, h4, h5⟩ | ⟨h1, h2⟩
  · left
    refine ⟨k + 1, S, by omega, hk, h1, h2.orthonormal, h3, ?_, h4, ?_⟩
    · rw [oList_length h2, h3]; rfl
    · intro j hj hjk
      obtain ⟨i, rfl⟩ : ∃ i, j = i + 1 := ⟨j - 1, by omega⟩
      exact h5 i (by omega)
  · right
    refine ⟨h1, ?_⟩
    intro j hj hjk
    obtain ⟨i, rfl⟩ : ∃ i, j = i + 1 := ⟨j - 1, by omega⟩
    exact h2 i (by omega)

/-- C15: it raises iff the common kernel of *all* supplied matrices is larger than requested (or no
matrix was supplied). -/
theorem C15_sequential_nullspace_raises (he : EighSpec eigh) (heps : 0 < eps) (hn : n * eps ^ 2 < 1)
    (gen : List (Constraint n)) (dim : ℕ)
    (hgap : ∀ k (hk : k < gen.length), GapOn eps (commonKernel (gen.take k)) gen[k].2) :
    sequentialNullspace eigh eps gen dim = .error .valueError ↔
      gen = [] ∨ dim < Module.finrank ℂ (commonKernel gen) := by
  have hanti : ∀ k, commonKernel gen ≤ commonKernel (gen.take k) := by
    intro k x hx A hA
    exact hx A (List.mem_of_mem_take hA)
  rcases C15_sequential_nullspace he heps hn gen dim hgap with
    ⟨k, S, hk1, hk, hS, _, _, hlen, hle, _⟩ | ⟨herr, hall⟩
  · rw [hS]
    constructor
    · intro hc; exact absurd hc (by simp)
    · rintro (h0 | h0)
      · subst h0; simp at hk; omega
      · have := Submodule.finrank_mono (hanti k)
        omega
  · refine ⟨fun _ => ?_, fun _ => herr⟩
    by_cases h0 : gen = []
    · exact Or.inl h0
    · right
      have hpos : 1 ≤ gen.length := List.length_pos_of_ne_nil h0
      have := hall gen.length hpos le_rfl
      rwa [List.take_length] at this

/-- The matrix with one row that reads off a coordinate. -/
def coordMat (j : Fin 2) : Matrix (Fin 1) (Fin 2) ℂ := Matrix.of fun _ i => if i = j then 1 else 0

/-- It as a constraint of `sequential_nullspace`. -/
def coordRow (j : Fin 2) : Constraint 2 := ⟨1, coordMat j⟩

theorem coordRow_gap (K : Submodule ℂ (Vec 2)) (j : Fin 2) (hK : K = ⊤ ∨ ∀ x ∈ K, x 0 = 0) :
    GapOn (1 / 10 ^ 4) K (coordMat j) := by
  intro μ x hxK hx hev hμ
  have hcomp : ∀ y ∈ K, star (y j) * x j = (μ : ℂ) * (star (y 0) * x 0 + star (y 1) * x 1) := by
    intro y hy
    have := hev y hy
    simpa [coordMat, dotProduct, mulVec, Fin.sum_univ_two] using this
  have hself := hcomp x hxK
  have hn : ∀ z : ℂ, star z * z = ((‖z‖ ^ 2 : ℝ) : ℂ) := by
    intro z
    rw [Complex.star_def, Complex.conj_mul']
    simp
  rw [hn, hn, hn] at hself
  have hself' : ‖x j‖ ^ 2 = μ * (‖x 0‖ ^ 2 + ‖x 1‖ ^ 2) := by
    apply Complex.ofReal_injective
    rw [hself]
    push_cast
    ring
  rcases hK with hK | hK
  · have hone : ∀ i : Fin 2, i ≠ j → x i = 0 := by
      intro i hij
      have := hcomp (EuclideanSpace.single i 1) (by rw [hK]; trivial)
      have h2 : (0 : ℂ) = μ * x i := by
        fin_cases i <;> fin_cases j <;> simp_all
      rcases mul_eq_zero.1 h2.symm with h3 | h3
      · exact absurd h3 (by exact_mod_cast hμ.ne')
      · exact h3
    have hxj : x j ≠ 0 := by
      intro h0
      apply hx
      ext i
      by_cases hij : i = j
      · rw [hij, h0]; rfl
      · rw [hone i hij]; rfl
    have hpos : 0 < ‖x j‖ ^ 2 := by positivity
    have : ‖x 0‖ ^ 2 + ‖x 1‖ ^ 2 = ‖x j‖ ^ 2 := by
      fin_cases j
      · simp [hone 1 (by decide)]
      · simp [hone 0 (by decide)]
    rw [this] at hself'
    have : μ = 1 := by
      have := mul_right_cancel₀ hpos.ne' (a := 1) (by linarith [hself'] : 1 * ‖x j‖ ^ 2 = μ * ‖x j‖ ^ 2)
      exact this.symm
    rw [this]; norm_num
  · have h0 := hK x hxK
    have hx1 : x 1 ≠ 0 := by
      intro h1
      apply hx
      ext i
      fin_cases i
      · exact h0
      · exact h1
    have hpos : 0 < ‖x 1‖ ^ 2 := by positivity
    rw [h0] at hself'
    fin_cases j
    · simp only [Fin.zero_eta, h0, norm_zero] at hself'
      have : 0 < μ * ‖x 1‖ ^ 2 := by positivity
      norm_num at hself'
      rcases hself' with h3 | h3
      · exact absurd h3 hμ.ne'
      · exact absurd h3 hx1
    · simp only [Fin.mk_one, norm_zero] at hself'
      have : μ = 1 := by
        have := mul_right_cancel₀ hpos.ne' (a := 1)
          (by linarith [hself'] : 1 * ‖x 1‖ ^ 2 = μ * ‖x 1‖ ^ 2)
        exact this.symm
      rw [this]; norm_num

theorem coordRow_gaps (k : ℕ) (hk : k < [coordRow 0, coordRow 1].length) :
    GapOn (1 / 10 ^ 4) (commonKernel ([coordRow 0, coordRow 1].take k)) [coordRow 0, coordRow 1][k].2 := by
  match k, hk with
  | 0, _ =>
    refine coordRow_gap _ 0 (Or.inl ?_)
    ext x; simp [commonKernel]
  | 1, _ =>
    refine coordRow_gap _ 1 (Or.inr ?_)
    intro x hx
    have := congrFun (show coordMat 0 *ᵥ x.ofLp = 0 from hx (coordRow 0) (by simp)) 0
    simpa [mulVec, dotProduct, coordMat] using this

/-- Non-vacuity: two constraints on `ℂ²` satisfying the gap hypotheses at `1e-4`. -/
example : ∃ gen : List (Constraint 2), gen.length = 2 ∧
    ∀ k (hk : k < gen.length), GapOn (1 / 10 ^ 4) (commonKernel (gen.take k)) gen[k].2 :=
  ⟨[coordRow 0, coordRow 1], rfl, coordRow_gaps⟩

/-! ## C16: `infer_change_of_basis` -/

/-- C16: the returned matrices are a Frobenius-orthonormal basis of
`{S | X₁[a] S = S X₂[a] for all a}`. -/
theorem C16_infer_change_of_basis (he : EighSpec eigh) (heps : 0 < eps) (hn : n ≠ 0)
    (X₁ : Fin n → Matrix (Fin d₁) (Fin d₁) ℂ) (X₂ : Fin n → Matrix (Fin d₂) (Fin d₂) ℂ)
    (hd : (d₁ * d₂ : ℕ) * eps ^ 2 < 1) (hgap : Gap eps (icobMatrix X₁ X₂)) :
    ∃ S, inferChangeOfBasis eigh eps X₁ X₂ = .ok S ∧
      (∀ Q, Q ∈ mspan S ↔ ∀ a, X₁ a * Q = Q * X₂ a) ∧
      S.length = Module.finrank ℂ (intertwiners X₁ X₂) ∧
      ∀ i j : Fin S.length, ((S.get i)ᴴ * S.get j).trace = if i = j then 1 else 0 := by
  obtain ⟨S, h1, h2, h3, h4⟩ := inferChangeOfBasis_spec he heps hn X₁ X₂ hd hgap
  exact ⟨S, h1, fun Q => by rw [h2]; rfl, h3, h4⟩

/-- C16: with no generator at all the call raises. -/
theorem C16_infer_change_of_basis_empty (X₁ : Fin 0 → Matrix (Fin d₁) (Fin d₁) ℂ)
    (X₂ : Fin 0 → Matrix (Fin d₂) (Fin d₂) ℂ) :
    inferChangeOfBasis eigh eps X₁ X₂ = .error .valueError := rfl

/-- C16 (representations): every returned `Q` intertwines the two representations, every intertwiner
is a combination of them, and `Q` is normalised to `tr(Qᴴ Q) = rep2.dim`. -/
theorem C16_rep_infer_change_of_basis (he : EighSpec eigh) (hn : n + h ≠ 0) (r₁ : Rep n h d₁)
    (r₂ : Rep n h d₂) (hA : AllCloseA r₁.A r₂.A) (hd : d₂ * d₁ < 10 ^ 8)
    (hgap : Gap (1 / 10 ^ 4) (icobMatrix r₂.allGens r₁.allGens)) :
    ∃ S, Rep.inferChangeOfBasis eigh r₁ r₂ = .ok S ∧
      (∀ Q, Q ∈ mspan S ↔ (∀ a, r₂.X a * Q = Q * r₁.X a) ∧ ∀ a, r₂.H a * Q = Q * r₁.H a) ∧
      ∀ i j : Fin S.length, ((S.get i)ᴴ * S.get j).trace = if i = j then (d₂ : ℂ) else 0 := by
  obtain ⟨S, h1, h2, h3, h4⟩ := rep_infer_spec he hn r₁ r₂ hA hd hgap
  refine ⟨S, h1, fun Q => ?_, h4⟩
  rw [h2]
  exact allGens_iff Q

/-- C16 (group action): every returned `Q` commutes with the group actions. -/
theorem C16_rep_infer_change_of_basis_exp_map (he : EighSpec eigh) (hn : n + h ≠ 0)
    (r₁ : Rep n h d₁) (r₂ : Rep n h d₂) (hA : AllCloseA r₁.A r₂.A) (hd : d₂ * d₁ < 10 ^ 8)
    (hgap : Gap (1 / 10 ^ 4) (icobMatrix r₂.allGens r₁.allGens))
    (c : Fin n → ℂ) (k : Fin h → ℤ) (g₁ : Matrix (Fin d₁) (Fin d₁) ℂ)
    (g₂ : Matrix (Fin d₂) (Fin d₂) ℂ) (hg₁ : r₁.expMap c k = .ok g₁) (hg₂ : r₂.expMap c k = .ok g₂) :
    ∃ S, Rep.inferChangeOfBasis eigh r₁ r₂ = .ok S ∧ ∀ Q ∈ S, g₂ * Q = Q * g₁ := by
  obtain ⟨S, h1, h2, _⟩ := C16_rep_infer_change_of_basis he hn r₁ r₂ hA hd hgap
  refine ⟨S, h1, fun Q hQ => ?_⟩
  obtain ⟨hX, hH⟩ := (h2 Q).1 (Submodule.subset_span hQ)
  exact expMap_intertwine hX hH hg₁ hg₂

/-- C16: representations of different algebras are rejected. -/
theorem C16_rep_infer_change_of_basis_guard (r₁ : Rep n h d₁) (r₂ : Rep n h d₂)
    (hA : ¬ AllCloseA r₁.A r₂.A) : Rep.inferChangeOfBasis eigh r₁ r₂ = .error .assertionError := by
  unfold Rep.inferChangeOfBasis pyAssert
  rw [if_neg hA]
  rfl

/-- The normal equations of `infer_change_of_basis` for spin 1/2 with itself. -/
theorem su2_normal (a b c d : ℂ) :
    ∑ g, ((su2.allGens g)ᴴ * (su2.allGens g * !![a, b; c, d] - !![a, b; c, d] * su2.allGens g) -
        (su2.allGens g * !![a, b; c, d] - !![a, b; c, d] * su2.allGens g) * (su2.allGens g)ᴴ) =
      !![a - d, 6 * b; 6 * c, d - a] := by
  have e0 : su2.allGens 0 = su2.X 0 := rfl
  have e1 : su2.allGens 1 = su2.X 1 := rfl
  have e2 : su2.allGens 2 = su2.X 2 := rfl
  have e3 : su2.allGens 3 = su2.H 0 := rfl
  have hX : ∀ a, (su2.X a)ᴴ = - su2.X a := su2_unitary.2
  have hH : (su2.H 0)ᴴ = su2.H 0 := by
    ext i j; fin_cases i <;> fin_cases j <;> simp [su2]
  rw [Fin.sum_univ_four, e0, e1, e2, e3, hX, hX, hX, hH]
  ext i j
  fin_cases i <;> fin_cases j <;> simp [su2] <;> ring_nf <;> simp [Complex.I_sq] <;> ring

/-- The gap hypothesis for spin 1/2 with itself. -/
theorem su2_gap {e : ℝ} (hle : e ≤ 2) : Gap e (icobMatrix su2.allGens su2.allGens) := by
  apply gap_icob
  intro μ S hS hev hμ
  rw [Matrix.eta_fin_two S, su2_normal] at hev
  have h00 := congrFun (congrFun hev 0) 0
  have h01 := congrFun (congrFun hev 0) 1
  have h10 := congrFun (congrFun hev 1) 0
  have h11 := congrFun (congrFun hev 1) 1
  simp at h00 h01 h10 h11
  have hμ' : (μ : ℂ) ≠ 0 := by exact_mod_cast hμ.ne'
  have hadd : S 1 1 = - S 0 0 := by
    have : (μ : ℂ) * (S 0 0 + S 1 1) = 0 := by linear_combination -h00 - h11
    rcases mul_eq_zero.1 this with h | h
    · exact absurd h hμ'
    · linear_combination h
  have hmu : μ = 2 ∨ μ = 6 := by
    by_contra hne
    push Not at hne
    apply hS
    have c1 : (μ : ℂ) ≠ 2 := by exact_mod_cast hne.1
    have c2 : (μ : ℂ) ≠ 6 := by exact_mod_cast hne.2
    have h0 : S 0 0 = 0 := by
      have : ((μ : ℂ) - 2) * S 0 0 = 0 := by rw [hadd] at h00; linear_combination -h00
      rcases mul_eq_zero.1 this with h | h
      · exact absurd (sub_eq_zero.1 h) c1
      · exact h
    have h2 : S 1 1 = 0 := by rw [hadd, h0, neg_zero]
    have h3 : S 0 1 = 0 := by
      rcases h01 with h | h
      · exact absurd h.symm c2
      · exact h
    have h4 : S 1 0 = 0 := by
      rcases h10 with h | h
      · exact absurd h.symm c2
      · exact h
    ext i j
    fin_cases i <;> fin_cases j <;> assumption
  rcases hmu with h | h <;> rw [h] <;> linarith

/-- Non-vacuity: spin 1/2 with itself satisfies the hypotheses. -/
example : EighSpec exactEigh ∧ AllCloseA su2.A su2.A ∧
    Gap (1 / 10 ^ 4) (icobMatrix su2.allGens su2.allGens) :=
  ⟨exactEigh_spec, fun _ _ _ => isClose_refl (by positivity) (by positivity) _,
    su2_gap (by norm_num)⟩

/-! ## C17: `is_irreducible` -/

/-- C17: for generators that are anti-hermitian or unitary, `is_irreducible` answers `True` exactly
for the irreducible families. -/
theorem C17_is_irreducible_unitary (he : EighSpec eigh) (heps : 0 < eps) (hn : n ≠ 0)
    (X : Fin n → Matrix (Fin d) (Fin d) ℂ) (hX : ∀ a, (X a)ᴴ = -X a ∨ (X a)ᴴ * X a = 1)
    (hd : (d * d : ℕ) * eps ^ 2 < 1) (hgap : Gap eps (icobMatrix X X)) :
    ∃ b, isIrreducible eigh eps X = .ok b ∧ (b = true ↔ IrreducibleFamily X) := by
  obtain ⟨S, h1, _, h3, _⟩ := inferChangeOfBasis_spec he heps hn X X hd hgap
  refine ⟨decide (S.length = 1), by unfold isIrreducible; rw [h1]; rfl, ?_⟩
  rw [decide_eq_true_iff, h3]
  exact ⟨irreducible_of_finrank hX, finrank_commutant_of_irreducible⟩

/-- C17: for arbitrary generators, irreducible families are answered `True`. -/
theorem C17_is_irreducible_of_irreducible (he : EighSpec eigh) (heps : 0 < eps) (hn : n ≠ 0)
    (X : Fin n → Matrix (Fin d) (Fin d) ℂ)
    (hd : (d * d : ℕ) * eps ^ 2 < 1) (hgap : Gap eps (icobMatrix X X)) (hX : IrreducibleFamily X) :
    isIrreducible eigh eps X = .ok true := by
  obtain ⟨S, h1, _, h3, _⟩ := inferChangeOfBasis_spec he heps hn X X hd hgap
  rw [finrank_commutant_of_irreducible hX] at h3
  unfold isIrreducible
  rw [h1]
  simp [bind, Except.bind, h3, pure, Except.pure]

/-- The generators `diag(1, -1)` and `E₁₂`: reducible, but only scalars commute with them. -/
def borel : Fin 2 → Matrix (Fin 2) (Fin 2) ℂ := ![!![1, 0; 0, -1], !![0, 1; 0, 0]]

/-- C17 (defect): without unitarity `is_irreducible` answers `True` for a reducible family, at the
default `epsilon = 1e-10` (and every `epsilon ≤ 1/3`). -/
theorem C17_is_irreducible_non_unitary_false (he : EighSpec eigh) (heps : 0 < eps)
    (hle : eps ≤ 1 / 3) :
    isIrreducible eigh eps borel = .ok true ∧ ¬ IrreducibleFamily borel := by
  have hgap : Gap eps (icobMatrix borel borel) := by
    apply gap_icob
    intro μ S hS hev hμ
    have hH0 : (borel 0)ᴴ = !![1, 0; 0, -1] := by
      ext i j; fin_cases i <;> fin_cases j <;> simp [borel]
    have hH1 : (borel 1)ᴴ = !![0, 0; 1, 0] := by
      ext i j; fin_cases i <;> fin_cases j <;> simp [borel]
    rw [Fin.sum_univ_two, hH0, hH1, Matrix.eta_fin_two S] at hev
    have h00 := congrFun (congrFun hev 0) 0
    have h01 := congrFun (congrFun hev 0) 1
    have h10 := congrFun (congrFun hev 1) 0
    have h11 := congrFun (congrFun hev 1) 1
    simp [borel] at h00 h01 h10 h11
    have hμ' : (μ : ℂ) ≠ 0 := by exact_mod_cast hμ.ne'
    have hmu : μ = 2 ∨ μ = 4 ∨ μ = 6 := by
      by_contra hne
      push Not at hne
      apply hS
      have c1 : (μ : ℂ) ≠ 2 := by exact_mod_cast hne.1
      have c2 : (μ : ℂ) ≠ 4 := by exact_mod_cast hne.2.1
      have c3 : (μ : ℂ) ≠ 6 := by exact_mod_cast hne.2.2
      have hadd : S 1 1 = - S 0 0 := by
        have : (μ : ℂ) * (S 0 0 + S 1 1) = 0 := by linear_combination -h00 - h11
        rcases mul_eq_zero.1 this with h | h
        · exact absurd h hμ'
        · linear_combination h
      have h0 : S 0 0 = 0 := by
        have : ((μ : ℂ) - 2) * S 0 0 = 0 := by rw [hadd] at h00; linear_combination -h00
        rcases mul_eq_zero.1 this with h | h
        · exact absurd (sub_eq_zero.1 h) c1
        · exact h
      have h2 : S 1 1 = 0 := by rw [hadd, h0, neg_zero]
      have h3 : S 0 1 = 0 := by
        have : ((μ : ℂ) - 4) * S 0 1 = 0 := by linear_combination -h01
        rcases mul_eq_zero.1 this with h | h
        · exact absurd (sub_eq_zero.1 h) c2
        · exact h
      have h4 : S 1 0 = 0 := by
        have : ((μ : ℂ) - 6) * S 1 0 = 0 := by linear_combination -h10
        rcases mul_eq_zero.1 this with h | h
        · exact absurd (sub_eq_zero.1 h) c3
        · exact h
      ext i j
      fin_cases i <;> fin_cases j <;> assumption
    rcases hmu with h | h | h <;> rw [h] <;> linarith
  have hrank : Module.finrank ℂ (intertwiners borel borel) = 1 := by
    rw [finrank_eq_one_iff']
    refine ⟨⟨1, one_mem_intertwiners borel⟩, fun h0 => one_ne_zero (congrArg Subtype.val h0), ?_⟩
    rintro ⟨S, hS⟩
    refine ⟨S 0 0, Subtype.ext ?_⟩
    have h0 := hS 0
    have h1 := hS 1
    rw [Matrix.eta_fin_two S] at h0 h1
    have a01 := congrFun (congrFun h0 0) 1
    have a10 := congrFun (congrFun h0 1) 0
    have b01 := congrFun (congrFun h1 0) 1
    simp [borel] at a01 a10 b01
    have e01 : S 0 1 = 0 := by linear_combination a01 / 2
    have e10 : S 1 0 = 0 := by linear_combination -a10 / 2
    ext i j
    fin_cases i <;> fin_cases j <;> simp [e01, e10, b01]
  refine ⟨?_, ?_⟩
  · obtain ⟨S, h1, _, h3, _⟩ := inferChangeOfBasis_spec he heps (by norm_num) borel borel (by
      norm_num
      nlinarith) hgap
    rw [hrank] at h3
    unfold isIrreducible
    rw [h1]
    simp [bind, Except.bind, h3, pure, Except.pure]
  · rintro ⟨_, hirr⟩
    rcases hirr (Submodule.span ℂ {![1, 0]}) (by
      intro a w hw
      obtain ⟨c, rfl⟩ := Submodule.mem_span_singleton.1 hw
      rw [mulVec_smul]
      refine Submodule.smul_mem _ _ ?_
      rw [Submodule.mem_span_singleton]
      fin_cases a
      · exact ⟨1, by ext i; fin_cases i <;> simp [borel]⟩
      · exact ⟨0, by ext i; fin_cases i <;> simp [borel]⟩) with h | h
    · rw [Submodule.span_singleton_eq_bot] at h
      have := congrFun h 0
      simp at this
    · have : (![0, 1] : Fin 2 → ℂ) ∈ Submodule.span ℂ {(![1, 0] : Fin 2 → ℂ)} := by rw [h]; trivial
      obtain ⟨c, hc⟩ := Submodule.mem_span_singleton.1 this
      have := congrFun hc 1
      simp at this

/-- Non-vacuity: spin 1/2 of `su(2)` satisfies the hypotheses at `epsilon = 1e-10`. -/
example : (∀ a, (su2.allGens a)ᴴ = - su2.allGens a ∨ (su2.allGens a)ᴴ * su2.allGens a = 1) ∧
    ((2 * 2 : ℕ) : ℝ) * (1 / 10 ^ 10) ^ 2 < 1 ∧
    Gap (1 / 10 ^ 10) (icobMatrix su2.allGens su2.allGens) := by
  refine ⟨fun a => ?_, by norm_num, su2_gap (by norm_num)⟩
  refine Fin.addCases (fun a => Or.inl ?_) (fun a => Or.inr ?_) a
  · have : su2.allGens (Fin.castAdd 1 a) = su2.X a := by simp [Rep.allGens]
    rw [this, su2_unitary.2 a]
  · have : su2.allGens (Fin.natAdd 3 a) = su2.H a := by simp [Rep.allGens]
    rw [this]
    exact mul_eq_one_comm.1 (su2_unitary.1 a)

/-! ## C31: generic `clebsch_gordan` -/

/-- C31: every tensor returned by the generic `clebsch_gordan` is equivariant for all continuous
and discrete generators, the returned tensors are linearly independent, and every equivariant
tensor is a combination of them. -/
theorem C31_clebsch_gordan (he : EighSpec eigh) (hn : n + h ≠ 0) (r₁ : Rep n h d₁)
    (r₂ : Rep n h d₂) (r₃ : Rep n h d₃) (h₁₂ : AllCloseA r₁.A r₂.A) (h₁₃ : AllCloseA r₁.A r₃.A)
    (hd : d₃ * (d₁ * d₂) < 10 ^ 8)
    (hgap : Gap (1 / 10 ^ 4) (icobMatrix r₃.allGens (r₁.tensorProduct r₂).allGens)) :
    ∃ S, Rep.clebschGordan eigh r₁ r₂ r₃ = .ok S ∧ (∀ C ∈ S, IsCG r₁ r₂ r₃ C) ∧
      (∀ C, IsCG r₁ r₂ r₃ C → C ∈ mspan S) ∧ S.length = Module.finrank ℂ (mspan S) := by
  obtain ⟨S, h1, h2, h3⟩ := clebschGordan_spec he hn r₁ r₂ r₃ h₁₂ h₁₃ hd hgap
  exact ⟨S, h1, fun C hC => (h2 C).1 (Submodule.subset_span hC), fun C hC => (h2 C).2 hC, h3⟩

/-- C31 (group level): an equivariant tensor commutes with the group actions:
`C (g₁ ⊗ g₂) = g₃ C`. -/
theorem C31_clebsch_gordan_exp_map (r₁ : Rep n h d₁) (r₂ : Rep n h d₂) (r₃ : Rep n h d₃)
    (C : Fin d₁ → Fin d₂ → Fin d₃ → ℂ) (hC : IsCG r₁ r₂ r₃ C) (c : Fin n → ℂ) (k : Fin h → ℤ)
    (g₁ : Matrix (Fin d₁) (Fin d₁) ℂ) (g₂ : Matrix (Fin d₂) (Fin d₂) ℂ)
    (g₃ : Matrix (Fin d₃) (Fin d₃) ℂ) (h₁ : r₁.expMap c k = .ok g₁) (h₂ : r₂.expMap c k = .ok g₂)
    (h₃ : r₃.expMap c k = .ok g₃) (i : Fin d₁) (j : Fin d₂) (l : Fin d₃) :
    ∑ i', ∑ j', g₁ i' i * g₂ j' j * C i' j' l = ∑ k', g₃ l k' * C i j k' := by
  have e : cgOf ((cgL d₁ d₂ d₃).symm C) = C := (cgL d₁ d₂ d₃).apply_symm_apply C
  rw [← e, isCG_iff] at hC
  obtain ⟨hX, hH⟩ := (allGens_iff _).1 hC
  have := congrFun (congrFun (expMap_intertwine hX hH (expMap_tensorProduct h₁ h₂) h₃) l)
    (finProdFinEquiv (i, j))
  rw [Matrix.mul_apply, Matrix.mul_apply,
    ← finProdFinEquiv.sum_comp (fun p => _ * kron g₁ g₂ p _), Fintype.sum_prod_type] at this
  have e' : ∀ i j k, (cgL d₁ d₂ d₃).symm C k (finProdFinEquiv (i, j)) = C i j k :=
    fun i j k => congrFun (congrFun (congrFun e i) j) k
  simp only [e', kron_apply] at this
  rw [this]
  refine Finset.sum_congr rfl fun i' _ => Finset.sum_congr rfl fun j' _ => ?_
  ring

/-- Non-vacuity: (spin 1/2) x (trivial) -> (spin 1/2) satisfies the hypotheses. -/
example : AllCloseA su2.A su2.createTrivial.A ∧ 2 * (2 * 1) < 10 ^ 8 ∧
    Gap (1 / 10 ^ 4) (icobMatrix su2.allGens
      (su2.tensorProduct (su2.createTrivial)).allGens) := by
  refine ⟨fun _ _ _ => isClose_refl (by positivity) (by positivity) _, by norm_num, ?_⟩
  have key : (su2.tensorProduct (su2.createTrivial)).allGens = su2.allGens := by
    have hdm : ∀ i : Fin (2 * 1), i.divNat = (i : Fin 2) := by
      intro i; fin_cases i <;> rfl
    funext a
    refine Fin.addCases (fun a => ?_) (fun a => ?_) a
    · have e1 : (su2.tensorProduct (su2.createTrivial)).allGens (Fin.castAdd 1 a) =
          (su2.tensorProduct (su2.createTrivial)).X a := by simp [Rep.allGens]
      have e2 : su2.allGens (Fin.castAdd 1 a) = su2.X a := by simp [Rep.allGens]
      rw [e1, e2]
      funext i j
      simp only [Rep.tensorProduct, Rep.createTrivial, kron, Matrix.add_apply, hdm]
      have hone : (1 : Matrix (Fin 1) (Fin 1) ℂ) i.modNat j.modNat = 1 := by
        rw [Matrix.one_apply, if_pos (Subsingleton.elim _ _)]
      rw [hone]
      simp
    · have e1 : (su2.tensorProduct (su2.createTrivial)).allGens (Fin.natAdd 3 a) =
          (su2.tensorProduct (su2.createTrivial)).H a := by simp [Rep.allGens]
      have e2 : su2.allGens (Fin.natAdd 3 a) = su2.H a := by simp [Rep.allGens]
      rw [e1, e2]
      funext i j
      simp only [Rep.tensorProduct, Rep.createTrivial, kron, hdm]
      simp
  rw [key]
  exact su2_gap (by norm_num)

end LieNN.Props
