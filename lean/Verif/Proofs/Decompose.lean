import Verif.Proofs.Unique
import Verif.Proofs.Intertwiner
/-!
# `decompose_rep_into_irreps`
-/
namespace LieNN

open Matrix Spec

variable {n d : ℕ} {eps : ℝ}

/-- Entrywise complex conjugation of a vector. -/
noncomputable def conjVec (v : Vec d) : Vec d := WithLp.toLp 2 fun i => starRingEnd ℂ (v i)

theorem gramRows_eq (B : List (Vec d)) (i : Fin d) :
    (B.map fun b => starRingEnd ℂ (b i) • b).sum = ∑ k : Fin B.length, starRingEnd ℂ ((B.get k) i) • B.get k := by
  rw [← List.sum_ofFn]
  congr 1
  apply List.ext_getElem <;> simp

/-- The second orthonormalisation does not change the span. -/
theorem blockRows_span (heps : 0 ≤ eps) (hd : d * eps ^ 2 < 1) (W : List (Vec d)) :
    lspan (blockRows eps W) = lspan (gramSchmidt eps W) := by
  set B := gramSchmidt eps W with hB
  have hO : OList B := gsLoop_oList heps _ _ ⟨by simp, List.Pairwise.nil⟩
  have ho := hO.orthonormal
  refine gsLoop_full heps hd (lspan B) (fun i => EuclideanSpace.single i (1 : ℂ))
    (fun i => (B.map fun b => starRingEnd ℂ (b i) • b).sum) pars_single ?_ _ _ ?_ ?_ (by simp)
  · intro i u hu
    rw [gramRows_eq]
    induction hu using Submodule.span_induction with
    | mem x hx =>
      obtain ⟨k, hk⟩ := List.mem_iff_get.1 hx
      rw [inner_sum, Finset.sum_eq_single k]
      · rw [← hk, inner_smul_right, inner_self_eq_norm_sq_to_K, ho.1 k,
          EuclideanSpace.inner_single_right]
        simp
      · intro j _ hj
        rw [← hk, inner_smul_right, ho.2 (Ne.symm hj), mul_zero]
      · intro h; exact absurd (Finset.mem_univ k) h
    | zero => simp
    | add x y _ _ hx hy => rw [inner_add_left, hx, hy, inner_add_left]
    | smul c x _ hx => rw [inner_smul_left, hx, inner_smul_left]
  · intro x hx
    obtain ⟨i, rfl⟩ := (List.mem_ofFn' _ _).1 hx
    show (B.map fun b => starRingEnd ℂ (b i) • b).sum ∈ lspan B
    rw [gramRows_eq]
    exact Submodule.sum_mem _ fun k _ => Submodule.smul_mem _ _ (mem_lspan (List.get_mem _ _))
  · intro i
    exact (List.mem_ofFn' _ _).2 ⟨i, rfl⟩

theorem blockRows_oList (heps : 0 ≤ eps) (W : List (Vec d)) : OList (blockRows eps W) :=
  gsLoop_oList heps _ _ ⟨by simp, List.Pairwise.nil⟩

/-- The columns `conj(B_j)`. -/
noncomputable def blockCols (B : List (Vec d)) : Matrix (Fin d) (Fin B.length) ℂ :=
  fun p j => starRingEnd ℂ ((B.get j) p)

theorem blockCols_isometry {B : List (Vec d)} (hB : OList B) :
    (blockCols B)ᴴ * blockCols B = 1 := by
  have ho := orthonormal_iff_ite.1 hB.orthonormal
  ext i j
  rw [Matrix.mul_apply, Matrix.one_apply]
  have := ho j i
  rw [EuclideanSpace.inner_eq_star_dotProduct, dotProduct] at this
  simp only [conjTranspose_apply, blockCols, Complex.star_def, Complex.conj_conj]
  rw [show (if i = j then (1 : ℂ) else 0) = if j = i then 1 else 0 by simp [eq_comm], ← this]
  rfl

theorem compress_eq (X : Matrix (Fin d) (Fin d) ℂ) (B : List (Vec d)) :
    compress X B = (blockCols B)ᴴ * X * blockCols B := by
  ext i j
  simp only [compress, Matrix.mul_apply, conjTranspose_apply, blockCols, Complex.star_def,
    Complex.conj_conj, Finset.sum_mul]
  rw [Finset.sum_comm]

/-- If the span of the rows is invariant under `conj(X)`, the compression is a
sub-representation. -/
theorem compress_intertwines {X : Matrix (Fin d) (Fin d) ℂ} {B : List (Vec d)} (hB : OList B)
    (hinv : ∀ x ∈ lspan B, conjVec (WithLp.toLp 2 (X *ᵥ (conjVec x).ofLp)) ∈ lspan B) :
    X * blockCols B = blockCols B * compress X B := by
  have hcol : ∀ j : Fin B.length, ∃ c : Fin B.length → ℂ,
      X *ᵥ (fun p => blockCols B p j) = blockCols B *ᵥ c := by
    intro j
    have h1 := hinv (B.get j) (mem_lspan (List.get_mem _ _))
    rw [lspan_eq_range, Submodule.mem_span_range_iff_exists_fun] at h1
    obtain ⟨c, hc⟩ := h1
    refine ⟨fun i => starRingEnd ℂ (c i), ?_⟩
    funext p
    have h2 := congrArg (fun v : Vec d => starRingEnd ℂ (v p)) hc
    simp only [WithLp.ofLp_sum, WithLp.ofLp_smul, Finset.sum_apply, Pi.smul_apply, smul_eq_mul,
      map_sum, map_mul, conjVec, Complex.conj_conj] at h2
    simp only [mulVec, dotProduct, blockCols]
    rw [show (∑ x, X p x * starRingEnd ℂ ((B.get j).ofLp x)) =
      (X *ᵥ fun i => starRingEnd ℂ ((B.get j).ofLp i)) p from rfl, ← h2]
    exact Finset.sum_congr rfl fun i _ => mul_comm _ _
  choose c hc using hcol
  have hXC : X * blockCols B = blockCols B * (Matrix.of fun i j => c j i) := by
    ext p j
    have := congrFun (hc j) p
    exact this
  have hY : compress X B = Matrix.of fun i j => c j i := by
    rw [compress_eq, Matrix.mul_assoc, hXC, ← Matrix.mul_assoc, blockCols_isometry hB,
      Matrix.one_mul]
  rw [hY, hXC]

/-- The columns of cluster `c`. -/
def clusterCols (vec : Fin d → Vec d) (inv : Fin d → ℕ) (c : ℕ) : List (Vec d) :=
  ((List.finRange d).filter fun i => inv i = c).map vec

theorem mem_clusterCols {vec : Fin d → Vec d} {inv : Fin d → ℕ} {c : ℕ} {x : Vec d} :
    x ∈ clusterCols vec inv c ↔ ∃ k, inv k = c ∧ vec k = x := by
  simp [clusterCols]

/-- An eigenspace of a diagonalisable matrix is contained in the span of its cluster. -/
theorem eigenspace_le_cluster {M : Matrix (Fin d) (Fin d) ℂ}
    {val : Fin d → ℂ} {vec : Fin d → Vec d}
    (hev : ∀ k, M *ᵥ (vec k).ofLp = val k • (vec k).ofLp) (hli : LinearIndependent ℂ vec)
    {inv : Fin d → ℕ} (hinv : ∀ k l, val k = val l → inv k = inv l) {k : Fin d} {y : Vec d}
    (hy : M *ᵥ y.ofLp = val k • y.ofLp) : y ∈ lspan (clusterCols vec inv (inv k)) := by
  have htop := hli.span_eq_top_of_card_eq_finrank' (by simp)
  have hmem : y ∈ Submodule.span ℂ (Set.range vec) := by
    rw [htop]; trivial
  obtain ⟨t, ht⟩ := (Submodule.mem_span_range_iff_exists_fun ℂ).1 hmem
  have ht' : y.ofLp = ∑ l, t l • (vec l).ofLp := by
    have := congrArg WithLp.ofLp ht
    simpa using this.symm
  have hzero : ∑ l, (t l * (val l - val k)) • vec l = 0 := by
    apply WithLp.ofLp_injective
    have h1 : M *ᵥ (∑ l, t l • (vec l).ofLp) = ∑ l, (t l * val l) • (vec l).ofLp := by
      rw [mulVec_sum]
      refine Finset.sum_congr rfl fun l _ => ?_
      rw [mulVec_smul, hev, smul_smul]
    rw [ht', h1] at hy
    have h2 : ∑ l, (t l * (val l - val k)) • (vec l).ofLp = 0 := by
      have : ∑ l, (t l * (val l - val k)) • (vec l).ofLp =
          ∑ l, (t l * val l) • (vec l).ofLp - val k • ∑ l, t l • (vec l).ofLp := by
        rw [Finset.smul_sum, ← Finset.sum_sub_distrib]
        refine Finset.sum_congr rfl fun l _ => ?_
        rw [smul_smul, ← sub_smul]
        congr 1; ring
      rw [this, hy, sub_self]
    simpa using h2
  have hcoef := Fintype.linearIndependent_iff.1 hli _ hzero
  rw [← ht]
  refine Submodule.sum_mem _ fun l _ => ?_
  rcases mul_eq_zero.1 (hcoef l) with h0 | h0
  · rw [h0, zero_smul]; exact Submodule.zero_mem _
  · exact Submodule.smul_mem _ _ (mem_lspan
      (mem_clusterCols.2 ⟨l, hinv l k (sub_eq_zero.1 h0), rfl⟩))

/-- A subspace spanned by a list is invariant under a conjugate-linear or linear map as soon as the
elements of the list are sent into it. -/
theorem lspan_invariant {W : List (Vec d)} {K : Submodule ℂ (Vec d)} {f : Vec d → Vec d}
    (hadd : ∀ x y, f (x + y) = f x + f y) (hsmul : ∀ (c : ℂ) x, ∃ c' : ℂ, f (c • x) = c' • f x)
    (h : ∀ w ∈ W, f w ∈ K) : ∀ x ∈ lspan W, f x ∈ K := by
  intro x hx
  induction hx using Submodule.span_induction with
  | mem x hx => exact h x hx
  | zero =>
    have : f 0 + f 0 = f 0 := by rw [← hadd, add_zero]
    rw [left_eq_add.1 this.symm]
    exact K.zero_mem
  | add x y _ _ hx hy => rw [hadd]; exact K.add_mem hx hy
  | smul c x _ hx =>
    obtain ⟨c', hc⟩ := hsmul c x
    rw [hc]; exact K.smul_mem _ hx

/-- The columns of an eigenvalue cluster span an invariant subspace of every matrix commuting with
`M`. -/
theorem cluster_invariant {M X : Matrix (Fin d) (Fin d) ℂ} (hcomm : X * M = M * X)
    {val : Fin d → ℂ} {vec : Fin d → Vec d}
    (hev : ∀ k, M *ᵥ (vec k).ofLp = val k • (vec k).ofLp) (hli : LinearIndependent ℂ vec)
    {inv : Fin d → ℕ} (hinv : ∀ k l, val k = val l → inv k = inv l) (c : ℕ) :
    ∀ x ∈ lspan (clusterCols vec inv c),
      (WithLp.toLp 2 (X *ᵥ x.ofLp) : Vec d) ∈ lspan (clusterCols vec inv c) := by
  apply lspan_invariant (f := fun x => WithLp.toLp 2 (X *ᵥ x.ofLp))
  · intro x y
    simp only [WithLp.ofLp_add, mulVec_add]; rfl
  · intro c x
    refine ⟨c, ?_⟩
    simp only [WithLp.ofLp_smul, mulVec_smul]; rfl
  · intro w hw
    obtain ⟨k, rfl, rfl⟩ := mem_clusterCols.1 hw
    apply eigenspace_le_cluster hev hli hinv
    simp only
    rw [mulVec_mulVec, ← hcomm, ← mulVec_mulVec, hev, mulVec_smul]

theorem conjVec_add (x y : Vec d) : conjVec (x + y) = conjVec x + conjVec y := by
  ext i; simp [conjVec]

theorem conjVec_smul (c : ℂ) (x : Vec d) : conjVec (c • x) = starRingEnd ℂ c • conjVec x := by
  ext i; simp [conjVec]

theorem cluster_conj {M : Matrix (Fin d) (Fin d) ℂ}
    {val : Fin d → ℂ} {vec : Fin d → Vec d}
    (hev : ∀ k, M *ᵥ (vec k).ofLp = val k • (vec k).ofLp) (hli : LinearIndependent ℂ vec)
    {inv : Fin d → ℕ} (hinv : ∀ k l, val k = val l → inv k = inv l)
    (hconj : ∀ (x : Vec d) (μ : ℂ), M *ᵥ x.ofLp = μ • x.ofLp →
      M *ᵥ (conjVec x).ofLp = μ • (conjVec x).ofLp) (c : ℕ) :
    ∀ x ∈ lspan (clusterCols vec inv c), conjVec x ∈ lspan (clusterCols vec inv c) := by
  apply lspan_invariant (f := conjVec) conjVec_add (fun c x => ⟨_, conjVec_smul c x⟩)
  intro w hw
  obtain ⟨k, rfl, rfl⟩ := mem_clusterCols.1 hw
  exact eigenspace_le_cluster hev hli hinv (hconj _ _ (hev k))

theorem finrank_clusterCols {vec : Fin d → Vec d} (hli : LinearIndependent ℂ vec)
    (inv : Fin d → ℕ) (c : ℕ) :
    Module.finrank ℂ (lspan (clusterCols vec inv c)) =
      (Finset.univ.filter fun i => inv i = c).card := by
  have h1 : LinearIndependent ℂ (fun i : {i // inv i = c} => vec i) :=
    hli.comp _ Subtype.val_injective
  have h2 : lspan (clusterCols vec inv c) =
      Submodule.span ℂ (Set.range fun i : {i // inv i = c} => vec i) := by
    unfold lspan
    congr 1
    ext x
    simp only [Set.mem_ofPred_eq, mem_clusterCols, Set.mem_range, Subtype.exists, exists_prop]
  rw [h2, finrank_span_eq_card h1, Fintype.card_subtype]

/-- What `eigenspaces` returns. -/
theorem eigenspaces_spec (heps : 0 < eps) (hd : d ≠ 0) {val : Fin d → ℂ} {vec : Fin d → Vec d}
    {fuel : ℕ} (hf : d < fuel) {out : List (ℂ × List (Vec d))}
    (h : eigenspaces eps val vec fuel = some (.ok out)) :
    ∃ k inv, ∃ first : Fin k → Fin d, IsClustering eps val k inv first ∧
      out = (List.range k).map fun c => (clusterCenter val inv c, clusterCols vec inv c) := by
  rcases uniqueWithTol_spec (a := val) heps hd fuel hf with ⟨k, inv, first, hcl, hrun⟩ | ⟨hrun, _⟩
  · refine ⟨k, inv, first, hcl, ?_⟩
    unfold eigenspaces at h
    rw [hrun] at h
    simp only [Option.some.injEq, Except.ok.injEq] at h
    rw [← h]
    apply List.ext_getElem
    · simp
    · intro i h1 h2
      simp [clusterCols]
  · unfold eigenspaces at h
    rw [hrun] at h
    cases h

theorem clustering_eq {val : Fin d → ℂ} {k : ℕ} {inv : Fin d → ℕ} {first : Fin k → Fin d}
    (h : IsClustering eps val k inv first) {i j : Fin d} (hij : val i = val j) : inv i = inv j := by
  have h1 := (h.mem_iff i ⟨inv i, h.lt i⟩).1 rfl
  rw [hij] at h1
  exact ((h.mem_iff j ⟨inv i, h.lt i⟩).2 h1).symm

/-- The run of `decompose_rep_into_irreps` when the eigenvalues can be clustered. -/
theorem decomposeFrom_run (heps : 0 < eps) (hd : d ≠ 0) (X : Fin n → Matrix (Fin d) (Fin d) ℂ)
    (M : Matrix (Fin d) (Fin d) ℂ) (eig : EigFn) {k : ℕ} {inv : Fin d → ℕ} {first : Fin k → Fin d}
    (hcl : IsClustering eps (eig d M).1 k inv first) (fuel : ℕ) (hf : d < fuel) :
    ∃ k' : ℕ, (∀ i, inv i < k') ∧ decomposeFrom eig eps X M fuel =
      some (.ok ((List.range k').map fun c =>
        ⟨(blockRows eps (clusterCols (eig d M).2 inv c)).length,
          fun a => compress (X a) (blockRows eps (clusterCols (eig d M).2 inv c))⟩)) := by
  rcases uniqueWithTol_spec (a := (eig d M).1) heps hd fuel hf with
    ⟨k', inv', first', hcl', hrun⟩ | ⟨_, hno⟩
  · have hu : inv' = inv := by
      have hk : k ≤ d := by simpa using Fintype.card_le_of_injective first hcl.mono.injective
      have hk' : k' ≤ d := by simpa using Fintype.card_le_of_injective first' hcl'.mono.injective
      rcases uwtLoop_complete hcl (d + 1) (fun _ => none) 0 (by intro j; simp) (by omega) with h1 | h1
      · rcases uwtLoop_complete hcl' (d + 1) (fun _ => none) 0 (by intro j; simp) (by omega)
          with h2 | h2
        · rw [h1] at h2
          simp only [Option.some.injEq, Except.ok.injEq] at h2
          funext j
          exact (Option.some.inj (congrFun h2 j)).symm
        · omega
      · omega
    subst hu
    refine ⟨k', hcl'.lt, ?_⟩
    unfold decomposeFrom eigenspaces
    rw [hrun]
    have hl : ((List.range k').map (clusterCenter (eig d M).1 inv')).mapIdx (fun j v =>
        (v, ((List.finRange d).filter fun i => inv' i = j).map (eig d M).2)) =
        (List.range k').map fun c => (clusterCenter (eig d M).1 inv' c, clusterCols (eig d M).2 inv' c) := by
      apply List.ext_getElem
      · simp
      · intro i h1 h2
        simp [clusterCols]
    simp only
    rw [hl, List.map_map]
    rfl
  · exact absurd ⟨k, inv, first, hcl⟩ hno

theorem gsReduce_of_orth {E : Type*} [NormedAddCommGroup E] [InnerProductSpace ℂ E] {Q : List E}
    {v : E} (h : ∀ q ∈ Q, inner ℂ q v = 0) : gsReduce Q v = v := by
  induction Q with
  | nil => rfl
  | cons w Q ih =>
    rw [gsReduce_cons, h w (by simp), zero_smul, sub_zero]
    exact ih fun q hq => h q (by simp [hq])

/-- `gram_schmidt` leaves an orthonormal family unchanged. -/
theorem gsLoop_of_orthonormal {E : Type*} [NormedAddCommGroup E] [InnerProductSpace ℂ E]
    {eps : ℝ} (heps : eps < 1) (A Q : List E) (h : OList (Q ++ A)) : gsLoop eps A Q = Q ++ A := by
  induction A generalizing Q with
  | nil => simp [gsLoop]
  | cons a A ih =>
    have hr : gsReduce Q a = a := gsReduce_of_orth fun q hq =>
      (List.pairwise_append.1 h.pw).2.2 q hq a (by simp)
    have hn : ‖a‖ = 1 := h.norm a (by simp)
    rw [gsLoop_cons, hr, if_pos (by rw [hn]; exact heps), hn]
    simp only [inv_one, Complex.ofReal_one, one_smul]
    rw [ih]
    · simp
    · simpa using h

theorem gramSchmidt_of_orthonormal {E : Type*} [NormedAddCommGroup E] [InnerProductSpace ℂ E]
    {eps : ℝ} (heps : eps < 1) {A : List E} (h : OList A) : gramSchmidt eps A = A :=
  gsLoop_of_orthonormal heps A [] h

theorem oList_sublist {E : Type*} [NormedAddCommGroup E] [InnerProductSpace ℂ E] {A B : List E}
    (h : A.Sublist B) (hB : OList B) : OList A :=
  ⟨fun q hq => hB.norm q (h.subset hq), hB.pw.sublist h⟩

theorem oList_ofFn {E : Type*} [NormedAddCommGroup E] [InnerProductSpace ℂ E] {k : ℕ}
    {v : Fin k → E} (h : Orthonormal ℂ v) : OList (List.ofFn v) := by
  refine ⟨?_, ?_⟩
  · intro q hq
    obtain ⟨i, rfl⟩ := (List.mem_ofFn' _ _).1 hq
    exact h.1 i
  · rw [List.pairwise_ofFn]
    intro i j hij
    exact h.2 hij.ne

end LieNN
