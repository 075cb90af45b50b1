import Verif.Proofs.Decompose
import Verif.Proofs.IntertwinerRep
/-!
# C19, C20: clustering of eigenvalues and decomposition into sub-representations
-/
namespace LieNN.Props

open Matrix Spec

/-! ## C19: `unique_with_tol` -/

section C19

variable {E : Type*} [NormedAddCommGroup E] [NormedSpace ℝ E] {n : ℕ} {tol : ℝ} {a : Fin n → E}

/-- C19: on a non-empty array with `tol > 0` the loop ends; `unique_with_tol` returns a clustering
with the means as centers, or raises `ValueError` when there is no clustering at all. -/
theorem C19_unique_with_tol (htol : 0 < tol) (hn : n ≠ 0) (fuel : ℕ) (hf : n < fuel) :
    (∃ k inv first centers, uniqueWithTol tol a fuel = some (.ok ⟨centers, inv⟩) ∧
      IsClustering tol a k inv first ∧ centers.length = k ∧
      ∀ c (hc : c < centers.length), centers[c] =
        (((Finset.univ.filter fun j => inv j = c).card : ℝ))⁻¹ •
          ∑ j ∈ Finset.univ.filter (fun j => inv j = c), a j) ∨
    (uniqueWithTol tol a fuel = some (.error .valueError) ∧
      ¬ ∃ k inv, ∃ first : Fin k → Fin n, IsClustering tol a k inv first) := by
  rcases uniqueWithTol_spec (a := a) htol hn fuel hf with ⟨k, inv, first, hcl, hrun⟩ | h
  · left
    refine ⟨k, inv, first, _, hrun, hcl, by simp, ?_⟩
    intro c hc
    simp [clusterCenter]
  · exact Or.inr h

omit [NormedSpace ℝ E] in
/-- C19: a clustering is unique. -/
theorem C19_clustering_unique {k k' : ℕ} {inv inv' : Fin n → ℕ}
    {first : Fin k → Fin n} {first' : Fin k' → Fin n} (h : IsClustering tol a k inv first)
    (h' : IsClustering tol a k' inv' first') : inv = inv' := by
  have hk : k ≤ n := by simpa using Fintype.card_le_of_injective first h.mono.injective
  have hk' : k' ≤ n := by simpa using Fintype.card_le_of_injective first' h'.mono.injective
  rcases uwtLoop_complete h (n + 1) (fun _ => none) 0 (by intro j; simp) (by omega) with h1 | h1
  · rcases uwtLoop_complete h' (n + 1) (fun _ => none) 0 (by intro j; simp) (by omega) with h2 | h2
    · rw [h1] at h2
      simp only [Option.some.injEq, Except.ok.injEq] at h2
      funext j
      exact Option.some.inj (congrFun h2 j)
    · omega
  · omega

/-- C19: the empty array makes `np.max` raise. -/
theorem C19_unique_with_tol_empty (a : Fin 0 → E) (fuel : ℕ) :
    uniqueWithTol tol a (fuel + 1) = some (.error .valueError) := by
  unfold uniqueWithTol
  rcases uwtLoop_succ (tol := tol) (a := a) fuel (fun _ => none) 0 with ⟨_, h⟩ | ⟨i, _⟩
  · rw [h]; rfl
  · exact i.elim0

/-- C19 (defect): with `tol ≤ 0` and a non-empty array the loop never ends. -/
theorem C19_unique_with_tol_nonpositive (htol : tol ≤ 0) (hn : n ≠ 0) (fuel : ℕ) :
    uniqueWithTol tol a fuel = none := by
  have key : ∀ (fuel : ℕ) (inv : Fin n → Option ℕ) (index : ℕ), (∀ j, inv j = none) →
      uwtLoop tol a fuel inv index = none := by
    intro fuel
    induction fuel with
    | zero => intro inv index _; rfl
    | succ fuel ih =>
      intro inv index hinv
      rcases uwtLoop_succ (tol := tol) (a := a) fuel inv index with
        ⟨hall, _⟩ | ⟨i, _, _, ⟨⟨j, _, hj⟩, _⟩ | ⟨_, inv', _, h2, hrun⟩⟩
      · exact absurd (hinv ⟨0, Nat.pos_of_ne_zero hn⟩) (hall _)
      · exact absurd (hinv j) hj
      · rw [hrun]
        apply ih
        intro j
        rw [h2 j (not_lt.2 (htol.trans (norm_nonneg _))), hinv j]
  unfold uniqueWithTol
  rw [key fuel _ 0 fun _ => rfl]

end C19

/-- Non-vacuity, and a consequence worth noting: `[0, 0.9, 2.5, 1.8]` with `tol = 1` has the
clustering `[0, 0, 1, 1]`, although `|0.9 - 1.8| < tol`. -/
theorem C19_example_ok : IsClustering (1 : ℝ) (![0, 9 / 10, 5 / 2, 9 / 5] : Fin 4 → ℝ) 2
    ![0, 0, 1, 1] ![0, 2] := by
  refine ⟨?_, ?_, ?_, ?_⟩
  · intro j; fin_cases j <;> simp
  · intro j c
    fin_cases j <;> fin_cases c <;> simp <;> norm_num [abs_lt, abs_le]
  · intro c c' h
    fin_cases c <;> fin_cases c' <;> simp_all
  · intro j c
    fin_cases j <;> fin_cases c <;> simp

/-- C19 (order dependence): the same four numbers with the first two exchanged have no clustering, so
`unique_with_tol` raises `ValueError`. -/
theorem C19_order_dependent :
    ¬ ∃ k inv, ∃ first : Fin k → Fin 4,
      IsClustering (1 : ℝ) (![9 / 10, 0, 5 / 2, 9 / 5] : Fin 4 → ℝ) k inv first := by
  rintro ⟨k, inv, first, h⟩
  -- element 0 is the first of its cluster
  have f0 : first ⟨inv 0, h.lt 0⟩ = 0 := le_antisymm (h.first_le 0 ⟨inv 0, h.lt 0⟩ rfl) (Fin.zero_le _)
  have m := fun j => h.mem_iff j ⟨inv 0, h.lt 0⟩
  rw [f0] at m
  have m1 : inv 1 = inv 0 := (m 1).2 (by simp; norm_num [abs_lt])
  have m3 : inv 3 = inv 0 := (m 3).2 (by simp; norm_num [abs_lt])
  have m2 : inv 2 ≠ inv 0 := by
    intro hc
    have := (m 2).1 hc
    simp only [Matrix.cons_val] at this
    norm_num [abs_lt] at this
  -- element 2 is the first of its cluster
  have f2 : first ⟨inv 2, h.lt 2⟩ = 2 := by
    have hle := h.first_le 2 ⟨inv 2, h.lt 2⟩ rfl
    have hin : inv (first ⟨inv 2, h.lt 2⟩) = inv 2 :=
      (h.mem_iff (first ⟨inv 2, h.lt 2⟩) ⟨inv 2, h.lt 2⟩).2 (by simp)
    generalize first ⟨inv 2, h.lt 2⟩ = i at hle hin
    fin_cases i
    · exact absurd hin.symm m2
    · exact absurd (hin.symm.trans m1) m2
    · rfl
    · exact absurd hle (by decide)
  have m' := h.mem_iff 3 ⟨inv 2, h.lt 2⟩
  rw [f2] at m'
  have : inv 3 = inv 2 := m'.2 (by simp; norm_num [abs_lt])
  exact m2 (this.symm.trans m3)

/-! ## C20: `decompose_rep_into_irreps` -/

section C20

variable {n d : ℕ} {eps : ℝ}

/-- The blocks computed from a commuting, diagonalisable matrix `M`: each block is the restriction
of the generators to an invariant subspace with orthonormal basis `V`, and the dimensions add up
to `d`.  Hypotheses: `M` commutes with the generators, `eig` returns a basis of eigenvectors of `M`,
`gram_schmidt` loses nothing on eigenvectors (`hgs`), and either the generators are real or the
eigenspaces of `M` are closed under complex conjugation. -/
theorem C20_decompose_from (heps : 0 < eps) (hd0 : d ≠ 0) (hd : d * eps ^ 2 < 1)
    (X : Fin n → Matrix (Fin d) (Fin d) ℂ) (M : Matrix (Fin d) (Fin d) ℂ) (eig : EigFn)
    (hcomm : ∀ a, X a * M = M * X a)
    (hev : ∀ k, M *ᵥ ((eig d M).2 k).ofLp = (eig d M).1 k • ((eig d M).2 k).ofLp)
    (hli : LinearIndependent ℂ (eig d M).2)
    (hgs : ∀ W : List (Vec d), W.Sublist (List.ofFn (eig d M).2) →
      lspan (gramSchmidt eps W) = lspan W)
    (hconj : (∀ a p q, (X a p q).im = 0) ∨
      ∀ (x : Fin d → ℂ) (μ : ℂ), M *ᵥ x = μ • x →
        M *ᵥ (fun i => starRingEnd ℂ (x i)) = μ • fun i => starRingEnd ℂ (x i))
    (fuel : ℕ) (hf : d < fuel) (Ys : List (Block n))
    (hrun : decomposeFrom eig eps X M fuel = some (.ok Ys)) :
    (∀ Y ∈ Ys, ∃ V : Matrix (Fin d) (Fin Y.1) ℂ, Vᴴ * V = 1 ∧ ∀ a, X a * V = V * Y.2 a) ∧
    (Ys.map fun Y => Y.1).sum = d := by
  unfold decomposeFrom at hrun
  cases hsp : eigenspaces eps (eig d M).1 (eig d M).2 fuel with
  | none => rw [hsp] at hrun; cases hrun
  | some res =>
    rw [hsp] at hrun
    cases res with
    | error e => cases hrun
    | ok out =>
      simp only [Option.some.injEq, Except.ok.injEq] at hrun
      obtain ⟨k, inv, first, hcl, rfl⟩ := eigenspaces_spec heps hd0 hf hsp
      have hinv : ∀ i j, (eig d M).1 i = (eig d M).1 j → inv i = inv j :=
        fun i j hij => clustering_eq hcl hij
      have hsub : ∀ c, (clusterCols (eig d M).2 inv c).Sublist (List.ofFn (eig d M).2) := by
        intro c
        have h1 := (List.filter_sublist (p := fun i => decide (inv i = c)) (l := List.finRange d)).map
          (eig d M).2
        rw [List.ofFn_eq_map]
        exact h1
      have hspan : ∀ c, lspan (blockRows eps (clusterCols (eig d M).2 inv c)) =
          lspan (clusterCols (eig d M).2 inv c) := by
        intro c
        rw [blockRows_span heps.le hd, hgs _ (hsub c)]
      rw [← hrun, List.map_map]
      constructor
      · intro Y hY
        obtain ⟨c, _, rfl⟩ := List.mem_map.1 hY
        have hO := blockRows_oList heps.le (clusterCols (eig d M).2 inv c)
        refine ⟨blockCols _, blockCols_isometry hO, fun a => compress_intertwines hO ?_⟩
        rw [hspan]
        rcases hconj with hreal | hconj
        · intro x hx
          have e : conjVec (WithLp.toLp 2 (X a *ᵥ (conjVec x).ofLp)) =
              (WithLp.toLp 2 (X a *ᵥ x.ofLp) : Vec d) := by
            ext p
            simp only [conjVec, mulVec, dotProduct, map_sum, map_mul, Complex.conj_conj]
            refine Finset.sum_congr rfl fun q _ => ?_
            rw [Complex.conj_eq_iff_im.2 (hreal a p q)]
          rw [e]
          exact cluster_invariant (hcomm a) hev hli hinv c x hx
        · have hc := cluster_conj hev hli hinv (fun x μ => hconj x.ofLp μ) c
          intro x hx
          exact hc _ (cluster_invariant (hcomm a) hev hli hinv c _ (hc x hx))
      · have hlen : ∀ c, (blockRows eps (clusterCols (eig d M).2 inv c)).length =
            (Finset.univ.filter fun i => inv i = c).card := by
          intro c
          rw [oList_length (blockRows_oList heps.le _), hspan, finrank_clusterCols hli]
        rw [List.map_map]
        have : ((fun Y : Block n => Y.1) ∘ (fun s : ℂ × List (Vec d) =>
            (⟨(blockRows eps s.2).length, fun a => compress (X a) (blockRows eps s.2)⟩ : Block n)) ∘
            fun c => (clusterCenter (eig d M).1 inv c, clusterCols (eig d M).2 inv c)) =
            fun c => (Finset.univ.filter fun i => inv i = c).card := by
          funext c
          exact hlen c
        rw [this]
        have hsum : ((List.range k).map fun c => (Finset.univ.filter fun i => inv i = c).card).sum =
            ∑ c ∈ Finset.range k, (Finset.univ.filter fun i => inv i = c).card := by
          rfl
        rw [hsum, ← Finset.card_eq_sum_card_fiberwise (fun i _ => by simpa using hcl.lt i)]
        simp

/-- What is needed of `eig` on the matrix `M`: a basis of eigenvectors, on which `gram_schmidt` loses
nothing; moreover the generators are real or the eigenspaces of `M` are closed under conjugation. -/
def GoodEig (eig : EigFn) (eps : ℝ) (X : Fin n → Matrix (Fin d) (Fin d) ℂ)
    (M : Matrix (Fin d) (Fin d) ℂ) : Prop :=
  (∀ k, M *ᵥ ((eig d M).2 k).ofLp = (eig d M).1 k • ((eig d M).2 k).ofLp) ∧
  LinearIndependent ℂ (eig d M).2 ∧
  (∀ W : List (Vec d), W.Sublist (List.ofFn (eig d M).2) → lspan (gramSchmidt eps W) = lspan W) ∧
  ((∀ a p q, (X a p q).im = 0) ∨
    ∀ (x : Fin d → ℂ) (μ : ℂ), M *ᵥ x = μ • x →
      M *ᵥ (fun i => starRingEnd ℂ (x i)) = μ • fun i => starRingEnd ℂ (x i))

/-- C20: `decompose_rep_into_irreps` as a whole, for every choice of the random weights and every
`eig` that is good on the random commuting matrix. -/
theorem C20_decompose_rep {eigh : EighFn} (he : EighSpec eigh) (heps : 0 < eps) (hn : n ≠ 0)
    (hd0 : d ≠ 0) (X : Fin n → Matrix (Fin d) (Fin d) ℂ) (hd : (d * d : ℕ) * eps ^ 2 < 1)
    (hgap : Gap eps (icobMatrix X X)) (eig : EigFn) (w : ℕ → ℝ)
    (heig : ∀ Q, inferChangeOfBasis eigh eps X X = .ok Q →
      GoodEig eig eps X (∑ l : Fin Q.length, ((w l : ℝ) : ℂ) • Q.get l))
    (fuel : ℕ) (hf : d < fuel) (Ys : List (Block n))
    (hrun : decomposeRep eigh eig w eps X fuel = some (.ok Ys)) :
    (∀ Y ∈ Ys, ∃ V : Matrix (Fin d) (Fin Y.1) ℂ, Vᴴ * V = 1 ∧ ∀ a, X a * V = V * Y.2 a) ∧
    (Ys.map fun Y => Y.1).sum = d := by
  obtain ⟨Q, h1, h2, _, _⟩ := inferChangeOfBasis_spec he heps hn X X hd hgap
  unfold decomposeRep at hrun
  rw [h1] at hrun
  have hM : (∑ l : Fin Q.length, ((w l : ℝ) : ℂ) • Q.get l) ∈ intertwiners X X := by
    refine Submodule.sum_mem _ fun l _ => Submodule.smul_mem _ _ ?_
    rw [← h2]
    exact Submodule.subset_span (List.get_mem Q l)
  have hd' : (d : ℝ) * eps ^ 2 < 1 := by
    refine lt_of_le_of_lt ?_ hd
    gcongr
    exact_mod_cast Nat.le_mul_of_pos_left d (Nat.pos_of_ne_zero hd0)
  obtain ⟨e1, e2, e3, e4⟩ := heig _ h1
  exact C20_decompose_from heps hd0 hd' X _ eig hM e1 e2 e3 e4 fuel hf Ys hrun

/-- C20: `gram_schmidt` loses nothing when `eig` returns orthonormal eigenvectors (as it can for the
normal matrices commuting with a unitary representation). -/
theorem C20_gram_schmidt_orthonormal (heps : eps < 1) {v : Fin d → Vec d} (hv : Orthonormal ℂ v)
    (W : List (Vec d)) (hW : W.Sublist (List.ofFn v)) : lspan (gramSchmidt eps W) = lspan W := by
  rw [gramSchmidt_of_orthonormal heps (oList_sublist hW (oList_ofFn hv))]

/-- C20: a block obtained from an isometric intertwiner satisfies every commutation relation that
the generators satisfy. -/
theorem C20_block_algebra (X : Fin n → Matrix (Fin d) (Fin d) ℂ) (A : Fin n → Fin n → Fin n → ℂ)
    (hX : ∀ i j, X i * X j - X j * X i = ∑ k, A i j k • X k) (Y : Block n)
    (V : Matrix (Fin d) (Fin Y.1) ℂ) (hV : Vᴴ * V = 1) (hXV : ∀ a, X a * V = V * Y.2 a) :
    ∀ i j, Y.2 i * Y.2 j - Y.2 j * Y.2 i = ∑ k, A i j k • Y.2 k := by
  have key : ∀ P : Matrix (Fin Y.1) (Fin Y.1) ℂ, Vᴴ * (V * P) = P := by
    intro P; rw [← Matrix.mul_assoc, hV, Matrix.one_mul]
  intro i j
  have h := congrArg (fun P => Vᴴ * (P * V)) (hX i j)
  simp only [Matrix.sub_mul, Matrix.mul_assoc, hXV, Matrix.sum_mul, Matrix.smul_mul] at h
  simp only [← Matrix.mul_assoc _ V, hXV] at h
  simp only [Matrix.mul_assoc, ← Matrix.mul_smul, ← Matrix.mul_sum, ← Matrix.mul_sub, key] at h
  exact h

end C20

/-- Real orthonormal eigenvectors for the non-vacuity example. -/
noncomputable def realVec : Fin 2 → Vec 2 :=
  ![WithLp.toLp 2 ![3 / 5, 4 / 5], WithLp.toLp 2 ![4 / 5, -(3 / 5)]]

theorem realVec_orthonormal : Orthonormal ℂ realVec := by
  rw [orthonormal_iff_ite]
  intro i j
  rw [EuclideanSpace.inner_eq_star_dotProduct, dotProduct, Fin.sum_univ_two]
  fin_cases i <;> fin_cases j <;> simp [realVec] <;> norm_num

/-- An `eig` for the non-vacuity example. -/
noncomputable def realEig : EigFn := fun d _ =>
  if h : d = 2 then h ▸ ((![1, 2] : Fin 2 → ℂ), realVec) else (0, 0)

theorem realEig_two (M : Matrix (Fin 2) (Fin 2) ℂ) :
    realEig 2 M = ((![1, 2] : Fin 2 → ℂ), realVec) := by
  simp [realEig]

/-- Non-vacuity of `C20_decompose_from`: all its hypotheses hold for the generator
`[[41, -12], [-12, 34]]/25` with eigenvalues 1 and 2 (and the call succeeds, with two blocks). -/
example : ∃ (eig : EigFn) (X : Fin 1 → Matrix (Fin 2) (Fin 2) ℂ) (M : Matrix (Fin 2) (Fin 2) ℂ),
    (∀ a, X a * M = M * X a) ∧
    (∀ k, M *ᵥ ((eig 2 M).2 k).ofLp = (eig 2 M).1 k • ((eig 2 M).2 k).ofLp) ∧
    LinearIndependent ℂ (eig 2 M).2 ∧
    (∀ W : List (Vec 2), W.Sublist (List.ofFn (eig 2 M).2) →
      lspan (gramSchmidt (1 / 10) W) = lspan W) ∧
    (∀ a p q, (X a p q).im = 0) ∧
    ∃ Ys : List (Block 1), decomposeFrom eig (1 / 10) X M 3 = some (.ok Ys) ∧ 2 ≤ Ys.length := by
  refine ⟨realEig,
    fun _ => !![41 / 25, -(12 / 25); -(12 / 25), 34 / 25],
    !![41 / 25, -(12 / 25); -(12 / 25), 34 / 25], ?_, ?_, ?_, ?_, ?_, ?_⟩
  · intro a; rfl
  · intro k
    rw [realEig_two]
    funext p
    fin_cases k <;> fin_cases p <;>
      simp [realVec, mulVec, dotProduct, Fin.sum_univ_two] <;> norm_num
  · rw [realEig_two]; exact realVec_orthonormal.linearIndependent
  · rw [realEig_two]
    exact fun W hW => C20_gram_schmidt_orthonormal (by norm_num) realVec_orthonormal W hW
  · intro a p q
    fin_cases p <;> fin_cases q <;> simp
  · have hcl : IsClustering (1 / 10) (![1, 2] : Fin 2 → ℂ) 2 ![0, 1] ![0, 1] := by
      refine ⟨?_, ?_, ?_, ?_⟩
      · intro j; fin_cases j <;> simp
      · intro j c
        fin_cases j <;> fin_cases c <;> simp <;> norm_num
      · intro c c' h
        fin_cases c <;> fin_cases c' <;> simp_all
      · intro j c
        fin_cases j <;> fin_cases c <;> simp
    obtain ⟨k, hk, hrun⟩ := decomposeFrom_run (eps := 1 / 10) (by norm_num) (by norm_num)
      (fun _ : Fin 1 => !![41 / 25, -(12 / 25); -(12 / 25), 34 / 25])
      !![41 / 25, -(12 / 25); -(12 / 25), 34 / 25]
      realEig (k := 2) (by rw [realEig_two]; exact hcl) 3 (by norm_num)
    exact ⟨_, hrun, by simpa using Nat.succ_le_of_lt (hk 1)⟩

/-! ### The defect of the complex case -/

/-- Eigenvectors of the witness. -/
noncomputable def cexVec : Fin 2 → Vec 2 :=
  ![WithLp.toLp 2 ![3 / 5, 4 / 5 * Complex.I], WithLp.toLp 2 ![4 / 5, -(3 / 5) * Complex.I]]

/-- The hermitian matrix with eigenvalue 1 on the first vector and 2 on the second. -/
noncomputable def cexM : Matrix (Fin 2) (Fin 2) ℂ :=
  !![41 / 25, 12 / 25 * Complex.I; -(12 / 25) * Complex.I, 34 / 25]

/-- A one-dimensional anti-hermitian (unitary) representation. -/
noncomputable def cexX : Fin 1 → Matrix (Fin 2) (Fin 2) ℂ := fun _ => Complex.I • cexM

open Classical in
/-- An `eig` that is right about `cexM`. -/
noncomputable def cexEig : EigFn := fun d _ =>
  if h : d = 2 then h ▸ ((![1, 2] : Fin 2 → ℂ), cexVec) else (0, 0)

theorem cexEig_two (M : Matrix (Fin 2) (Fin 2) ℂ) :
    cexEig 2 M = ((![1, 2] : Fin 2 → ℂ), cexVec) := by
  simp [cexEig]

theorem cexVec_orthonormal : Orthonormal ℂ cexVec := by
  have hI : Complex.I * Complex.I = -1 := Complex.I_mul_I
  rw [orthonormal_iff_ite]
  intro i j
  rw [EuclideanSpace.inner_eq_star_dotProduct, dotProduct, Fin.sum_univ_two]
  fin_cases i <;> fin_cases j <;> simp [cexVec] <;> ring_nf <;> simp <;> norm_num

/-- C20 (defect): an anti-hermitian generator, a hermitian commuting matrix with eigenvalues 1 and
2 and a correct orthonormal eigenbasis, for which a returned block is *not* a sub-representation:
the code restricts to the complex conjugate of the eigenspace. -/
theorem C20_decompose_complex_false {eps : ℝ} (heps : 0 < eps) (hle : eps ≤ 1 / 2) :
    (∀ a, (cexX a)ᴴ = -cexX a) ∧ (∀ a, cexX a * cexM = cexM * cexX a) ∧
    (∀ k, cexM *ᵥ ((cexEig 2 cexM).2 k).ofLp = (cexEig 2 cexM).1 k • ((cexEig 2 cexM).2 k).ofLp) ∧
    Orthonormal ℂ (cexEig 2 cexM).2 ∧
    ∃ Ys, decomposeFrom cexEig eps cexX cexM 3 = some (.ok Ys) ∧
      ∃ Y ∈ Ys, ¬ ∃ V : Matrix (Fin 2) (Fin Y.1) ℂ, Vᴴ * V = 1 ∧ ∀ a, cexX a * V = V * Y.2 a := by
  have hI : Complex.I * Complex.I = -1 := Complex.I_mul_I
  refine ⟨?_, ?_, ?_, ?_, ?_⟩
  · intro a
    ext i j
    fin_cases i <;> fin_cases j <;> simp [cexX, cexM, conjTranspose_apply]
  · intro a
    simp [cexX]
  · intro k
    rw [cexEig_two]
    funext p
    fin_cases k <;> fin_cases p <;>
      simp [cexM, cexVec, mulVec, dotProduct, Fin.sum_univ_two] <;>
      ring_nf <;> simp <;> norm_num
  · rw [cexEig_two]; exact cexVec_orthonormal
  · have hcl : IsClustering eps (![1, 2] : Fin 2 → ℂ) 2 ![0, 1] ![0, 1] := by
      refine ⟨?_, ?_, ?_, ?_⟩
      · intro j; fin_cases j <;> simp
      · intro j c
        fin_cases j <;> fin_cases c <;> simp
        · exact heps
        · norm_num; linarith
        · norm_num; linarith
        · exact heps
      · intro c c' h
        fin_cases c <;> fin_cases c' <;> simp_all
      · intro j c
        fin_cases j <;> fin_cases c <;> simp
    have hcl2 : IsClustering eps (cexEig 2 cexM).1 2 ![0, 1] ![0, 1] := by
      rw [cexEig_two]; exact hcl
    obtain ⟨k, hk, hrun⟩ := decomposeFrom_run heps (by norm_num) cexX cexM cexEig hcl2 3 (by norm_num)
    refine ⟨_, hrun, _, List.mem_map.2 ⟨0, List.mem_range.2 (hk 0), rfl⟩, ?_⟩
    rw [cexEig_two]
    have hcols : clusterCols cexVec ![0, 1] 0 = [cexVec 0] := by
      simp [clusterCols, List.finRange_succ]
    rw [hcols]
    have hsing : OList [cexVec 0] := ⟨by simpa using cexVec_orthonormal.1 0, by simp⟩
    have hsp : lspan (blockRows eps [cexVec 0]) = lspan [cexVec 0] := by
      rw [blockRows_span heps.le (by norm_num; nlinarith),
        gramSchmidt_of_orthonormal (by linarith) hsing]
    have hO : OList (blockRows eps [cexVec 0]) := blockRows_oList heps.le _
    have hlen : (blockRows eps [cexVec 0]).length = 1 := by
      rw [oList_length hO, hsp, ← oList_length hsing]; rfl
    obtain ⟨b, hb⟩ := List.length_eq_one_iff.1 hlen
    rw [hb] at hsp hO ⊢
    have hbn : ‖b‖ = 1 := hO.norm b (by simp)
    have hbm : b ∈ lspan [cexVec 0] := hsp ▸ mem_lspan (by simp)
    obtain ⟨c, rfl⟩ : ∃ c : ℂ, c • cexVec 0 = b := by
      have : lspan [cexVec 0] = Submodule.span ℂ {cexVec 0} := by
        unfold lspan; congr 1; ext x; simp
      rw [this] at hbm
      exact Submodule.mem_span_singleton.1 hbm
    rw [norm_smul, cexVec_orthonormal.1 0, mul_one] at hbn
    have hc : c * starRingEnd ℂ c = 1 := by
      rw [Complex.mul_conj, Complex.normSq_eq_norm_sq, hbn]; simp
    rintro ⟨V, hV, hXV⟩
    have hy : compress (cexX 0) [c • cexVec 0] 0 0 = 1201 / 625 * Complex.I := by
      simp only [compress, Fin.sum_univ_two]
      simp [cexX, cexM, cexVec]
      simp only [map_ofNat]
      linear_combination (1201 / 625 * Complex.I) * hc -
        832 / 625 * Complex.I * c * starRingEnd ℂ c * hI
    have h0 := congrFun (congrFun (hXV 0) 0) 0
    have h1 := congrFun (congrFun (hXV 0) 1) 0
    have h2 := congrFun (congrFun hV 0) 0
    simp only [Matrix.mul_apply, Fin.sum_univ_two] at h0 h1 h2
    simp [hy] at h0 h1 h2
    simp only [cexX, cexM, Matrix.smul_apply, smul_eq_mul, Matrix.of_apply, Matrix.cons_val] at h0 h1
    have e0 : -176 / 625 * V 0 0 + 12 / 25 * Complex.I * V 1 0 = 0 := by
      linear_combination (-Complex.I) * h0 + (-(176 / 625) * V 0 0 +
        12 / 25 * Complex.I * V 1 0) * hI
    have e1 : -(12 / 25) * Complex.I * V 0 0 - 351 / 625 * V 1 0 = 0 := by
      linear_combination (-Complex.I) * h1 + (-(12 / 25) * Complex.I * V 0 0 - 351 / 625 * V 1 0) * hI
    have v0 : V 0 0 = 0 := by
      linear_combination (390625 / 28224) * (351 / 625 * e0 + 12 / 25 * Complex.I * e1) +
        (390625 / 28224 * 144 / 625) * V 0 0 * hI
    have v1 : V 1 0 = 0 := by
      rw [v0] at e1
      linear_combination -(625 / 351) * e1
    rw [v0, v1] at h2
    simp at h2

end LieNN.Props
