import Verif.Proofs.Hankel
import Verif.Proofs.Decompose
import Verif.Proofs.BasisInter
import Verif.Proofs.IntertwinerRep
import Verif.Spec.Eig
/-!
# Helper lemmas: the blocks of `decompose_rep_into_irreps` are irreducible for generic weights
-/
namespace LieNN

open Matrix Spec

variable {n d : ℕ}

/-- Values that are equal or `tol` apart can be clustered, and the clusters are the sets of equal
values. -/
theorem clustering_of_separated {E : Type*} [NormedAddCommGroup E] {tol : ℝ} (htol : 0 < tol)
    {a : Fin d → E}
    (hsep : ∀ i j, a i ≠ a j → tol ≤ ‖a i - a j‖) :
    ∃ k inv, ∃ first : Fin k → Fin d, IsClustering tol a k inv first ∧
      ∀ i j, inv i = inv j ↔ a i = a j := by
  classical
  set F : Finset (Fin d) := Finset.univ.filter fun i => ∀ j < i, a j ≠ a i with hF
  have hrep : ∀ j, ∃ r ∈ F, a r = a j ∧ r ≤ j := by
    intro j
    set S : Finset (Fin d) := Finset.univ.filter fun i => a i = a j with hS
    have hne : S.Nonempty := ⟨j, by simp [hS]⟩
    have hm := S.min'_mem hne
    have hm2 : a (S.min' hne) = a j := by simpa [hS] using hm
    refine ⟨S.min' hne, ?_, hm2, S.min'_le j (by simp [hS])⟩
    simp only [hF, Finset.mem_filter, Finset.mem_univ, true_and]
    intro i hi h
    exact absurd (S.min'_le i (Finset.mem_filter.2 ⟨Finset.mem_univ _, h.trans hm2⟩)) (not_le.2 hi)
  choose r hr1 hr2 hr3 using hrep
  have huniq : ∀ i ∈ F, ∀ j ∈ F, a i = a j → i = j := by
    intro i hi j hj hij
    simp only [hF, Finset.mem_filter, Finset.mem_univ, true_and] at hi hj
    rcases lt_trichotomy i j with h | h | h
    · exact absurd hij (hj i h)
    · exact h
    · exact absurd hij.symm (hi j h)
  let e := F.orderIsoOfFin rfl
  have hkey : ∀ j (c : Fin F.card), ((e.symm ⟨r j, hr1 j⟩ : Fin F.card) : ℕ) = c ↔
      a (e c).1 = a j := by
    intro j c
    rw [Fin.val_inj, OrderIso.symm_apply_eq, ← hr2 j, Subtype.ext_iff]
    constructor
    · intro h
      rw [show r j = (e c).1 from h]
    · intro h
      exact huniq _ (hr1 j) _ (e c).2 h.symm
  refine ⟨F.card, fun j => (e.symm ⟨r j, hr1 j⟩ : Fin F.card), fun c => (e c).1,
    ⟨fun j => Fin.is_lt _, ?_, ?_, ?_⟩, ?_⟩
  · intro j c
    rw [hkey]
    constructor
    · intro h; rw [h, sub_self, norm_zero]; exact htol
    · intro h
      by_contra hne
      exact absurd (hsep _ _ hne) (not_le.2 h)
  · intro c c' h
    exact e.strictMono h
  · intro j c h
    have h1 : e.symm ⟨r j, hr1 j⟩ = c := Fin.ext h
    have h2 : (⟨r j, hr1 j⟩ : F) = e c := (e.symm_apply_eq).1 h1
    show (e c).1 ≤ j
    rw [← h2]
    exact hr3 j
  · intro i j
    rw [Fin.val_inj, e.symm.injective.eq_iff, Subtype.ext_iff]
    constructor
    · intro h
      rw [← hr2 i, ← hr2 j]
      exact congrArg a h
    · intro h
      exact huniq _ (hr1 i) _ (hr1 j) (by rw [hr2, hr2, h])

/-- The compression of real generators to the rows of an orthonormal basis of a minimal invariant
subspace is irreducible. -/
theorem compress_irreducible {X : Fin n → Matrix (Fin d) (Fin d) ℂ}
    (hreal : ∀ a p q, (X a p q).im = 0) {B : List (Vec d)} (hB : OList B) (hne : B ≠ [])
    (hint : ∀ a, X a * blockCols B = blockCols B * compress (X a) B)
    (hmin : ∀ U : Submodule ℂ (Fin d → ℂ), (∀ a, ∀ w ∈ U, X a *ᵥ w ∈ U) → U ≠ ⊥ →
      (∀ u ∈ U, (WithLp.toLp 2 u : Vec d) ∈ lspan B) → ∀ b ∈ B, b.ofLp ∈ U) :
    IrreducibleFamily fun a => compress (X a) B := by
  refine ⟨List.length_pos_iff.2 hne, fun W hW => ?_⟩
  by_cases hbot : W = ⊥
  · exact Or.inl hbot
  right
  set V := blockCols B with hV
  have hVV : Vᴴ * V = 1 := blockCols_isometry hB
  have hinj : ∀ u v : Fin B.length → ℂ, V *ᵥ u = V *ᵥ v → u = v := by
    intro u v h
    have := congrArg (Vᴴ *ᵥ ·) h
    simpa only [mulVec_mulVec, hVV, one_mulVec] using this
  -- the complex conjugates of the vectors `V u`
  let U : Submodule ℂ (Fin d → ℂ) :=
    { carrier := {x | ∃ u ∈ W, star x = V *ᵥ u}
      zero_mem' := ⟨0, W.zero_mem, by simp⟩
      add_mem' := by
        rintro x y ⟨u, hu, hx⟩ ⟨v, hv, hy⟩
        exact ⟨u + v, W.add_mem hu hv, by rw [star_add, hx, hy, mulVec_add]⟩
      smul_mem' := by
        rintro c x ⟨u, hu, hx⟩
        exact ⟨star c • u, W.smul_mem _ hu, by rw [star_smul, hx, mulVec_smul]⟩ }
  have hXreal : ∀ a (x : Fin d → ℂ), star (X a *ᵥ x) = X a *ᵥ star x := by
    intro a x
    funext p
    simp only [mulVec, dotProduct, Pi.star_apply, star_sum, star_mul']
    refine Finset.sum_congr rfl fun q _ => ?_
    rw [Complex.star_def, Complex.conj_eq_iff_im.2 (hreal a p q)]
  have hmem : ∀ x, x ∈ U ↔ ∃ u ∈ W, star x = V *ᵥ u := fun _ => Iff.rfl
  have h1 := hmin U ?_ ?_ ?_
  · rw [eq_top_iff]
    intro u _
    -- `conj (V u)` is a combination of the rows
    have hrow : ∀ j : Fin B.length, (fun i => if i = j then (1 : ℂ) else 0) ∈ W := by
      intro j
      obtain ⟨v, hv, hx⟩ := (hmem _).1 (h1 (B.get j) (List.get_mem _ _))
      have : V *ᵥ v = V *ᵥ (fun i => if i = j then (1 : ℂ) else 0) := by
        rw [← hx]
        funext p
        simp [mulVec, dotProduct, hV, blockCols]
      rwa [← hinj _ _ this]
    have hu : u = ∑ j, u j • (fun i => if i = j then (1 : ℂ) else 0) := by
      funext i
      simp [Finset.sum_apply]
    rw [hu]
    exact Submodule.sum_mem _ fun j _ => W.smul_mem _ (hrow j)
  · rintro a x ⟨u, hu, hx⟩
    refine ⟨compress (X a) B *ᵥ u, hW a u hu, ?_⟩
    rw [hXreal, hx, mulVec_mulVec, hint, ← mulVec_mulVec]
  · obtain ⟨u, hu, hu0⟩ := (Submodule.ne_bot_iff _).1 hbot
    refine (Submodule.ne_bot_iff _).2 ⟨star (V *ᵥ u), ⟨u, hu, by rw [star_star]⟩, ?_⟩
    intro h0
    rw [star_eq_zero] at h0
    exact hu0 (hinj _ _ (by rw [h0, mulVec_zero]))
  · rintro x ⟨u, hu, hx⟩
    have : (WithLp.toLp 2 x : Vec d) = ∑ j, star (u j) • B.get j := by
      ext p
      have h2 := congrFun hx p
      have h3 := congrArg star h2
      simp only [Pi.star_apply, star_star, mulVec, dotProduct, star_sum, star_mul'] at h3
      rw [show (WithLp.toLp 2 x : Vec d) p = x p from rfl, h3]
      simp only [hV, blockCols]
      rw [WithLp.ofLp_sum, Finset.sum_apply]
      refine Finset.sum_congr rfl fun j _ => ?_
      simp [mul_comm]
    rw [this]
    exact Submodule.sum_mem _ fun j _ => Submodule.smul_mem _ _ (mem_lspan (List.get_mem _ _))

/-- The blocks computed from an element of the commutant with the largest number of eigenvalues. -/
theorem decomposeFrom_irreducible {eps : ℝ} (heps : 0 < eps) (hd0 : d ≠ 0) (hd : d * eps ^ 2 < 1)
    {X : Fin n → Matrix (Fin d) (Fin d) ℂ} (hX : ∀ a, (X a)ᴴ = -X a ∨ (X a)ᴴ * X a = 1)
    (hreal : ∀ a p q, (X a p q).im = 0) {M : Matrix (Fin d) (Fin d) ℂ} (hM : M ∈ intertwiners X X)
    (hmax : ∀ N ∈ intertwiners X X, (eigSet N).card ≤ (eigSet M).card) {eig : EigFn}
    (heig : IsEigenbasis M (eig d M))
    (hgs : ∀ W : List (Vec d), W.Sublist (List.ofFn (eig d M).2) →
      lspan (gramSchmidt eps W) = lspan W)
    (hsep : ∀ i j, (eig d M).1 i ≠ (eig d M).1 j → eps ≤ ‖(eig d M).1 i - (eig d M).1 j‖)
    (fuel : ℕ) (hf : d < fuel) :
    ∃ Ys, decomposeFrom eig eps X M fuel = some (.ok Ys) ∧ ∀ Y ∈ Ys, IrreducibleFamily Y.2 := by
  obtain ⟨k₀, inv₀, first₀, hcl₀, _⟩ := clustering_of_separated heps hsep
  rcases uniqueWithTol_spec (a := (eig d M).1) heps hd0 fuel hf with
    ⟨k, inv, first, hcl, hrun⟩ | ⟨_, hno⟩
  swap
  · exact absurd ⟨k₀, inv₀, first₀, hcl₀⟩ hno
  obtain ⟨out, hout⟩ : ∃ out, eigenspaces eps (eig d M).1 (eig d M).2 fuel = some (.ok out) := by
    unfold eigenspaces
    rw [hrun]
    exact ⟨_, rfl⟩
  obtain ⟨k, inv, first, hcl, hspec⟩ := eigenspaces_spec heps hd0 hf hout
  have hiff : ∀ i j, inv i = inv j ↔ (eig d M).1 i = (eig d M).1 j := by
    intro i j
    refine ⟨fun h => ?_, fun h => clustering_eq hcl h⟩
    have h1 := (hcl.mem_iff i ⟨inv i, hcl.lt i⟩).1 rfl
    have h2 := (hcl.mem_iff j ⟨inv i, hcl.lt i⟩).1 h.symm
    have e1 : (eig d M).1 (first ⟨inv i, hcl.lt i⟩) = (eig d M).1 i := by
      by_contra hc; exact absurd (hsep _ _ hc) (not_le.2 h1)
    have e2 : (eig d M).1 (first ⟨inv i, hcl.lt i⟩) = (eig d M).1 j := by
      by_contra hc; exact absurd (hsep _ _ hc) (not_le.2 h2)
    rw [← e1, e2]
  obtain ⟨hli, hev⟩ := heig
  refine ⟨_, by unfold decomposeFrom; rw [hout], ?_⟩
  rw [hspec, List.map_map]
  intro Y hY
  obtain ⟨c, hc, rfl⟩ := List.mem_map.1 hY
  rw [List.mem_range] at hc
  -- the cluster is not empty
  set i := first ⟨c, hc⟩ with hi
  have hic : inv i = c := (hcl.mem_iff i ⟨c, hc⟩).2 (by rw [hi, sub_self, norm_zero]; exact heps)
  set B := blockRows eps (clusterCols (eig d M).2 inv c) with hBdef
  have hsub : (clusterCols (eig d M).2 inv c).Sublist (List.ofFn (eig d M).2) := by
    have h1 := (List.filter_sublist (p := fun i => decide (inv i = c)) (l := List.finRange d)).map
      (eig d M).2
    rw [List.ofFn_eq_map]
    exact h1
  have hspan : lspan B = lspan (clusterCols (eig d M).2 inv c) := by
    rw [hBdef, blockRows_span heps.le hd, hgs _ hsub]
  have hO : OList B := blockRows_oList heps.le _
  -- the span is the eigenspace
  have hspan' : ∀ x : Vec d, x ∈ lspan B ↔ x.ofLp ∈ eigSpace M ((eig d M).1 i) := by
    intro x
    rw [hspan]
    constructor
    · intro hx
      induction hx using Submodule.span_induction with
      | mem y hy =>
        obtain ⟨l, hl, rfl⟩ := mem_clusterCols.1 hy
        rw [mem_eigSpace, hev l, (hiff l i).1 (hl.trans hic.symm)]
      | zero => exact Submodule.zero_mem _
      | add x y _ _ hx hy => exact Submodule.add_mem _ hx hy
      | smul c x _ hx => exact Submodule.smul_mem _ c hx
    · intro hx
      have := eigenspace_le_cluster hev hli (inv := inv) (fun k l h => (hiff k l).2 h) (k := i)
        (y := x) (mem_eigSpace.1 hx)
      rwa [hic] at this
  have hne : B ≠ [] := by
    intro h0
    have h1 := (hspan' ((eig d M).2 i)).2 (mem_eigSpace.2 (hev i))
    rw [h0, lspan_nil, Submodule.mem_bot] at h1
    exact hli.ne_zero i h1
  refine compress_irreducible hreal hO hne ?_ ?_
  · intro a
    refine compress_intertwines hO ?_
    intro x hx
    have e : conjVec (WithLp.toLp 2 (X a *ᵥ (conjVec x).ofLp)) =
        (WithLp.toLp 2 (X a *ᵥ x.ofLp) : Vec d) := by
      ext p
      simp only [conjVec, mulVec, dotProduct, map_sum, map_mul, Complex.conj_conj]
      refine Finset.sum_congr rfl fun q _ => ?_
      rw [Complex.conj_eq_iff_im.2 (hreal a p q)]
    rw [e, hspan']
    exact eigSpace_invariant hM _ a _ ((hspan' x).1 hx)
  · intro U hU hU0 hle b hb
    have := eigSpace_minimal hX hM hmax U hU hU0 fun u hu => (hspan' (WithLp.toLp 2 u)).1 (hle u hu)
    rw [this]
    exact (hspan' b).1 (mem_lspan hb)

/-- A spanning family of eigenspaces gives a basis of eigenvectors. -/
theorem exists_eigenbasis {M : Matrix (Fin d) (Fin d) ℂ} (hM : ⨆ μ, eigSpace M μ = ⊤) :
    ∃ e, IsEigenbasis M e := by
  set S : Set (Vec d) := {x | ∃ μ : ℂ, M *ᵥ x.ofLp = μ • x.ofLp} with hS
  have hspan : Submodule.span ℂ S = ⊤ := by
    rw [eq_top_iff]
    intro x _
    have hx : x.ofLp ∈ ⨆ μ, eigSpace M μ := by rw [hM]; trivial
    have key : ∀ v : Fin d → ℂ, v ∈ ⨆ μ, eigSpace M μ →
        (WithLp.toLp 2 v : Vec d) ∈ Submodule.span ℂ S := by
      intro v hv
      induction hv using Submodule.iSup_induction' with
      | mem μ v hv => exact Submodule.subset_span ⟨μ, mem_eigSpace.1 hv⟩
      | zero => exact Submodule.zero_mem _
      | add v w _ _ hv hw => exact Submodule.add_mem _ hv hw
    exact key _ hx
  obtain ⟨b, hbS, hbs, hbi⟩ := exists_linearIndependent ℂ S
  rw [hspan] at hbs
  let bas : Module.Basis b ℂ (Vec d) := Module.Basis.mk hbi (by rw [Subtype.range_val, hbs])
  have : Fintype b := FiniteDimensional.fintypeBasisIndex bas
  have hcard : Fintype.card b = d := by
    rw [← Module.finrank_eq_card_basis bas]; simp
  let e := (Fintype.equivFinOfCardEq hcard).symm
  have hm : ∀ k, ∃ μ : ℂ, M *ᵥ (e k).1.ofLp = μ • (e k).1.ofLp := fun k => hbS (e k).2
  choose μ hμ using hm
  exact ⟨(μ, fun k => (e k).1), hbi.comp _ e.injective, hμ⟩

/-- There is a polynomial in the weights that detects the elements of a spanned space with the largest
number of eigenvalues. -/
theorem exists_generic {X : Fin n → Matrix (Fin d) (Fin d) ℂ}
    (hX : ∀ a, (X a)ᴴ = -X a ∨ (X a)ᴴ * X a = 1) {N : ℕ} (Q : Fin N → Matrix (Fin d) (Fin d) ℂ)
    (hQ : Submodule.span ℂ (Set.range Q) = intertwiners X X) :
    ∃ P : MvPolynomial (Fin N) ℂ, P ≠ 0 ∧ ∀ z : Fin N → ℂ, MvPolynomial.eval z P ≠ 0 →
      ∀ K ∈ intertwiners X X, (eigSet K).card ≤ (eigSet (∑ l, z l • Q l)).card := by
  -- the largest number of eigenvalues
  obtain ⟨M₁, hM₁, hmax⟩ : ∃ M₁ ∈ intertwiners X X,
      ∀ K ∈ intertwiners X X, (eigSet K).card ≤ (eigSet M₁).card := by
    have hfin : ((fun K : Matrix (Fin d) (Fin d) ℂ => (eigSet K).card) ''
        (intertwiners X X : Set (Matrix (Fin d) (Fin d) ℂ))).Finite :=
      (Set.finite_Iic d).subset (by rintro _ ⟨K, _, rfl⟩; exact card_eigSet_le K)
    obtain ⟨m, ⟨M₁, hM₁, rfl⟩, hm⟩ := Set.exists_max_image _ id hfin
      ⟨_, ⟨1, one_mem_intertwiners X, rfl⟩⟩
    exact ⟨M₁, hM₁, fun K hK => hm _ ⟨K, hK, rfl⟩⟩
  set k := (eigSet M₁).card with hk
  let G : Matrix (Fin d) (Fin d) (MvPolynomial (Fin N) ℂ) :=
    ∑ l, (MvPolynomial.X l : MvPolynomial (Fin N) ℂ) • (Q l).map (MvPolynomial.C (σ := Fin N))
  have hG : ∀ z : Fin N → ℂ, G.map (MvPolynomial.eval z) = ∑ l, z l • Q l := by
    intro z
    ext p q
    simp only [G, map_apply, Matrix.sum_apply, Matrix.smul_apply, map_sum, smul_eq_mul, map_mul,
      MvPolynomial.eval_X, MvPolynomial.eval_C]
  have hdet : ∀ z : Fin N → ℂ, MvPolynomial.eval z (hankel k G).det =
      (hankel k (∑ l, z l • Q l)).det := by
    intro z
    rw [RingHom.map_det]
    congr 1
    ext i j
    simp only [RingHom.mapMatrix_apply, map_apply, hankel]
    rw [← hG z, AddMonoidHom.map_trace (MvPolynomial.eval z), Matrix.map_pow]
  refine ⟨(hankel k G).det, ?_, ?_⟩
  · rw [← hQ, Submodule.mem_span_range_iff_exists_fun] at hM₁
    obtain ⟨z, hz⟩ := hM₁
    intro h0
    have h1 := hdet z
    rw [h0, map_zero, hz] at h1
    have hM₁' : M₁ ∈ intertwiners X X := by
      rw [← hQ, Submodule.mem_span_range_iff_exists_fun]; exact ⟨z, hz⟩
    exact hankel_det_ne_zero (eigSpace_span hX hM₁' hmax) h1.symm
  · intro z hz K hK
    refine (hmax K hK).trans ?_
    by_contra hlt
    push Not at hlt
    rw [hdet] at hz
    exact hz (hankel_det_eq_zero hlt)

/-- `infer_change_of_basis` gives the same list for all small enough tolerances. -/
theorem inferChangeOfBasis_small {eigh : EighFn} (he : EighSpec eigh) (hn : n ≠ 0)
    (X : Fin n → Matrix (Fin d) (Fin d) ℂ) :
    ∃ Q : List (Matrix (Fin d) (Fin d) ℂ), mspan Q = intertwiners X X ∧
      ∃ e : ℝ, 0 < e ∧ ∀ eps, 0 < eps → eps < e → inferChangeOfBasis eigh eps X X = .ok Q := by
  classical
  set A := icobMatrix X X with hA
  obtain ⟨e0, he0, h0⟩ := exists_gap A
  obtain ⟨e1, he1, h1⟩ := exists_pos_lt fun k => |(eigh (d * d) (Aᴴ * A)).1 k|
  let rows : List (Vec (d * d)) := List.ofFn fun i => WithLp.toLp 2 fun j =>
    ∑ k ∈ Finset.univ.filter (fun k => (eigh (d * d) (Aᴴ * A)).1 k = 0),
      starRingEnd ℂ ((eigh (d * d) (Aᴴ * A)).2 k i) * (eigh (d * d) (Aᴴ * A)).2 k j
  obtain ⟨e2, he2, h2⟩ := gsLoop_small rows []
  have hval : ∀ eps, 0 < eps → eps < min e1 e2 →
      inferChangeOfBasis eigh eps X X = .ok ((gramSchmidt 0 rows).map unvec) := by
    intro eps hp hl
    unfold inferChangeOfBasis nullspace
    rw [if_neg hn]
    have hsel : ∀ k, |(eigh (d * d) (Aᴴ * A)).1 k| < eps ↔ (eigh (d * d) (Aᴴ * A)).1 k = 0 := by
      intro k
      constructor
      · intro h
        exact abs_nonpos_iff.1 (h1 k (h.trans (hl.trans_le (min_le_left _ _))))
      · intro h; rw [h, abs_zero]; exact hp
    have hrows : List.ofFn (nullProj eps (eigh (d * d) (Aᴴ * A)).1 (eigh (d * d) (Aᴴ * A)).2) =
        rows := by
      simp only [rows]
      congr 1
      funext i
      unfold nullProj
      simp only [hsel]
    simp only
    rw [← hA, hrows]
    unfold gramSchmidt
    rw [h2 eps hp (hl.trans_le (min_le_right _ _))]
  refine ⟨(gramSchmidt 0 rows).map unvec, ?_, min e1 e2, lt_min he1 he2, hval⟩
  -- the span, from any one tolerance
  obtain ⟨eps, hp, hl, hg, hdd⟩ : ∃ eps, 0 < eps ∧ eps < min e1 e2 ∧ eps ≤ e0 ∧
      (d * d : ℕ) * eps ^ 2 < 1 := by
    refine ⟨min (min e1 e2 / 2) (min e0 (1 / (d * d + 1 : ℕ))), ?_, ?_, ?_, ?_⟩
    · have : 0 < min e1 e2 := lt_min he1 he2
      refine lt_min (by linarith) (lt_min he0 (by positivity))
    · have : 0 < min e1 e2 := lt_min he1 he2
      exact (min_le_left _ _).trans_lt (by linarith)
    · exact (min_le_right _ _).trans (min_le_left _ _)
    · set x := min (min e1 e2 / 2) (min e0 (1 / ((d * d + 1 : ℕ) : ℝ))) with hx
      have hx0 : 0 < x := by
        have : 0 < min e1 e2 := lt_min he1 he2
        refine lt_min (by linarith) (lt_min he0 (by positivity))
      have hx1 : x ≤ 1 / ((d * d + 1 : ℕ) : ℝ) := (min_le_right _ _).trans (min_le_right _ _)
      have hx2 : x * ((d * d + 1 : ℕ) : ℝ) ≤ 1 := by
        rwa [le_div_iff₀ (by positivity)] at hx1
      push_cast at hx2 ⊢
      nlinarith [mul_self_nonneg (d : ℝ)]
  obtain ⟨S, hS, hspan, _⟩ := inferChangeOfBasis_spec he hp hn X X hdd (h0 eps hg)
  rw [hval eps hp hl] at hS
  rw [← hspan, Except.ok.inj hS]

end LieNN
