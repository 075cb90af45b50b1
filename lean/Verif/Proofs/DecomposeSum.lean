import Verif.Proofs.SemisimpleTable
import Verif.Proofs.HighestSUN
import Verif.Proofs.CompleteAux
import Verif.Spec.BlockSum
/-!
# `decompose_rep_into_irreps` as a direct sum; multiplicities
-/
namespace LieNN.Semi

open Matrix LieNN LieNN.Spec Module

variable {n d e N : ℕ} {eps : ℝ}

/-- A block with a map into the space. -/
abbrev Bk (n d : ℕ) : Type := (Y : Block n) × Matrix (Fin d) (Fin Y.1) ℂ

/-- The maps side by side. -/
def catB : (l : List (Bk n d)) → Matrix (Fin d) (Fin ((l.map Sigma.fst).map Sigma.fst).sum) ℂ
  | [] => fun _ j => j.elim0
  | p :: l => hcat p.2 (catB l)

theorem catB_intertwines (M : Matrix (Fin d) (Fin d) ℂ) (a : Fin n) (l : List (Bk n d))
    (hM : ∀ p ∈ l, M * p.2 = p.2 * p.1.2 a) : M * catB l = catB l * blockSum (l.map Sigma.fst) a := by
  induction l with
  | nil => ext i j; exact j.elim0
  | cons p l ih =>
    change M * hcat p.2 (catB l) = hcat p.2 (catB l) * dsum (p.1.2 a) (blockSum (l.map Sigma.fst) a)
    rw [hcat_mul_dsum, mul_hcat, hM p (by simp), ih fun q hq => hM q (by simp [hq])]

theorem catB_col (l : List (Bk n d)) (p : Bk n d) (hp : p ∈ l) (j : Fin p.1.1) : ∃ j', ∀ i, catB l i j' = p.2 i j := by
  induction l with
  | nil => cases hp
  | cons q l ih =>
    rcases List.mem_cons.1 hp with rfl | hp
    · exact ⟨Fin.castAdd ((l.map Sigma.fst).map Sigma.fst).sum j, fun i => hcat_left p.2 (catB l) i j⟩
    · obtain ⟨j', hj'⟩ := ih hp
      exact ⟨Fin.natAdd q.1.1 j', fun i => (hcat_right q.2 (catB l) i j').trans (hj' i)⟩

/-- Blocks that fill the space. -/
theorem blockSum_equivalent {X : Fin n → Matrix (Fin d) (Fin d) ℂ} {l : List (Bk n d)} (hX : ∀ p ∈ l, ∀ a, X a * p.2 = p.2 * p.1.2 a)
    (hd : ((l.map Sigma.fst).map Sigma.fst).sum = d)
    (hs : Submodule.span ℂ {x | ∃ p ∈ l, ∃ j, x = fun i => p.2 i j} = ⊤) : Equivalent X (blockSum (l.map Sigma.fst)) := by
  obtain ⟨P, h1, h2⟩ : HasInv (catB l) := by
    refine hasInv_of_span hd.symm _ ?_
    rw [eq_top_iff, ← hs, Submodule.span_le]
    rintro x ⟨p, hp, j, rfl⟩
    obtain ⟨j', hj'⟩ := catB_col l p hp j
    exact Submodule.subset_span ⟨j', funext fun i => hj' i⟩
  exact ⟨catB l, P, h2, h1, fun a => catB_intertwines _ _ _ fun p hp => hX p hp a⟩

theorem finrank_blockSum (l : List (Block n)) (Z : Fin n → Matrix (Fin e) (Fin e) ℂ) :
    finrank ℂ (intertwiners (blockSum l) Z) = (l.map fun Y => finrank ℂ (intertwiners Y.2 Z)).sum := by
  induction l with
  | nil =>
    have : Subsingleton (intertwiners (blockSum ([] : List (Block n))) Z) := ⟨fun S S' => Subtype.ext (Matrix.ext fun x => x.elim0)⟩
    rw [finrank_zero_of_subsingleton]
    rfl
  | cons Y l ih =>
    have h1 := (dsumEquiv Y.2 (blockSum l) Z).finrank_eq
    rw [finrank_prod, ih] at h1
    exact h1

/-- Schur's lemma for two families. -/
theorem equivalent_of_ne_zero {X : Fin n → Matrix (Fin d) (Fin d) ℂ} {Z : Fin n → Matrix (Fin e) (Fin e) ℂ} (hX : IrreducibleFamily X)
    (hZ : IrreducibleFamily Z) {S : Matrix (Fin d) (Fin e) ℂ} (hS : ∀ a, X a * S = S * Z a) (h0 : S ≠ 0) : Equivalent X Z := by
  have hker : LinearMap.ker S.mulVecLin = ⊥ := by
    rcases hZ.2 (LinearMap.ker S.mulVecLin) (fun a w hw => by
      rw [LinearMap.mem_ker, mulVecLin_apply] at hw ⊢
      rw [mulVec_mulVec, ← hS, ← mulVec_mulVec, hw, mulVec_zero]) with h | h
    · exact h
    · exact absurd (Matrix.ext_of_mulVec_single fun j => by
        have : Pi.single j 1 ∈ LinearMap.ker S.mulVecLin := h ▸ Submodule.mem_top
        rw [LinearMap.mem_ker, mulVecLin_apply] at this
        rw [this, zero_mulVec]) h0
  have hrange : LinearMap.range S.mulVecLin = ⊤ := by
    rcases hX.2 (LinearMap.range S.mulVecLin) (by
      rintro a _ ⟨v, rfl⟩
      refine ⟨Z a *ᵥ v, ?_⟩
      rw [mulVecLin_apply, mulVecLin_apply, mulVec_mulVec, mulVec_mulVec, hS]) with h | h
    · exact absurd (Matrix.ext_of_mulVec_single fun j => by
        have : S.mulVecLin (Pi.single j 1) ∈ LinearMap.range S.mulVecLin := ⟨_, rfl⟩
        rw [h, Submodule.mem_bot, mulVecLin_apply] at this
        rw [this, zero_mulVec]) h0
    · exact h
  have hde : e = d := by
    have := (LinearEquiv.ofBijective S.mulVecLin ⟨LinearMap.ker_eq_bot.1 hker, LinearMap.range_eq_top.1 hrange⟩).finrank_eq
    simpa using this
  subst hde
  have hu : IsUnit S := by
    rw [← Matrix.mulVec_injective_iff_isUnit]
    exact LinearMap.ker_eq_bot.1 hker
  have hu' := (isUnit_iff_isUnit_det S).1 hu
  exact ⟨S, S⁻¹, mul_nonsing_inv _ hu', nonsing_inv_mul _ hu', hS⟩

open Classical in
theorem finrank_irreducible {X : Fin n → Matrix (Fin d) (Fin d) ℂ} {Z : Fin n → Matrix (Fin e) (Fin e) ℂ} (hX : IrreducibleFamily X)
    (hZ : IrreducibleFamily Z) : finrank ℂ (intertwiners X Z) = if Equivalent X Z then 1 else 0 := by
  split_ifs with h
  · rw [finrank_equivalent h, finrank_commutant_of_irreducible hZ]
  · have : intertwiners X Z = ⊥ := by
      rw [Submodule.eq_bot_iff]
      intro S hS
      by_contra h0
      exact h (equivalent_of_ne_zero hX hZ hS h0)
    rw [this, finrank_bot]

open Classical in
/-- The number of blocks equivalent to an irreducible family. -/
theorem countP_blocks {X : Fin n → Matrix (Fin d) (Fin d) ℂ} {Ys : List (Block n)} (h : Equivalent X (blockSum Ys))
    (hY : ∀ Y ∈ Ys, IrreducibleFamily Y.2) {Z : Fin n → Matrix (Fin e) (Fin e) ℂ} (hZ : IrreducibleFamily Z) :
    Ys.countP (fun Y => decide (Equivalent Y.2 Z)) = finrank ℂ (intertwiners X Z) := by
  rw [finrank_equivalent h, finrank_blockSum]
  clear h
  induction Ys with
  | nil => rfl
  | cons Y Ys ih =>
    rw [List.countP_cons, List.map_cons, List.sum_cons, ih fun Y' h' => hY Y' (by simp [h']), finrank_irreducible (hY Y (by simp)) hZ,
      add_comm]
    congr 1
    simp

/-- What `decomposeFrom` returns, with the maps of the blocks. -/
theorem decomposeFrom_sum (heps : 0 < eps) (hd0 : d ≠ 0) (hd : d * eps ^ 2 < 1)
    (X : Fin n → Matrix (Fin d) (Fin d) ℂ) (M : Matrix (Fin d) (Fin d) ℂ) (eig : EigFn)
    (hcomm : ∀ a, X a * M = M * X a)
    (hev : ∀ k, M *ᵥ ((eig d M).2 k).ofLp = (eig d M).1 k • ((eig d M).2 k).ofLp)
    (hli : LinearIndependent ℂ (eig d M).2)
    (hgs : ∀ W : List (Vec d), W.Sublist (List.ofFn (eig d M).2) → lspan (gramSchmidt eps W) = lspan W)
    (hconj : (∀ a p q, (X a p q).im = 0) ∨
      ∀ (x : Fin d → ℂ) (μ : ℂ), M *ᵥ x = μ • x →
        M *ᵥ (fun i => starRingEnd ℂ (x i)) = μ • fun i => starRingEnd ℂ (x i))
    (fuel : ℕ) (hf : d < fuel) (Ys : List (Block n)) (hsum : (Ys.map Sigma.fst).sum = d)
    (hrun : decomposeFrom eig eps X M fuel = some (.ok Ys)) : Equivalent X (blockSum Ys) := by
  unfold decomposeFrom at hrun
  cases hsp : eigenspaces eps (eig d M).1 (eig d M).2 fuel with
  | none => rw [hsp] at hrun; cases hrun
  | some res =>
    rw [hsp] at hrun
    cases res with
    | error e => cases hrun
    | ok out =>
      simp only [Option.some.injEq, Except.ok.injEq] at hrun
      obtain ⟨k, inv, first, hcl, rfl⟩ := eigenspaces_spec heps hd0 hf hsp
      have hinv : ∀ i j, (eig d M).1 i = (eig d M).1 j → inv i = inv j :=
        fun i j hij => clustering_eq hcl hij
      have hsub : ∀ c, (clusterCols (eig d M).2 inv c).Sublist (List.ofFn (eig d M).2) := by
        intro c
        have h1 := (List.filter_sublist (p := fun i => decide (inv i = c)) (l := List.finRange d)).map
          (eig d M).2
        rw [List.ofFn_eq_map]
        exact h1
      have hspan : ∀ c, lspan (blockRows eps (clusterCols (eig d M).2 inv c)) =
          lspan (clusterCols (eig d M).2 inv c) := by
        intro c
        rw [blockRows_span heps.le hd, hgs _ (hsub c)]
      have hO : ∀ c, OList (blockRows eps (clusterCols (eig d M).2 inv c)) :=
        fun c => blockRows_oList heps.le _
      have hint : ∀ c, blockCols (blockRows eps (clusterCols (eig d M).2 inv c)) ∈
          intertwiners X (fun a => compress (X a) (blockRows eps (clusterCols (eig d M).2 inv c))) := by
        intro c a
        refine compress_intertwines (hO c) ?_
        rw [hspan]
        rcases hconj with hreal | hconj
        · intro x hx
          have e : conjVec (WithLp.toLp 2 (X a *ᵥ (conjVec x).ofLp)) =
              (WithLp.toLp 2 (X a *ᵥ x.ofLp) : Vec d) := by
            ext p
            simp only [conjVec, mulVec, dotProduct, map_sum, map_mul, Complex.conj_conj]
            refine Finset.sum_congr rfl fun q _ => ?_
            rw [Complex.conj_eq_iff_im.2 (hreal a p q)]
          rw [e]
          exact cluster_invariant (hcomm a) hev hli hinv c x hx
        · have hc := cluster_conj hev hli hinv (fun x μ => hconj x.ofLp μ) c
          intro x hx
          exact hc _ (cluster_invariant (hcomm a) hev hli hinv c _ (hc x hx))
      let pc : ℕ → Bk n d := fun c => ⟨⟨(blockRows eps (clusterCols (eig d M).2 inv c)).length,
        fun a => compress (X a) (blockRows eps (clusterCols (eig d M).2 inv c))⟩, blockCols (blockRows eps (clusterCols (eig d M).2 inv c))⟩
      have hl : ((List.range k).map pc).map Sigma.fst = Ys := by
        rw [← hrun, List.map_map, List.map_map]
        rfl
      rw [← hl]
      set K := Submodule.span ℂ {x | ∃ p ∈ (List.range k).map pc, ∃ j, x = fun i => p.2 i j} with hK
      refine blockSum_equivalent ?_ (by rw [hl, hsum]) ?_
      · intro p hp
        obtain ⟨c, -, rfl⟩ := List.mem_map.1 hp
        exact hint c
      · have h1 : ∀ c < k, ∀ y ∈ lspan (blockRows eps (clusterCols (eig d M).2 inv c)), (conjVec y).ofLp ∈ K := by
          intro c hc y hy
          induction hy using Submodule.span_induction with
          | mem y hy =>
            obtain ⟨j, hj⟩ := List.mem_iff_get.1 hy
            refine Submodule.subset_span ⟨pc c, List.mem_map.2 ⟨c, List.mem_range.2 hc, rfl⟩, j, ?_⟩
            funext p
            simp only [conjVec, blockCols, pc]
            rw [hj]
          | zero =>
            have : (conjVec (0 : Vec d)).ofLp = 0 := by
              funext p; simp [conjVec]
            rw [this]
            exact Submodule.zero_mem _
          | add y z _ _ hy hz =>
            rw [conjVec_add]
            exact Submodule.add_mem _ hy hz
          | smul t y _ hy =>
            rw [conjVec_smul]
            exact Submodule.smul_mem _ _ hy
        have h2 : ∀ y : Vec d, (conjVec y).ofLp ∈ K := by
          intro y
          have htop := hli.span_eq_top_of_card_eq_finrank' (by simp)
          have hy : y ∈ Submodule.span ℂ (Set.range (eig d M).2) := by rw [htop]; trivial
          induction hy using Submodule.span_induction with
          | mem y hy =>
            obtain ⟨i, rfl⟩ := hy
            refine h1 (inv i) (hcl.lt i) _ ?_
            rw [hspan]
            exact mem_lspan (mem_clusterCols.2 ⟨i, rfl, rfl⟩)
          | zero =>
            have : (conjVec (0 : Vec d)).ofLp = 0 := by
              funext p; simp [conjVec]
            rw [this]
            exact Submodule.zero_mem _
          | add y z _ _ hy hz =>
            rw [conjVec_add]
            exact Submodule.add_mem _ hy hz
          | smul t y _ hy =>
            rw [conjVec_smul]
            exact Submodule.smul_mem _ _ hy
        rw [eq_top_iff]
        intro x _
        have := h2 (conjVec (WithLp.toLp 2 x))
        have e : (conjVec (conjVec (WithLp.toLp 2 x : Vec d))).ofLp = x := by
          funext p
          simp [conjVec]
        rwa [e] at this

/-! ## The regular representation -/

/-- Maps out of the regular representation are vectors. -/
theorem finrank_regular {G : Type*} [Group G] (e : Fin n ≃ G) (table : Fin n → Fin n → Fin n) (ht : ∀ g h, e (table g h) = e g * e h)
    {k : ℕ} (ρ : G →* Matrix (Fin k) (Fin k) ℂ) :
    finrank ℂ (intertwiners (regularRepresentation table) fun g => ρ (e g)) = k := by
  have hmul : ∀ (S : Matrix (Fin n) (Fin k) ℂ) (g i : Fin n) (j : Fin k),
      (regularRepresentation table g * S) i j = S (e.symm ((e g)⁻¹ * e i)) j := by
    intro S g i j
    rw [Matrix.mul_apply, Finset.sum_eq_single (e.symm ((e g)⁻¹ * e i))]
    · have : i = table g (e.symm ((e g)⁻¹ * e i)) := by
        apply e.injective
        rw [ht, e.apply_symm_apply, mul_inv_cancel_left]
      unfold regularRepresentation
      rw [if_pos this, one_mul]
    · intro b _ hb
      unfold regularRepresentation
      rw [if_neg, zero_mul]
      rintro rfl
      apply hb
      apply e.injective
      rw [ht, e.apply_symm_apply, inv_mul_cancel_left]
    · simp
  have := LinearEquiv.finrank_eq (R := ℂ) (M := intertwiners (regularRepresentation table) fun g => ρ (e g)) (N := Fin k → ℂ)
    { toFun := fun S => S.1 (e.symm 1)
      map_add' := fun _ _ => rfl
      map_smul' := fun _ _ => rfl
      invFun := fun v => ⟨Matrix.of fun g => v ᵥ* ρ (e g)⁻¹, fun g => by
        ext i j
        rw [hmul]
        have : (Matrix.of (fun g => v ᵥ* ρ (e g)⁻¹) * ρ (e g)) i j = ((v ᵥ* ρ (e i)⁻¹) ᵥ* ρ (e g)) j := rfl
        rw [this, vecMul_vecMul, ← map_mul, Matrix.of_apply, e.apply_symm_apply, _root_.mul_inv_rev, inv_inv]⟩
      left_inv := fun S => by
        apply Subtype.ext
        ext i j
        change (S.1 (e.symm 1) ᵥ* ρ (e i)⁻¹) j = S.1 i j
        have h1 : ∀ j, S.1 (e.symm 1) j = (S.1 * ρ (e i)) i j := by
          intro j
          have h2 := congrFun (congrFun (S.2 i) i) j
          rw [hmul, inv_mul_cancel] at h2
          exact h2
        have h3 : S.1 (e.symm 1) = S.1 i ᵥ* ρ (e i) := funext h1
        rw [h3, vecMul_vecMul, ← map_mul, mul_inv_cancel, map_one, vecMul_one]
      right_inv := fun v => by
        change v ᵥ* ρ (e (e.symm 1))⁻¹ = v
        rw [e.apply_symm_apply, inv_one, map_one, vecMul_one] }
  rw [this, finrank_fin_fun]

end LieNN.Semi
