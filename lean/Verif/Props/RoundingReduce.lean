import Verif.Proofs.RoundingReduce
import Verif.Props.RoundingDecompose
import Verif.Props.Reduce
import Verif.Spec.RoundReduce
/-!
# C111: `reduce` with rounding errors
-/
namespace LieNN.Props

open Matrix Spec Rounding

section C111

variable {n h d : ℕ} {δ eps : ℝ}

/-- C111, consistency: the exact model of one turn of the loop is a run. -/
theorem C111_block_exact {eigh : EighFn} (he : EighSpec eigh) (hδ : 0 ≤ δ) (hn : n + h ≠ 0) (r : Rep n h d)
    (Y : Block (n + h)) : ReduceBlockRun δ r Y (reduceBlock eigh r Y) := by
  refine ⟨_, ⟨hn, _, nullRun_exact hδ he _, rfl⟩, fun Q a => r.allGens a * Q,
    fun Q a => Q * (blockIr r Y).allGens a, fun Q => ((Real.sqrt d : ℝ) : ℂ) • Q,
    fun Q _ a i k => by simpa using hδ, fun Q _ i k => by simpa using hδ, ?_⟩
  unfold reduceBlock Rep.inferChangeOfBasis LieNN.inferChangeOfBasis
  rw [if_neg hn]
  simp only [bind_assoc, pure_bind]
  rfl

/-- C111, consistency: the exact model of `reduce`, on the matrix `M` of `decompose_rep_into_irreps`, is a
run. -/
theorem C111_exact {eigh : EighFn} {eig : EigFn} {w : ℕ → ℝ} (he : EighSpec eigh) (hδ : 0 ≤ δ) (hn : n + h ≠ 0)
    (r : Rep n h d) (fuel : ℕ) {Q : List (Matrix (Fin d) (Fin d) ℂ)}
    (hQ : inferChangeOfBasis eigh eps r.allGens r.allGens = .ok Q) {M : Matrix (Fin d) (Fin d) ℂ}
    (hM : M = ∑ l : Fin Q.length, ((w l : ℝ) : ℂ) • Q.get l) :
    ReduceRepRun δ eps r (eig d M).1 (eig d M).2 fuel (reduceRep eigh eig w eps r fuel) := by
  refine ⟨_, C104_decompose_exact hδ eig r.allGens M fuel, ?_⟩
  have e : decomposeRep eigh eig w eps r.allGens fuel = decomposeFrom eig eps r.allGens M fuel := by
    unfold decomposeRep
    rw [hQ, hM]
  unfold reduceRep
  rw [e]
  rcases decomposeFrom eig eps r.allGens M fuel with _ | e | Ys
  · rfl
  · rfl
  · refine ⟨(Ys.mergeSort fun Y Z => decide (Y.1 ≤ Z.1)).map (reduceBlock eigh r), ?_, ?_⟩
    · rw [List.forall₂_map_right_iff, List.forall₂_same]
      exact fun Y _ => C111_block_exact he hδ hn r Y
    · rw [List.mapM_map]
      rfl

/-- C111: with rounding errors, `reduce` of a representation whose irreducible parts occur once.  For a size, a
tolerance, a gap between the eigenvalues, a condition number of the eigenvectors, a gap of the change of basis
equations, a bound of the generators and a wanted accuracy there is an error bound below which every run
returns pieces, one for each eigenvalue and in order of dimension, within the wanted accuracy of exact
irreducible pieces which give back the representation. -/
theorem C111_reduce (n h d : ℕ) {eps γ γ' κ bx τ : ℝ} (hn : n ≠ 0) (hd0 : d ≠ 0) (heps : 0 < eps) (hγ : eps < γ)
    (hκ0 : 0 < κ) (hκd : d * eps ^ 2 < κ ^ 2) (hd : d * eps ^ 2 < 1) (hd' : d * d < 10 ^ 8)
    (hγ' : 1 / 10 ^ 4 < γ') (hτ : 0 < τ) :
    ∃ Δ > 0, ∀ δ, 0 ≤ δ → δ ≤ Δ → ∀ r : Rep n h d,
      (∀ a p q, (r.allGens a p q).im = 0) → (∀ a, ∑ p, ∑ q, ‖r.allGens a p q‖ ≤ bx) →
      ∀ (M : Matrix (Fin d) (Fin d) ℂ) (val : Fin d → ℂ) (vec : Fin d → Vec d),
      (∀ a, r.allGens a * M = M * r.allGens a) →
      (∀ k, M *ᵥ (vec k).ofLp = val k • (vec k).ofLp) → (∀ k, ‖vec k‖ = 1) →
      (∀ c : Vec d, κ * ‖c‖ ≤ ‖∑ k, c k • vec k‖) → (∀ i j, val i ≠ val j → γ ≤ ‖val i - val j‖) →
      MinimalEigenspaces r.allGens M →
      (∀ (k : ℕ) (V : Matrix (Fin d) (Fin k) ℂ) (Z : Fin (n + h) → Matrix (Fin k) (Fin k) ℂ), Vᴴ * V = 1 →
        (∀ a, r.allGens a * V = V * Z a) → IrreducibleFamily Z → Gap γ' (icobMatrix r.allGens Z)) →
      ∀ (val' : Fin d → ℂ) (vec' : Fin d → Vec d), (∀ k, ‖val' k - val k‖ ≤ δ) → (∀ k, ‖vec' k - vec k‖ ≤ δ) →
      ∀ fuel, d < fuel → ∀ res, ReduceRepRun δ eps r val' vec' fuel res →
        ((∀ S T : Matrix (Fin d) (Fin d) ℂ, (∀ a, r.allGens a * S = S * r.allGens a) →
          (∀ a, r.allGens a * T = T * r.allGens a) → S * T = T * S) →
          ∃ ps ps₀ : List (Piece n h d),
            res = some (.ok ⟨r.A, ps.map Piece.mulIr, some ⟨d, _, catQ ps⟩⟩) ∧
            List.Forall₂ (PieceClose τ) ps ps₀ ∧
            Acts (⟨r.A, ps₀.map Piece.mulIr, some ⟨d, _, catQ ps₀⟩⟩ : ReducedRep (genericTable n h)) r ∧
            (∀ p ∈ ps₀, IrreducibleFamily p.2.1.allGens) ∧
            ps.length = (Finset.univ.image val).card ∧ (ps.map fun p => p.1).Pairwise (· ≤ ·)) ∧
        ((∃ S T : Matrix (Fin d) (Fin d) ℂ, (∀ a, r.allGens a * S = S * r.allGens a) ∧
          (∀ a, r.allGens a * T = T * r.allGens a) ∧ S * T ≠ T * S) →
          res = some (.error .valueError)) := by
  obtain ⟨Δ₂, hΔ₂, hblk⟩ := reduceBlock_run n h d (bx := bx) hγ' hd' hτ
  obtain ⟨Δ₁, hΔ₁, hdec⟩ := C104_decompose d (bx := bx) (τ := min τ Δ₂) hd0 heps hγ hκ0 hκd hd (lt_min hτ hΔ₂)
  refine ⟨min Δ₁ Δ₂, lt_min hΔ₁ hΔ₂, ?_⟩
  intro δ hδ hδΔ r hreal hbx M val vec hcomm hev hnorm hκ hsep hmin hgap val' vec' hval hvec fuel hf res hrun
  obtain ⟨out, hout, hrun⟩ := hrun
  obtain ⟨Ys, rfl, hYlen, hYsum, V, Z, hVZ, hspan⟩ := hdec δ hδ (hδΔ.trans (min_le_left _ _)) _ r.allGens hreal hbx
    M val vec hcomm hev hnorm hκ hsep val' vec' hval hvec fuel hf out hout
  obtain ⟨bs, hbs, rfl⟩ := hrun
  have hirr : ∀ b, IrreducibleFamily (Z b) := fun b => (hVZ b).2.2.2 hmin
  have hXV : ∀ b a, r.allGens a * V b = V b * Z b a := fun b => (hVZ b).2.1
  have hsum : ∑ b, (Ys.get b).1 = d := by
    rw [← hYsum, ← List.sum_ofFn]
    congr 1
    conv_rhs => rw [← List.ofFn_get Ys, List.map_ofFn]
    rfl
  have hle : ∀ b, (Ys.get b).1 ≤ d := fun b => by
    conv_rhs => rw [← hsum]
    exact Finset.single_le_sum (f := fun b => (Ys.get b).1) (fun _ _ => Nat.zero_le _) (Finset.mem_univ b)
  -- the positions of the blocks, in sorted order
  have hperm : (Ys.mergeSort fun Y Z => decide (Y.1 ≤ Z.1)).Perm Ys := List.mergeSort_perm _ _
  have hidx : List.Forall₂ (fun Y b => Y = Ys.get b) Ys (List.finRange Ys.length) := by
    rw [List.forall₂_iff_get]
    refine ⟨by simp, fun i h1 h2 => ?_⟩
    simp
  obtain ⟨idx, hidx', hip⟩ := List.perm_comp_forall₂ hperm hidx
  have hZs : (Ys.mergeSort fun Y Z => decide (Y.1 ≤ Z.1)) = idx.map Ys.get := by
    clear hbs hperm
    generalize (Ys.mergeSort fun Y Z => decide (Y.1 ≤ Z.1)) = l at hidx'
    clear hip
    induction hidx' with
    | nil => rfl
    | cons h1 _ ih => rw [List.map_cons, ← ih, h1]
  have hmem : ∀ b, b ∈ idx := fun b => hip.mem_iff.2 (List.mem_finRange b)
  rw [hZs, List.forall₂_map_left_iff] at hbs
  have hone := fun b (res : Py (Piece n h d)) (hr : ReduceBlockRun δ r (Ys.get b) res) =>
    hblk δ hδ (hδΔ.trans (min_le_right _ _)) r hbx (Ys.get b).1 (hle b) (Ys.get b).2 (Z b) (V b) (hVZ b).1 (hXV b)
      (fun a i j => ((hVZ b).2.2.1 a i j).trans (min_le_right _ _)) (hgap _ _ _ (hVZ b).1 (hXV b) (hirr b)) res hr
  constructor
  · intro hcc
    have hfin := finrank_one_of_commutative hXV hsum hspan hirr hcc
    obtain ⟨ts, e1, e2, e3⟩ := reduceLoop_ok (R := fun b res => ReduceBlockRun δ r (Ys.get b) res)
      (G := fun b p q => PieceClose τ p q ∧ p.1 = (Ys.get b).1 ∧ q.1 = (Ys.get b).1 ∧
        (∀ a, r.allGens a * q.2.2 = q.2.2 * q.2.1.allGens a) ∧ IrreducibleFamily q.2.1.allGens ∧
        ∀ j, ∃ (c : ℂ) (j' : Fin q.1), (fun i => V b i j) = c • fun i => q.2.2 i j') (by
        intro b res hr
        obtain ⟨Q, Q₀, hres, hQ, hX, -, hall⟩ := (hone b res hr).1 (hfin b)
        refine ⟨_, ⟨(Ys.get b).1, blockIr r ⟨(Ys.get b).1, Z b⟩, Q₀⟩, hres, ⟨rfl, rfl, ?_, ?_, hQ⟩, rfl, rfl, ?_, ?_, ?_⟩
        · exact fun a i j => ((hVZ b).2.2.1 _ i j).trans (min_le_left _ _)
        · exact fun a i j => ((hVZ b).2.2.1 _ i j).trans (min_le_left _ _)
        · intro a
          rw [allGens_blockIr]
          exact hX a
        · rw [allGens_blockIr]
          exact hirr b
        · intro j
          obtain ⟨c, hc⟩ := hall _ (hXV b)
          exact ⟨c, j, by rw [hc]; rfl⟩) hbs
    have hne : ts ≠ [] := by
      rintro rfl
      rw [← e1] at hip
      have h0 : (List.finRange Ys.length).length = 0 := by rw [← hip.length_eq]; rfl
      rw [List.length_finRange] at h0
      rw [List.length_eq_zero_iff] at h0
      rw [h0] at hYsum
      exact hd0 hYsum.symm
    refine ⟨ts.map fun t => t.2.1, ts.map fun t => t.2.2, ?_, ?_, ?_, ?_, ?_, ?_⟩
    · rw [e2]
      match ts, hne with
      | t :: ts, _ => rfl
    · rw [List.forall₂_map_left_iff, List.forall₂_map_right_iff, List.forall₂_same]
      exact fun t ht => (e3 t ht).1
    · refine pieces_act hn r _ (by simpa using hne) ?_ ?_ ?_
      · intro p hp
        obtain ⟨t, ht, rfl⟩ := List.mem_map.1 hp
        exact (allGens_iff _).1 (e3 t ht).2.2.2.1
      · have e4 : (ts.map fun t => t.2.2).map (fun p => p.1) = idx.map fun b => (Ys.get b).1 := by
          rw [← e1, List.map_map, List.map_map]
          exact List.map_congr_left fun t ht => (e3 t ht).2.2.1
        rw [e4, (hip.map _).sum_eq, ← hsum, ← List.sum_ofFn, List.ofFn_eq_map]
      · rw [eq_top_iff, ← hspan, Submodule.span_le]
        rintro x ⟨b, j, rfl⟩
        have hb := hmem b
        rw [← e1] at hb
        obtain ⟨t, ht, rfl⟩ := List.mem_map.1 hb
        obtain ⟨c, j', e⟩ := (e3 t ht).2.2.2.2.2 j
        rw [SetLike.mem_coe, e]
        exact Submodule.smul_mem _ _ (Submodule.subset_span ⟨t.2.2, List.mem_map_of_mem ht, j', rfl⟩)
    · intro p hp
      obtain ⟨t, ht, rfl⟩ := List.mem_map.1 hp
      exact (e3 t ht).2.2.2.2.1
    · rw [List.length_map, ← hYlen]
      have h1 := hip.length_eq
      rw [← e1, List.length_map, List.length_finRange] at h1
      exact h1
    · have e4 : (ts.map fun t => t.2.1).map (fun p => p.1) =
          (Ys.mergeSort fun Y Z => decide (Y.1 ≤ Z.1)).map fun Y => Y.1 := by
        rw [hZs, ← e1, List.map_map, List.map_map, List.map_map]
        exact List.map_congr_left fun t ht => (e3 t ht).2.1
      rw [e4, List.pairwise_map]
      have := List.pairwise_mergeSort (le := fun Y Z : Block (n + h) => decide (Y.1 ≤ Z.1))
        (by intro a b c; simp; omega) (by intro a b; simp; omega) Ys
      exact this.imp (by simp)
  · rintro ⟨S, T, hS, hT, hne⟩
    obtain ⟨b, hb⟩ : ∃ b, Module.finrank ℂ (intertwiners r.allGens (Z b)) ≠ 1 := by
      by_contra hcon
      push Not at hcon
      exact hne (commutative_of_finrank_one hXV hspan hcon hS hT)
    have hpos : ∀ b, d * (Ys.get b).1 ≠ 0 := fun b => Nat.mul_ne_zero hd0 (hirr b).1.ne'
    rw [reduceLoop_error (err := .valueError)]
    · rfl
    · intro x hx
      obtain ⟨p, hp, rfl⟩ := List.mem_iff_getElem.1 hx
      have hr := (List.forall₂_iff_get.1 hbs).2 p (hbs.length_eq ▸ hp) hp
      by_cases h1 : Module.finrank ℂ (intertwiners r.allGens (Z (idx.get ⟨p, hbs.length_eq ▸ hp⟩))) = 1
      · obtain ⟨Q, -, hres, -⟩ := (hone _ _ hr).1 h1
        exact Or.inl ⟨_, hres⟩
      · exact Or.inr ((hone _ _ hr).2 h1 (hpos _))
    · obtain ⟨p, hp, rfl⟩ := List.mem_iff_getElem.1 (hmem b)
      have hp' : p < bs.length := hbs.length_eq ▸ hp
      have hr := (List.forall₂_iff_get.1 hbs).2 p hp hp'
      rw [← (hone _ _ hr).2 hb (hpos _)]
      exact List.get_mem _ _

end C111

/-! ### Non-vacuity -/

/-- An irreducible family of one matrix has size one. -/
theorem irreducible_single {k : ℕ} {Z : Fin (1 + 0) → Matrix (Fin k) (Fin k) ℂ} (hZ : IrreducibleFamily Z) :
    k = 1 := by
  obtain ⟨c, hc⟩ := schur hZ (S := Z (Fin.castAdd 0 0)) (fun a => by rw [fin_one_zero a])
  have hk := hZ.1
  rcases hZ.2 (Submodule.span ℂ {Pi.single ⟨0, hk⟩ 1}) (fun a w hw => by
    rw [fin_one_zero a, hc, smul_mulVec, one_mulVec]
    exact Submodule.smul_mem _ _ hw) with h | h
  · rw [Submodule.span_singleton_eq_bot] at h
    have := congrFun h ⟨0, hk⟩
    simp at this
  · have h1 := finrank_span_singleton (K := ℂ) (v := (Pi.single ⟨0, hk⟩ 1 : Fin k → ℂ)) (by
      intro h0
      have := congrFun h0 ⟨0, hk⟩
      simp at this)
    rw [h] at h1
    simpa using h1

theorem single_comb (c : Vec 2) : ‖∑ k, c k • (EuclideanSpace.single k (1 : ℂ) : Vec 2)‖ = ‖c‖ := by
  congr 1
  ext p
  fin_cases p <;> simp [Fin.sum_univ_two]

/-- The eigenspaces of `diag(0, 1)` are lines. -/
theorem diag_minimal {N : ℕ} (X : Fin N → Matrix (Fin 2) (Fin 2) ℂ) : MinimalEigenspaces X !![0, 0; 0, 1] := by
  intro μ U hU hne hM v hv
  obtain ⟨u, hu, hu0⟩ := (Submodule.ne_bot_iff U).1 hne
  have hMu := hM u hu
  have u0 := congrFun hMu 0
  have u1 := congrFun hMu 1
  have v0 := congrFun hv 0
  have v1 := congrFun hv 1
  simp [mulVec, dotProduct, Fin.sum_univ_two] at u0 u1 v0 v1
  by_cases hμ : μ = 0
  · subst hμ
    have hu1 : u 1 = 0 := by simpa using u1
    have hv1 : v 1 = 0 := by simpa using v1
    have hu00 : u 0 ≠ 0 := fun h0 => hu0 (by funext p; fin_cases p <;> simp [h0, hu1])
    have e : v = (v 0 / u 0) • u := by
      funext p; fin_cases p <;> simp [hu1, hv1, hu00]
    rw [e]; exact U.smul_mem _ hu
  · have hu00 : u 0 = 0 := u0.resolve_left hμ
    have hv00 : v 0 = 0 := v0.resolve_left hμ
    have hu1 : u 1 ≠ 0 := fun h0 => hu0 (by funext p; fin_cases p <;> simp [h0, hu00])
    have e : v = (v 1 / u 1) • u := by
      funext p; fin_cases p <;> simp [hu1, hu00, hv00]
    rw [e]; exact U.smul_mem _ hu

theorem diag_eig (k : Fin 2) : (!![0, 0; 0, 1] : Matrix (Fin 2) (Fin 2) ℂ) *ᵥ
    (EuclideanSpace.single k (1 : ℂ) : Vec 2).ofLp = (![0, 1] : Fin 2 → ℂ) k • (EuclideanSpace.single k (1 : ℂ) : Vec 2).ofLp := by
  funext p; fin_cases k <;> fin_cases p <;> simp [mulVec, dotProduct]

theorem diag_sep (i j : Fin 2) (hij : (![0, 1] : Fin 2 → ℂ) i ≠ (![0, 1] : Fin 2 → ℂ) j) :
    1 ≤ ‖(![0, 1] : Fin 2 → ℂ) i - (![0, 1] : Fin 2 → ℂ) j‖ := by
  fin_cases i <;> fin_cases j <;> simp_all

theorem zeroRep_gens : zeroRep.allGens = 0 := by
  funext a
  obtain rfl := fin_one_zero a
  simp [Rep.allGens, zeroRep]

theorem zeroRep_gap {k : ℕ} (V : Matrix (Fin 2) (Fin k) ℂ) (Z : Fin (1 + 0) → Matrix (Fin k) (Fin k) ℂ)
    (hV : Vᴴ * V = 1) (hXV : ∀ a, zeroRep.allGens a * V = V * Z a) : Gap 1 (icobMatrix zeroRep.allGens Z) := by
  have hZ0 : Z = 0 := by
    funext a
    have h1 := hXV a
    rw [zeroRep_gens] at h1
    have h2 := congrArg (Vᴴ * ·) h1
    simp only [← Matrix.mul_assoc, hV, Matrix.one_mul] at h2
    simpa using h2.symm
  rw [zeroRep_gens, hZ0]
  apply gap_icob
  intro μ S hS hev hμ
  have hμ' : (μ : ℂ) ≠ 0 := by exact_mod_cast hμ.ne'
  have h0 : (μ : ℂ) • S = 0 := by rw [← hev]; simp
  exact absurd ((smul_eq_zero.1 h0).resolve_left hμ') hS

/-- The hypotheses of `C111_reduce`, commutative case: `diag(0, 1)` is reduced to its two parts. -/
example : ∃ Δ > 0, ∀ res, ReduceRepRun Δ (1 / 10 ^ 10) diagRep ![0, 1] (fun k => EuclideanSpace.single k 1) 3 res →
    ∃ ps : List (Piece 1 0 2), ps.length = 2 ∧
      res = some (.ok ⟨diagRep.A, ps.map Piece.mulIr, some ⟨2, _, catQ ps⟩⟩) := by
  obtain ⟨Δ, hΔ, hh⟩ := C111_reduce 1 0 2 (eps := 1 / 10 ^ 10) (γ := 1) (γ' := 1) (κ := 1) (bx := 1) (τ := 1 / 100)
    (by norm_num) (by norm_num) (by norm_num) (by norm_num) (by norm_num) (by norm_num) (by norm_num) (by norm_num)
    (by norm_num) (by norm_num)
  refine ⟨Δ, hΔ, fun res hres => ?_⟩
  obtain ⟨h1, -⟩ := hh Δ hΔ.le le_rfl diagRep
    (fun a p q => by rw [diagRep_gens]; fin_cases p <;> fin_cases q <;> simp)
    (fun a => by rw [diagRep_gens]; simp [Fin.sum_univ_two])
    !![0, 0; 0, 1] ![0, 1] (fun k => EuclideanSpace.single k 1)
    (fun a => by rw [diagRep_gens])
    diag_eig (fun k => by simp) (fun c => by rw [single_comb, one_mul]) diag_sep
    (diag_minimal _)
    (fun k V Z hV hXV hZ => (diag_block le_rfl ⟨k, Z⟩ (irreducible_single hZ) ⟨V, hV, hXV⟩).1)
    ![0, 1] (fun k => EuclideanSpace.single k 1) (fun k => by simpa using hΔ.le) (fun k => by simpa using hΔ.le) 3
    (by norm_num) res hres
  obtain ⟨ps, ps₀, e1, -, -, -, e2, -⟩ := h1 (fun S T hS hT => by
    obtain ⟨s1, s2⟩ := (mem_diag S).1 hS
    obtain ⟨t1, t2⟩ := (mem_diag T).1 hT
    ext i j
    fin_cases i <;> fin_cases j <;> simp [Matrix.mul_apply, Fin.sum_univ_two, s1, s2, t1, t2, mul_comm])
  refine ⟨ps, ?_, e1⟩
  rw [e2]
  have : (Finset.univ.image (![0, 1] : Fin 2 → ℂ)) = {0, 1} := by
    ext x; simp [Fin.exists_fin_two, eq_comm]
  rw [this, Finset.card_pair zero_ne_one]

/-- The hypotheses of `C111_reduce`, other case: two copies of the trivial representation. -/
example : ∃ Δ > 0, ∀ res, ReduceRepRun Δ (1 / 10 ^ 10) zeroRep ![0, 1] (fun k => EuclideanSpace.single k 1) 3 res →
    res = some (.error .valueError) := by
  obtain ⟨Δ, hΔ, hh⟩ := C111_reduce 1 0 2 (eps := 1 / 10 ^ 10) (γ := 1) (γ' := 1) (κ := 1) (bx := 1) (τ := 1 / 100)
    (by norm_num) (by norm_num) (by norm_num) (by norm_num) (by norm_num) (by norm_num) (by norm_num) (by norm_num)
    (by norm_num) (by norm_num)
  refine ⟨Δ, hΔ, fun res hres => ?_⟩
  obtain ⟨-, h2⟩ := hh Δ hΔ.le le_rfl zeroRep
    (fun a p q => by rw [zeroRep_gens]; simp) (fun a => by rw [zeroRep_gens]; simp)
    !![0, 0; 0, 1] ![0, 1] (fun k => EuclideanSpace.single k 1)
    (fun a => by rw [zeroRep_gens]; simp)
    diag_eig (fun k => by simp) (fun c => by rw [single_comb, one_mul]) diag_sep
    (diag_minimal _)
    (fun k V Z hV hXV _ => zeroRep_gap V Z hV hXV)
    ![0, 1] (fun k => EuclideanSpace.single k 1) (fun k => by simpa using hΔ.le) (fun k => by simpa using hΔ.le) 3
    (by norm_num) res hres
  refine h2 ⟨!![1, 0; 0, 0], !![0, 1; 0, 0], fun a => by rw [zeroRep_gens]; simp, fun a => by rw [zeroRep_gens]; simp, fun h => ?_⟩
  have := congrFun (congrFun h 0) 1
  simp [Matrix.mul_apply, Fin.sum_univ_two] at this

end LieNN.Props
