import Verif.Proofs.TBError
import Verif.Proofs.TBTable

/-!
# Properties of `_reduced_tensor_product_basis` (C70)
-/
namespace LieNN.Props

open Matrix LieNN.Spec LieNN.TBasis LieNN.PermRepr LieNN.IArr

variable {n h m : ℕ} {T : Table n h}

/-- `basis_intersection` with the tolerance `eps`. -/
noncomputable abbrev interEps (eigh : EighFn) (eps : ℝ) : InterFn :=
  fun _ _ _ B₁ B₂ => basisIntersection eigh eps B₁ B₂

/-- **C70.** At least two indices, a group of signed permutations that only exchanges indices with the same
representation.  For all small enough tolerances and all sufficiently long runs the result is the same;
a result that is not an exception is a basis of the tensors with the symmetry, made of equivariant
blocks, sorted, with one block per irrep; without signs there is no exception. -/
theorem C70_basis [LinearOrder T.Ir] {eigh : EighFn} (he : EighSpec eigh) (hr : EighReal eigh)
    {ord : SetOrder} (hord : SortedOrder m ord) (hT : GoodTable T) (hm : 2 ≤ m)
    (irs : Fin m → ReducedRep T) (hgood : ∀ i, GoodRed (irs i)) (R : ∀ i, Rep n h (irs i).dim)
    (hact : ∀ i, ActsG (irs i) (R i)) (G : Subgroup (SignedPerm m)) (Gs : Finset SP)
    (hGs : (Gs : Set SP) = stup '' (G : Set (SignedPerm m)))
    (hδ : ∀ g ∈ G, ∀ k, (irs (g.2 k)).dim = (irs k).dim)
    (hN : ∀ g ∈ G, ∀ k, NRep.of (R (g.2 k)) = NRep.of (R k)) :
    ∃ K r e, 0 < e ∧ (∀ eps, 0 < eps → eps < e → ∀ fuel ≥ K,
        reducedBasis (interEps eigh eps) ord fuel irs Gs = some r) ∧
      (∀ out, r = .ok out → out ≠ [] ∧
        IsReducedBasis (fun i => (irs i).dim) (fun i => NRep.of (R i)) (G : Set (SignedPerm m)) out) ∧
      ((∀ g ∈ G, g.1 = 1) → ∃ out, r = .ok out) := by
  obtain ⟨bases, h1, h2, h3⟩ := bases_init hT hgood R hact (G : Set (SignedPerm m))
  obtain ⟨K, r, g1, g2, g3⟩ := loop_spec (interLim_spec he hr) hord hT m le_rfl irs hgood R hact G Gs hGs hδ hN
    bases h3 (by omega)
  obtain ⟨e, he0, hl⟩ := loop_small eigh ord K irs Gs bases
  refine ⟨K, r, e, he0, fun eps e0 e1 fuel hf => ?_, fun out ho => ⟨(g2 out ho).1.ne, (g2 out ho).2⟩, g3⟩
  rw [reducedBasis, h1]
  exact loop_mono hf ((hl eps e0 e1).trans (g1 K le_rfl))

/-- **C70.** A successful run with symmetry `G` means that there are tensors with this symmetry: when
there is none but zero, an exception is raised. -/
theorem C70_no_tensor [LinearOrder T.Ir] {eigh : EighFn} (he : EighSpec eigh) (hr : EighReal eigh)
    {ord : SetOrder} (hord : SortedOrder m ord) (hT : GoodTable T) (hm : 2 ≤ m)
    (irs : Fin m → ReducedRep T) (hgood : ∀ i, GoodRed (irs i)) (R : ∀ i, Rep n h (irs i).dim)
    (hact : ∀ i, ActsG (irs i) (R i)) (G : Subgroup (SignedPerm m)) (Gs : Finset SP)
    (hGs : (Gs : Set SP) = stup '' (G : Set (SignedPerm m)))
    (hδ : ∀ g ∈ G, ∀ k, (irs (g.2 k)).dim = (irs k).dim)
    (hN : ∀ g ∈ G, ∀ k, NRep.of (R (g.2 k)) = NRep.of (R k))
    (h0 : symC (G : Set (SignedPerm m)) (fun i => (irs i).dim) = ⊥) :
    ∃ K err e, 0 < e ∧ ∀ eps, 0 < eps → eps < e → ∀ fuel ≥ K,
        reducedBasis (interEps eigh eps) ord fuel irs Gs = some (.error err) := by
  obtain ⟨K, r, e, he0, h1, h2, _⟩ := C70_basis he hr hord hT hm irs hgood R hact G Gs hGs hδ hN
  cases r with
  | error err => exact ⟨K, err, e, he0, h1⟩
  | ok out =>
    exfalso
    obtain ⟨hne, hb⟩ := h2 out rfl
    obtain ⟨b, l, rfl⟩ := List.exists_cons_of_ne_nil hne
    have hc : col (fun i => (irs i).dim) (b :: l)
        ⟨⟨0, by simp⟩, ⟨0, Nat.pos_of_ne_zero (hb.mul b (by simp))⟩, ⟨0, hT.pos _⟩⟩ ∈
        symC (G : Set (SignedPerm m)) (fun i => (irs i).dim) := by
      rw [← hb.span]
      exact Submodule.subset_span ⟨_, rfl⟩
    rw [h0, Submodule.mem_bot] at hc
    exact hb.indep.ne_zero _ hc

/-- **C70.** In particular a symmetry that contains "minus the identity" always raises with two or more
indices. -/
theorem C70_minus [LinearOrder T.Ir] {eigh : EighFn} (he : EighSpec eigh) (hr : EighReal eigh)
    {ord : SetOrder} (hord : SortedOrder m ord) (hT : GoodTable T) (hm : 2 ≤ m)
    (irs : Fin m → ReducedRep T) (hgood : ∀ i, GoodRed (irs i)) (R : ∀ i, Rep n h (irs i).dim)
    (hact : ∀ i, ActsG (irs i) (R i)) (G : Subgroup (SignedPerm m)) (Gs : Finset SP)
    (hGs : (Gs : Set SP) = stup '' (G : Set (SignedPerm m)))
    (hδ : ∀ g ∈ G, ∀ k, (irs (g.2 k)).dim = (irs k).dim)
    (hN : ∀ g ∈ G, ∀ k, NRep.of (R (g.2 k)) = NRep.of (R k))
    (h0 : ((-1, 1) : SignedPerm m) ∈ G) :
    ∃ K err e, 0 < e ∧ ∀ eps, 0 < eps → eps < e → ∀ fuel ≥ K,
        reducedBasis (interEps eigh eps) ord fuel irs Gs = some (.error err) := by
  refine C70_no_tensor he hr hord hT hm irs hgood R hact G Gs hGs hδ hN ?_
  rw [Submodule.eq_bot_iff]
  intro t ht
  funext ξ
  have := ht _ h0 ξ ξ (by simp)
  simp only [Units.val_neg, Units.val_one, Int.cast_neg, Int.cast_one] at this
  have h2 : (2 : ℂ) * t ξ = 0 := by linear_combination this
  exact (mul_eq_zero.1 h2).resolve_left two_ne_zero

/-- **C70.** A single index: the result does not depend on the symmetry, it is a basis of all tensors. -/
theorem C70_one [LinearOrder T.Ir] (inter : InterFn) (ord : SetOrder) (hT : GoodTable T)
    (irs : Fin 1 → ReducedRep T) (hgood : ∀ i, GoodRed (irs i)) (R : ∀ i, Rep n h (irs i).dim)
    (hact : ∀ i, ActsG (irs i) (R i)) :
    ∃ out, out ≠ [] ∧ IsReducedBasis (fun i => (irs i).dim) (fun i => NRep.of (R i)) {1} out ∧
      ∀ Gs, ∀ fuel ≥ 1, reducedBasis inter ord fuel irs Gs = some (.ok out) := by
  obtain ⟨bases, h1, h2, h3⟩ := bases_init hT hgood R hact {1}
  obtain ⟨⟨f, b⟩, rfl⟩ := List.length_eq_one_iff.1 h2
  have hf : f = Finset.univ := by
    ext k
    simp only [Finset.mem_univ, iff_true]
    obtain ⟨x, hx, hk⟩ := h3.cov k
    rw [List.mem_singleton] at hx
    rw [hx] at hk
    exact hk
  have hinv := h3.inv (f, b) (by simp)
  simp only [hf] at hinv
  have heq := hinv.equi
  have hre := hinv.real
  have hin := hinv.indep
  have hsy := hinv.sym
  rw [pad_univ] at heq hre hin hsy
  rw [stab_univ] at hsy
  have hF : Full (fun i => (irs i).dim) (fun i => NRep.of (R i)) {1} b := by
    refine ⟨hinv.ne, heq, hre, hinv.mul, hin, le_antisymm ?_ hsy⟩
    rintro t _ g hg ξ η he
    obtain rfl : g = 1 := hg
    have : η = ξ := Subtype.ext (by simpa using he)
    rw [this]; simp
  obtain ⟨out, ho, _⟩ := sortSimp_ok hinv.ne fun b hb => (heq b hb).shape
  obtain ⟨k1, k2⟩ := full_sortSimp hF ho
  refine ⟨out, k1.ne, k2, fun Gs fuel hfu => ?_⟩
  obtain ⟨fuel, rfl⟩ : ∃ k, fuel = k + 1 := ⟨fuel - 1, by omega⟩
  rw [reducedBasis, h1]
  show some (pyAssert (f = Finset.univ) >>= fun _ => sortSimp b) = _
  rw [pyAssert, if_pos hf, ← ho]
  rfl

/-- **C70** (defect): a formula such as `i=-i` asks for tensors equal to their opposite, that is for zero
only; the result is a basis of all tensors. -/
theorem C70_one_negative [LinearOrder T.Ir] (inter : InterFn) (ord : SetOrder) (hT : GoodTable T)
    (irs : Fin 1 → ReducedRep T) (hgood : ∀ i, GoodRed (irs i)) (R : ∀ i, Rep n h (irs i).dim)
    (hact : ∀ i, ActsG (irs i) (R i)) (G : Subgroup (SignedPerm 1)) (hG : ((-1, 1) : SignedPerm 1) ∈ G)
    (Gs : Finset SP) :
    ∃ out, (∀ fuel ≥ 1, reducedBasis inter ord fuel irs Gs = some (.ok out)) ∧
      ¬ IsReducedBasis (fun i => (irs i).dim) (fun i => NRep.of (R i)) (G : Set (SignedPerm 1)) out := by
  obtain ⟨out, hne, h1, h2⟩ := C70_one inter ord hT irs hgood R hact
  refine ⟨out, h2 Gs, fun hb => ?_⟩
  obtain ⟨b, l, rfl⟩ := List.exists_cons_of_ne_nil hne
  have hc : col (fun i => (irs i).dim) (b :: l)
      ⟨⟨0, by simp⟩, ⟨0, Nat.pos_of_ne_zero (hb.mul b (by simp))⟩, ⟨0, hT.pos _⟩⟩ ∈
      symC (G : Set (SignedPerm 1)) (fun i => (irs i).dim) := by
    rw [← hb.span]
    exact Submodule.subset_span ⟨_, rfl⟩
  refine hb.indep.ne_zero _ (?_ : col (fun i => (irs i).dim) (b :: l)
      ⟨⟨0, by simp⟩, ⟨0, Nat.pos_of_ne_zero (hb.mul b (by simp))⟩, ⟨0, hT.pos _⟩⟩ = 0)
  funext ξ
  have := hc _ hG ξ ξ (by simp)
  simp only [Units.val_neg, Units.val_one, Int.cast_neg, Int.cast_one] at this
  have h2 : (2 : ℂ) * col (fun i => (irs i).dim) (b :: l)
      ⟨⟨0, by simp⟩, ⟨0, Nat.pos_of_ne_zero (hb.mul b (by simp))⟩, ⟨0, hT.pos _⟩⟩ ξ = 0 := by
    linear_combination this
  exact (mul_eq_zero.1 h2).resolve_left two_ne_zero

/-- **C70.** No index: `i, j, f = best` raises `TypeError`. -/
theorem C70_zero [LinearOrder T.Ir] (inter : InterFn) (ord : SetOrder) (irs : Fin 0 → ReducedRep T)
    (Gs : Finset SP) (fuel : ℕ) :
    reducedBasis inter ord (fuel + 1) irs Gs = some (.error .typeError) := rfl

/-- **C70.** The hypothesis on the table holds for `SU2`, `SO3`, `O3`, `Z2`, `SL2C`, and for the products of
tables with this property. -/
theorem C70_tables : GoodTable SU2.table ∧ GoodTable SO3.table ∧ GoodTable O3.table ∧ GoodTable Z2.table ∧
    GoodTable SL2C.table ∧ ∀ {n₁ h₁ n₂ h₂ : ℕ} {T₁ : Table n₁ h₁} {T₂ : Table n₂ h₂}, GoodTable T₁ →
      GoodTable T₂ → GoodTable (T₁.product T₂) :=
  ⟨su2_goodTable, so3_goodTable, o3_goodTable, z2_goodTable, sl2c_goodTable, product_goodTable⟩

/-- **C70.** The representation of an object with the stated hypotheses exists, and equal objects have the
same one. -/
theorem C70_acts {r : ReducedRep T} (hg : GoodRed r) : ∃ R : Rep n h r.dim, ActsG r R ∧
    ∀ s : ReducedRep T, s = r → ∀ S : Rep n h s.dim, ActsG s S → NRep.of S = NRep.of R := by
  obtain ⟨R, hR⟩ := good_acts hg
  exact ⟨R, hR, fun s hs S hS => acts_nrep hs hS hR⟩

/-! ## A product without repeated eigenvalue that fails -/

/-- `ReducedRep.from_irreps` of `Z2(1)` and `Z2(-1)`. -/
noncomputable def signs : ReducedRep Z2.table := ⟨fun i => i.elim0, [⟨1, (1 : ℤ)⟩, ⟨1, (-1 : ℤ)⟩], none⟩

theorem signs_good : GoodRed signs := by
  refine ⟨by simp [signs], ?_, by simp [signs]⟩
  intro m hm
  simp only [signs, List.mem_cons, List.not_mem_nil, or_false] at hm
  rcases hm with rfl | rfl <;> simp

theorem signs_acts : ∃ R : Rep 0 1 signs.dim, ActsG signs R ∧
    ∀ q p, (NRep.of R).H 0 q p = if q = p ∧ q < 2 then (-1) ^ q else 0 := by
  refine ⟨blockRep signs.A signs.irreps 1, ⟨fun hn => absurd rfl hn,
    signs.discreteGenerators_ok signs_good.ne signs_good.mul rfl isUnit_one⟩, ?_⟩
  intro q p
  have hd : signs.dim = 2 := rfl
  simp only [NRep.of, blockRep]
  by_cases hq : q < 2
  · by_cases hp : p < 2
    · rw [dif_pos ⟨hq, hp⟩]
      rw [inv_one, Matrix.one_mul, Matrix.mul_one]
      obtain rfl | rfl : q = 0 ∨ q = 1 := by omega
      all_goals obtain rfl | rfl : p = 0 ∨ p = 1 := by omega
      all_goals
        have e1 : MulIr.dim (T := Z2.table) ⟨1, (1 : ℤ)⟩ = 1 := rfl
        have e2 : MulIr.dim (T := Z2.table) ⟨1, (-1 : ℤ)⟩ = 1 := rfl
        simp [signs, diagMat, dsum, kron, Z2.table, Z2.rep, Fin.addCases, Fin.modNat, Matrix.one_apply]
      · intro hh
        exact absurd hh (by change ¬ (1 < 1); omega)
      · intro hh
        exact absurd hh (by change ¬ (1 < 1); omega)
      · rw [if_neg (by change ¬ (1 < 1); omega), if_neg (by change ¬ (1 < 1); omega)]
    · rw [dif_neg (by omega), if_neg (by omega)]
  · rw [dif_neg (by omega), if_neg (by omega)]

/-- **C70** (defect): the antisymmetric square `ij=-ji` of `Z2(1) + Z2(-1)`.  There is an antisymmetric
tensor, but the block of the trivial irrep is supported on the diagonal, no row of the basis of
antisymmetric tensors survives the selection, and `basis_intersection` raises `ValueError`. -/
theorem C70_antisymmetric_negative [LinearOrder (Z2.table.Ir)] {eigh : EighFn} (he : EighSpec eigh)
    (hr : EighReal eigh) {ord : SetOrder} (hord : SortedOrder 2 ord) (G : Subgroup (SignedPerm 2))
    (hG : ∀ g, g ∈ G ↔ g = 1 ∨ g = (-1, Equiv.swap 0 1)) (Gs : Finset SP)
    (hGs : (Gs : Set SP) = stup '' (G : Set (SignedPerm 2))) :
    symC (G : Set (SignedPerm 2)) (fun _ => signs.dim) ≠ ⊥ ∧
    ∃ e > 0, ∀ eps, 0 < eps → eps < e → ∀ fuel ≥ 1,
      reducedBasis (interEps eigh eps) ord fuel (fun _ : Fin 2 => signs) Gs =
        some (.error .valueError) := by
  constructor
  · intro h0
    have hmem : (fun ξ : Box fun _ : Fin 2 => signs.dim => ((ξ.1 1 : ℂ) - ξ.1 0)) ∈
        symC (G : Set (SignedPerm 2)) fun _ => signs.dim := by
      intro g hg ξ η hη
      rcases (hG g).1 hg with rfl | rfl
      · have : η = ξ := Subtype.ext (by simpa using hη)
        rw [this]; simp
      · simp [hη]
    rw [h0, Submodule.mem_bot] at hmem
    have := congrFun hmem ⟨![0, 1], by
      show _ ∈ box _
      rw [memb]
      intro k
      have : signs.dim = 2 := rfl
      fin_cases k <;> simp [this]⟩
    simp at this
  · obtain ⟨R, hR, hH⟩ := signs_acts
    obtain ⟨bases, h1, h2, h3⟩ := inv_init z2_goodTable (irs := fun _ : Fin 2 => signs) (fun _ => signs_good)
      (fun _ => R) (fun _ => hR) {1}
    match bases, h1, h2, h3 with
    | [(fa, a), (fb, b)], h1, h2, h3 =>
      simp only [List.map_cons, List.map_nil, List.finRange_succ, List.cons.injEq] at h2
      obtain ⟨rfl, h2⟩ := h2
      simp only [List.finRange_zero, List.map_nil, and_true] at h2
      subst h2
      have hfin := finish_error (interLim_spec he hr) hord le_rfl z2_goodTable (G := G) hGs
        (δ := fun _ => signs.dim) (N := fun _ => NRep.of R) (fun _ => by show (2 : ℕ) ≠ 0; norm_num)
        (fun _ _ _ => rfl) (fa := {0}) (fb := {Fin.succ 0}) (by simp) (by ext k; fin_cases k <;> simp)
        (h3 ({0}, a) (by simp)) (h3 ({Fin.succ 0}, b) (by simp)) ⟨_, (hG _).2 (.inr rfl), by simp⟩ ⟨![0, 0], by
          show _ ∈ box _
          rw [memb]
          intro k
          have : signs.dim = 2 := rfl
          fin_cases k <;> simp [this]⟩ ?_
      · obtain ⟨e, he0, hl⟩ := loop_small (T := Z2.table) eigh ord 1 (fun _ : Fin 2 => signs) Gs _
        refine ⟨e, he0, fun eps e0 e1 fuel hf => ?_⟩
        rw [reducedBasis, h1]
        refine loop_mono hf ((hl eps e0 e1).trans ?_)
        exact congrArg some hfin
      · intro blk hb ⟨u, k, hu⟩ q ⟨v, hv⟩ t ht
        -- the parity of the irrep is the parity of the number of odd indices
        have key : ∀ q : Box fun _ : Fin 2 => signs.dim, ∀ u (l : Fin 1), blk.x q.1 u l ≠ 0 →
            Int.cast (R := ℂ) (id (α := ℤ) blk.ir) = (-1) ^ (q.1 0 + q.1 1) := by
          intro q u l hne
          have hq := memb.1 q.2
          have e1 : ∑ k : Fin 1, blk.x q.1 u k * (Z2.rep blk.ir).H 0 l k = _ := hb.H 0 q.1 q.2 u l
          rw [Fin.sum_univ_one, Finset.sum_eq_single q.1] at e1
          · simp only [tensorRep, Fin.prod_univ_two, hH, Finset.mem_univ, not_true, false_implies,
              implies_true, if_true, mul_one, true_and] at e1
            have hq0 : q.1 0 < 2 := hq 0
            have hq1 : q.1 1 < 2 := hq 1
            rw [if_pos hq0, if_pos hq1] at e1
            have h0 : l = 0 := Subsingleton.elim _ _
            subst h0
            have e2 : blk.x q.1 u (0 : Fin 1) * ((Int.cast (R := ℂ) (id (α := ℤ) blk.ir)) * 1) =
              (-1) ^ q.1 0 * (-1) ^ q.1 1 * blk.x q.1 u (0 : Fin 1) := e1
            rw [pow_add]
            apply mul_left_cancel₀ hne
            rw [mul_one] at e2
            rw [e2]; ring
          · intro q' _ hq'
            have : ∏ i, (NRep.of R).H 0 (q' i) (q.1 i) = 0 := by
              obtain ⟨i, hi⟩ := Function.ne_iff.1 hq'
              refine Finset.prod_eq_zero (Finset.mem_univ i) ?_
              rw [hH, if_neg (fun hh => hi hh.1)]
            simp only [tensorRep, this, zero_mul]
          · intro hno; exact absurd q.2 hno
        have h4 := key ⟨![0, 0], _⟩ u k hu
        have h5 := key q v 0 hv
        rw [h4] at h5
        have hq := memb.1 q.2
        have hq0 : q.1 0 < 2 := hq 0
        have hq1 : q.1 1 < 2 := hq 1
        have heq : q.1 0 = q.1 1 := by
          by_contra hne
          have : q.1 0 + q.1 1 = 1 := by omega
          rw [this] at h5
          norm_num at h5
        have h6 := ht _ ((hG _).2 (.inr rfl)) q q (by
          funext i
          fin_cases i
          · simpa using heq
          · simpa using heq.symm)
        simp only [Units.val_neg, Units.val_one, Int.cast_neg, Int.cast_one] at h6
        have h7 : (2 : ℂ) * t q = 0 := by linear_combination h6
        exact (mul_eq_zero.1 h7).resolve_left two_ne_zero

/-! ## The hypotheses can be met -/

/-- `ReducedRep.from_irreps` of `SO3(0), SO3(1), SO3(2), SO3(0)`, the input of the test of the repository. -/
noncomputable def scalars : ReducedRep SO3.table :=
  ⟨SU2.algebra, [⟨1, (0 : ℕ)⟩, ⟨1, (1 : ℕ)⟩, ⟨1, (2 : ℕ)⟩, ⟨1, (0 : ℕ)⟩], none⟩

theorem scalars_good : GoodRed scalars := by
  refine ⟨by simp [scalars], ?_, by simp [scalars]⟩
  intro m hm
  simp only [scalars, List.mem_cons, List.not_mem_nil, or_false] at hm
  rcases hm with rfl | rfl | rfl | rfl <;> simp

/-- Every signed permutation group has a list of tuples. -/
theorem exists_tuples (G : Set (SignedPerm m)) : ∃ Gs : Finset SP, (Gs : Set SP) = stup '' G :=
  ⟨((Set.toFinite G).image stup).toFinset, by simp⟩

theorem exists_order (M : ℕ) : ∃ ord : SetOrder, SortedOrder M ord :=
  ⟨fun _ f j => f.orderEmbOfFin rfl j, fun _ _ _ _ => rfl⟩

/-- The symmetric cube of a 10-dimensional representation of `SO3`: all hypotheses of `C70_basis` hold,
and the symmetry has no signs. -/
example : scalars.dim = 10 ∧ ∃ eigh, EighSpec eigh ∧ EighReal eigh ∧ ∃ ord, SortedOrder 3 ord ∧
    GoodTable SO3.table ∧ ∃ R : Rep 3 0 scalars.dim, ActsG scalars R ∧
    ∃ (G : Subgroup (SignedPerm 3)) (Gs : Finset SP), (Gs : Set SP) = stup '' (G : Set (SignedPerm 3)) ∧
      (1, Equiv.swap 0 1) ∈ G ∧ ∀ g ∈ G, g.1 = 1 := by
  obtain ⟨eigh, h1, h2⟩ := exists_eigh_real
  obtain ⟨ord, h3⟩ := exists_order 3
  obtain ⟨R, h4⟩ := good_acts scalars_good
  let G : Subgroup (SignedPerm 3) := (MonoidHom.fst ℤˣ (Equiv.Perm (Fin 3))).ker
  obtain ⟨Gs, h5⟩ := exists_tuples (G : Set (SignedPerm 3))
  exact ⟨rfl, eigh, h1, h2, ord, h3, so3_goodTable, R, h4, G, Gs, h5, MonoidHom.mem_ker.2 rfl,
    fun g hg => MonoidHom.mem_ker.1 hg⟩

/-- The group of `C70_antisymmetric_negative` exists. -/
example : ∃ G : Subgroup (SignedPerm 2), ∀ g, g ∈ G ↔ g = 1 ∨ g = (-1, Equiv.swap 0 1) := by
  refine ⟨{ carrier := {g | g = 1 ∨ g = (-1, Equiv.swap 0 1)}, mul_mem' := ?_, one_mem' := .inl rfl,
            inv_mem' := ?_ }, fun g => Iff.rfl⟩
  · rintro a b (rfl | rfl) (rfl | rfl) <;> simp [Prod.ext_iff]
  · rintro a (rfl | rfl) <;> simp [Prod.ext_iff]

/-- A group with "minus the identity" for `C70_minus` and `C70_one_negative`: all signed permutations. -/
example : ((-1, 1) : SignedPerm m) ∈ (⊤ : Subgroup (SignedPerm m)) := Subgroup.mem_top _

end LieNN.Props
