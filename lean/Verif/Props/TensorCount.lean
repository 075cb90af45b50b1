import Verif.Props.TensorFront
import Verif.Proofs.PermCount
import Verif.Proofs.TensorMult

/-!
# Numbers of components and multiplicities of reduced tensor products (C106)
-/
namespace LieNN.Props

open Matrix LieNN.Spec LieNN.TBasis LieNN.PermRepr LieNN.IArr LieNN.TFront Module

variable {n h m : ℕ} {T : Table n h}

/-- **C106.** `reduce_permutation_base`: the number of elements times the order of the group is the sum over
the group of the sign times the number of multi-indices that the permutation fixes. -/
theorem C106_base (G : Subgroup (SignedPerm m)) [Fintype G] (Gs : Finset SP)
    (hGs : (Gs : Set SP) = stup '' (G : Set (SignedPerm m))) (δ : Fin m → ℕ)
    (hδ : ∀ g ∈ G, ∀ k, δ (g.2 k) = δ k) :
    ∃ b, base Gs (List.ofFn δ) = .ok b ∧ (Fintype.card G * b.card : ℤ) =
      ∑ g : G, (g.1.1 : ℤ) * ((Finset.univ.filter fun ξ : Box δ => ξ.1 ∘ g.1.2 = ξ.1).card : ℤ) := by
  obtain ⟨b, Q, h1, -, -, -, -, h6⟩ := C51_matrix G Gs hGs δ hδ
  refine ⟨b, h1, ?_⟩
  rw [← h6]
  exact PermCount.burnside (K := ℝ) G hδ

/-- **C106.** With equal dimensions the number of fixed multi-indices is `d` to the number of cycles. -/
theorem C106_cycles (d : ℕ) (p : Equiv.Perm (Fin m)) :
    (Finset.univ.filter fun ξ : Box (fun _ : Fin m => d) => ξ.1 ∘ p = ξ.1).card =
      d ^ Nat.card (Quotient (Equiv.Perm.SameCycle.setoid p)) :=
  PermCount.card_fixed d p

/-- **C106.** All permutations with their signs: `binomial d m` elements. -/
theorem C106_base_antisymmetric (d : ℕ) (G : Subgroup (SignedPerm m))
    (hG : ∀ g, g ∈ G ↔ g.1 = Equiv.Perm.sign g.2) (Gs : Finset SP)
    (hGs : (Gs : Set SP) = stup '' (G : Set (SignedPerm m))) :
    ∃ b, base Gs (List.ofFn fun _ : Fin m => d) = .ok b ∧ b.card = d.choose m := by
  obtain rfl : G = PermCount.signPerms m := Subgroup.ext hG
  obtain ⟨b, Q, h1, -, -, -, -, h6⟩ := C51_matrix _ Gs hGs (fun _ => d) fun _ _ _ => rfl
  refine ⟨b, h1, ?_⟩
  rw [← h6]
  exact PermCount.finrank_antisym (K := ℝ)

/-- **C106.** An array with the properties of `C74`: its dimension is given by the same count, and the
multiplicity of every irrep is the dimension of the space of equivariant maps from the irrep to the
tensors with the symmetry. -/
theorem C106_array [LinearOrder T.Ir] (hT : GoodTable T) {δ : Fin m → ℕ} {N : Fin m → NRep n h}
    (G : Subgroup (SignedPerm m)) [Fintype G] (hδ : ∀ g ∈ G, ∀ k, δ (g.2 k) = δ k) {x : RepArray T m}
    (hx : IsReducedArray δ N (G : Set (SignedPerm m)) x) :
    (Fintype.card G * x.rep.dim : ℤ) = ∑ g : G, (g.1.1 : ℤ) *
        ((Finset.univ.filter fun ξ : Box δ => ξ.1 ∘ g.1.2 = ξ.1).card : ℤ) ∧
      (x.rep.irreps.Pairwise fun a b => a.ir < b.ir) ∧
      (∀ m ∈ x.rep.irreps, m.mul ≠ 0) ∧
      ∀ i, ((x.rep.irreps.filter fun a => a.ir = i).map MulIr.mul).sum =
        finrank ℂ (equiMaps T δ (tensorRep Finset.univ N) (G : Set (SignedPerm m)) i) := by
  refine ⟨?_, ?_, ?_, fun i => ?_⟩
  · rw [dim_of_reduced hx]
    exact PermCount.burnside (K := ℂ) G hδ
  · rw [hx.irreps, List.pairwise_map]
    exact hx.blocks.sorted
  · rw [hx.irreps]
    intro m hm
    obtain ⟨b, hb, rfl⟩ := List.mem_map.1 hm
    exact hx.blocks.mul b hb
  · rw [← TMult.finrank_mult hT.schur hT.pos hx.blocks i, multOf, hx.irreps, List.filter_map, List.map_map]
    rfl

/-- **C106.** Two arrays for the same representations and symmetry have the same irreps with the same
multiplicities. -/
theorem C106_unique [LinearOrder T.Ir] (hT : GoodTable T) {δ : Fin m → ℕ} {N : Fin m → NRep n h}
    {G : Set (SignedPerm m)} {x y : RepArray T m} (hx : IsReducedArray δ N G x) (hy : IsReducedArray δ N G y) :
    x.rep.irreps = y.rep.irreps := by
  have h := TMult.irreps_unique hx.blocks.sorted hy.blocks.sorted hx.blocks.mul hy.blocks.mul fun i => by
    rw [TMult.finrank_mult hT.schur hT.pos hx.blocks i, TMult.finrank_mult hT.schur hT.pos hy.blocks i]
  rw [hx.irreps, hy.irreps]
  have := congrArg (List.map fun p : ℕ × T.Ir => (⟨p.1, p.2⟩ : MulIr T)) h
  simpa [List.map_map, Function.comp_def] using this

/-- **C106.** `reduced_tensor_product_basis` of a formula, with the hypotheses of `C74_formula`: dimension
and multiplicities of a result. -/
theorem C106_formula [LinearOrder T.Ir] {eigh : EighFn} (he : EighSpec eigh) (hr : EighReal eigh)
    {ord : SetOrder} (hT : GoodTable T) (heap : ℕ → ReducedRep T) (iter : Finset SP → List SP)
    (hiter : ∀ s x, x ∈ iter s ↔ x ∈ s)
    (t0 : List Char) (l : List (List Char)) (hsep : ∀ t ∈ t0 :: l, '=' ∉ t) (h0 : t0.head? ≠ some '-')
    (hw : ∀ t ∈ t0 :: l, (termWord t).Nodup ∧ ∀ c, c ∈ termWord t ↔ c ∈ termWord t0)
    (hord : SortedOrder (termWord t0).length ord) (hm : 2 ≤ (termWord t0).length)
    (kw : List (Char × Arg T)) (hnd : (kw.map Prod.fst).Nodup)
    (hkw : ∀ ca ∈ kw, ∃ r, toReduced heap ca.2 = .ok r ∧ GoodRed r)
    (G : Subgroup (SignedPerm (termWord t0).length)) [Fintype G]
    (hG : G = Subgroup.closure (termPerms (termWord t0).length (termWord t0) (t0 :: l)))
    (hdet : Determined (termWord t0) (G : Set (SignedPerm (termWord t0).length)) kw) :
    ∃ (irs : Fin (termWord t0).length → ReducedRep T) (R : ∀ k, Rep n h (irs k).dim),
      (∀ k k', Linked (G : Set (SignedPerm (termWord t0).length)) k k' → ∀ ca ∈ kw, ca.1 = (termWord t0)[k'] →
        toReduced heap ca.2 = .ok (irs k)) ∧ (∀ k, ActsG (irs k) (R k)) ∧
      ∃ K r e, 0 < e ∧ (∀ eps, 0 < eps → eps < e → ∀ fuel ≥ K,
        formulaBasis (interEps eigh eps) ord iter fuel heap (['='].intercalate (t0 :: l))
          (kw.map fun ca => ([ca.1], ca.2)) = some (r >>= fun x => .ok ⟨_, x⟩)) ∧
        ((∀ t ∈ t0 :: l, t.head? ≠ some '-') → ∃ x, r = .ok x) ∧
        ∀ x : RepArray T (termWord t0).length, r = .ok x →
          (Fintype.card G * x.rep.dim : ℤ) = ∑ g : G, (g.1.1 : ℤ) *
            ((Finset.univ.filter fun ξ : Box (fun i => (irs i).dim) => ξ.1 ∘ g.1.2 = ξ.1).card : ℤ) ∧
          (x.rep.irreps.Pairwise fun a b => a.ir < b.ir) ∧
          (∀ m ∈ x.rep.irreps, m.mul ≠ 0) ∧
          ∀ i, ((x.rep.irreps.filter fun a => a.ir = i).map MulIr.mul).sum =
            finrank ℂ (equiMaps T (fun i => (irs i).dim) (tensorRep Finset.univ fun i => NRep.of (R i))
              (G : Set (SignedPerm (termWord t0).length)) i) := by
  subst hG
  obtain ⟨irs, R, h1, h2, K, r, e, he0, g1, g2, g3⟩ :=
    C74_formula he hr hT heap iter hiter t0 l hsep h0 hw hord hm kw hnd hkw hdet
  refine ⟨irs, R, h1, h2, K, r, e, he0, g1, g3, fun x hx => C106_array hT _ (fun g hg k => ?_) (g2 x hx)⟩
  obtain ⟨k', ⟨g', hg', hk'⟩, ca, hca, hc⟩ := hdet.covered k
  have e1 := h1 k k' ⟨g', hg', hk'⟩ ca hca hc
  have e2 := h1 (g.2 k) k' ⟨g' * g⁻¹, Subgroup.mul_mem _ hg' (Subgroup.inv_mem _ hg), by simp [hk']⟩ ca hca hc
  exact congrArg ReducedRep.dim (Except.ok.inj (e2.symm.trans e1))

/-- **C106.** `reduced_symmetric_tensor_product_basis`: multiplicities of the irreps. -/
theorem C106_symmetric [LinearOrder T.Ir] {eigh : EighFn} (he : EighSpec eigh) (hr : EighReal eigh)
    {ord : SetOrder} {order : ℕ} (hord : SortedOrder order ord) (hT : GoodTable T) (hm : 1 ≤ order)
    (heap : ℕ → ReducedRep T) (arg : Arg T) (r : ReducedRep T) (harg : toReduced heap arg = .ok r)
    (hgood : GoodRed r) (R : Rep n h r.dim) (hact : ActsG r R) :
    ∃ K x e, 0 < e ∧ (∀ eps, 0 < eps → eps < e → ∀ fuel ≥ K,
        symmetricBasis (interEps eigh eps) ord fuel heap arg order = some (.ok x)) ∧
      x.rep.dim = (r.dim + order - 1).choose order ∧
      (x.rep.irreps.Pairwise fun a b => a.ir < b.ir) ∧
      (∀ m ∈ x.rep.irreps, m.mul ≠ 0) ∧
      ∀ i, ((x.rep.irreps.filter fun a => a.ir = i).map MulIr.mul).sum =
        finrank ℂ (equiMaps T (fun _ : Fin order => r.dim) (tensorRep Finset.univ fun _ => NRep.of R)
          {g : SignedPerm order | g.1 = 1} i) := by
  classical
  obtain ⟨K, x, e, he0, g1, g2, g3⟩ := C74_symmetric he hr hord hT hm heap arg r harg hgood R hact
  have hset : {g : SignedPerm order | g.1 = 1} = (allPerms order : Set (SignedPerm order)) := by
    ext g; exact mem_allPerms.symm
  refine ⟨K, x, e, he0, g1, g3, ?_⟩
  rw [hset] at g2 ⊢
  exact (C106_array hT (allPerms order) (fun _ _ _ => rfl) g2).2

/-- **C106.** Fully antisymmetric tensors in two or more indices of dimension `d`: a result has dimension
`binomial d m`; with more indices than dimensions an exception is raised. -/
theorem C106_antisymmetric [LinearOrder T.Ir] {eigh : EighFn} (he : EighSpec eigh) (hr : EighReal eigh)
    {ord : SetOrder} (hord : SortedOrder m ord) (hT : GoodTable T) (hm : 2 ≤ m)
    (r : ReducedRep T) (hgood : GoodRed r) (G : Subgroup (SignedPerm m))
    (hG : ∀ g, g ∈ G ↔ g.1 = Equiv.Perm.sign g.2) (Gs : Finset SP)
    (hGs : (Gs : Set SP) = stup '' (G : Set (SignedPerm m))) :
    ∃ K o e, 0 < e ∧ (∀ eps, 0 < eps → eps < e → ∀ fuel ≥ K,
        run (interEps eigh eps) ord fuel (fun _ : Fin m => r) Gs = some o) ∧
      (∀ x, o = .ok x → x.rep.dim = r.dim.choose m) ∧
      (r.dim < m → ∃ err, o = .error err) := by
  obtain rfl : G = PermCount.signPerms m := Subgroup.ext hG
  obtain ⟨R, hR⟩ := good_acts hgood
  obtain ⟨K, o, e, he0, g1, g2, -⟩ := run_two he hr hord hT hm (fun _ : Fin m => r) (fun _ => hgood) (fun _ => R)
    (fun _ => hR) _ Gs hGs fun _ _ _ => rfl
  have hdim : ∀ x, o = .ok x → x.rep.dim = r.dim.choose m := fun x hx => by
    rw [dim_of_reduced (g2 x hx)]
    exact PermCount.finrank_antisym (K := ℂ)
  refine ⟨K, o, e, he0, g1, hdim, fun hlt => ?_⟩
  have h0 : symC (PermCount.signPerms m : Set (SignedPerm m)) (fun _ => r.dim) = ⊥ := by
    apply Submodule.finrank_eq_zero.1
    rw [← Nat.choose_eq_zero_of_lt hlt]
    exact PermCount.finrank_antisym (K := ℂ)
  obtain ⟨K', err, e', he0', h1⟩ := C70_no_tensor he hr hord hT hm (fun _ : Fin m => r) (fun _ => hgood)
    (fun _ => R) (fun _ => hR) _ Gs hGs (fun _ _ _ => rfl) (fun _ _ _ => rfl) h0
  refine ⟨err, ?_⟩
  have a1 := g1 (min e e' / 2) (by positivity) (by
    have := min_le_left e e'
    have : 0 < min e e' := lt_min he0 he0'
    linarith) (max K K') (le_max_left _ _)
  have a2 := h1 (min e e' / 2) (by positivity) (by
    have := min_le_right e e'
    have : 0 < min e e' := lt_min he0 he0'
    linarith) (max K K') (le_max_right _ _)
  rw [run, a2] at a1
  exact (Option.some.inj a1).symm

/-! ## The hypotheses can be met -/

/-- `ij=-ji` in dimension 3: the three components of the cross product; `(9 - 3) / 2`. -/
example : (Finset.univ.filter fun ξ : Box (fun _ : Fin 2 => 3) => ξ.1 ∘ Equiv.swap 0 1 = ξ.1).card = 3 ∧
    Nat.choose 3 2 = 3 := by decide

example : ∃ (G : Subgroup (SignedPerm 3)) (Gs : Finset SP), (∀ g, g ∈ G ↔ g.1 = Equiv.Perm.sign g.2) ∧
    (Gs : Set SP) = stup '' (G : Set (SignedPerm 3)) ∧
    ∃ b, base Gs (List.ofFn fun _ : Fin 3 => 3) = .ok b ∧ b.card = 1 := by
  obtain ⟨Gs, hGs⟩ := exists_tuples (PermCount.signPerms 3 : Set (SignedPerm 3))
  exact ⟨_, Gs, fun _ => Iff.rfl, hGs, C106_base_antisymmetric 3 _ (fun _ => Iff.rfl) Gs hGs⟩

/-- The symmetric cube of `0 + 1 + 2 + 0` of `SO3`. -/
example [LinearOrder SO3.table.Ir] : ∃ eigh, EighSpec eigh ∧ EighReal eigh ∧ ∃ ord, SortedOrder 3 ord ∧
    ∃ K x e, 0 < e ∧ (∀ eps, 0 < eps → eps < e → ∀ fuel ≥ K,
      symmetricBasis (interEps eigh eps) ord fuel (fun _ => scalars) (.reduced 0) 3 = some (.ok x)) ∧
      x.rep.dim = 220 := by
  obtain ⟨eigh, h1, h2⟩ := exists_eigh_real
  obtain ⟨ord, h3⟩ := exists_order 3
  obtain ⟨R, h4⟩ := good_acts scalars_good
  obtain ⟨K, x, e, he, g1, g3, _⟩ := C106_symmetric h1 h2 h3 so3_goodTable (by norm_num) (fun _ => scalars)
    (.reduced 0) scalars rfl scalars_good R h4
  exact ⟨eigh, h1, h2, ord, h3, K, x, e, he, g1, g3.trans (by show Nat.choose 12 3 = 220; decide)⟩

/-- Eleven antisymmetric indices of dimension ten: an exception. -/
example [LinearOrder SO3.table.Ir] : ∃ eigh, EighSpec eigh ∧ EighReal eigh ∧ ∃ ord, SortedOrder 11 ord ∧
    ∃ Gs : Finset SP, ∃ K err e, 0 < e ∧ ∀ eps, 0 < eps → eps < e → ∀ fuel ≥ K,
      run (interEps eigh eps) ord fuel (fun _ : Fin 11 => scalars) Gs = some (.error err) := by
  obtain ⟨eigh, h1, h2⟩ := exists_eigh_real
  obtain ⟨ord, h3⟩ := exists_order 11
  obtain ⟨Gs, hGs⟩ := exists_tuples (PermCount.signPerms 11 : Set (SignedPerm 11))
  obtain ⟨K, o, e, he, g1, _, g3⟩ := C106_antisymmetric h1 h2 h3 so3_goodTable (by norm_num) scalars
    scalars_good _ (fun _ => Iff.rfl) Gs hGs
  obtain ⟨err, rfl⟩ := g3 (by show 10 < 11; norm_num)
  exact ⟨eigh, h1, h2, ord, h3, Gs, K, err, e, he, g1⟩

end LieNN.Props
