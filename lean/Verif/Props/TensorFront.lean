import Verif.Props.TensorBasis
import Verif.Props.PermRepr
import Verif.Proofs.TFAssign
import Verif.Proofs.TFSym

/-!
# Properties of `reduced_tensor_product_basis` and `reduced_symmetric_tensor_product_basis` (C74)
-/
namespace LieNN.Props

open Matrix LieNN.Spec LieNN.TBasis LieNN.PermRepr LieNN.IArr LieNN.TFront

variable {n h m : ℕ} {T : Table n h}

/-- `run` with at least two indices. -/
theorem run_two [LinearOrder T.Ir] {eigh : EighFn} (he : EighSpec eigh) (hr : EighReal eigh)
    {ord : SetOrder} (hord : SortedOrder m ord) (hT : GoodTable T) (hm : 2 ≤ m)
    (irs : Fin m → ReducedRep T) (hgood : ∀ i, GoodRed (irs i)) (R : ∀ i, Rep n h (irs i).dim)
    (hact : ∀ i, ActsG (irs i) (R i)) (G : Subgroup (SignedPerm m)) (Gs : Finset SP)
    (hGs : (Gs : Set SP) = stup '' (G : Set (SignedPerm m)))
    (hirs : ∀ g ∈ G, ∀ k, irs (g.2 k) = irs k) :
    ∃ K r e, 0 < e ∧ (∀ eps, 0 < eps → eps < e → ∀ fuel ≥ K,
        run (interEps eigh eps) ord fuel irs Gs = some r) ∧
      (∀ x, r = .ok x →
        IsReducedArray (fun i => (irs i).dim) (fun i => NRep.of (R i)) (G : Set (SignedPerm m)) x) ∧
      ((∀ g ∈ G, g.1 = 1) → ∃ x, r = .ok x) := by
  obtain ⟨K, r, e, he0, h1, h2, h3⟩ := C70_basis he hr hord hT hm irs hgood R hact G Gs hGs
    (fun g hg k => by rw [hirs g hg k]) (fun g hg k => acts_nrep (hirs g hg k) (hact _) (hact _))
  refine ⟨K, r >>= repArray, e, he0, fun eps e0 e1 fuel hf => ?_, ?_, ?_⟩
  · rw [run, h1 eps e0 e1 fuel hf]; rfl
  · intro x hx
    cases r with
    | error err => cases hx
    | ok out =>
      obtain ⟨k1, k2⟩ := h2 out rfl
      obtain ⟨y, g1, _, _, g4⟩ := repArray_spec hT k1 k2
      have : y = x := Except.ok.inj (g1.symm.trans hx)
      exact this ▸ g4
  · intro hs
    obtain ⟨out, rfl⟩ := h3 hs
    obtain ⟨k1, k2⟩ := h2 out rfl
    obtain ⟨y, g1, _⟩ := repArray_spec hT k1 k2
    exact ⟨y, g1⟩

/-- `run` with one index. -/
theorem run_one_eps [LinearOrder T.Ir] (eigh : EighFn) (ord : SetOrder) (hT : GoodTable T)
    (irs : Fin 1 → ReducedRep T) (hgood : ∀ i, GoodRed (irs i)) (R : ∀ i, Rep n h (irs i).dim)
    (hact : ∀ i, ActsG (irs i) (R i)) :
    ∃ x, IsReducedArray (fun i => (irs i).dim) (fun i => NRep.of (R i)) {1} x ∧
      ∀ eps Gs, ∀ fuel ≥ 1, run (interEps eigh eps) ord fuel irs Gs = some (.ok x) := by
  obtain ⟨out, h1, h2, h3⟩ := C70_one (interEps eigh 1) ord hT irs hgood R hact
  obtain ⟨y, g1, _, _, g4⟩ := repArray_spec hT h1 h2
  refine ⟨y, g4, fun eps Gs fuel hf => ?_⟩
  have h4 : reducedBasis (interEps eigh eps) ord fuel irs Gs = reducedBasis (interEps eigh 1) ord fuel irs Gs := by
    obtain ⟨fuel, rfl⟩ : ∃ k, fuel = k + 1 := ⟨fuel - 1, by omega⟩
    rw [reducedBasis, reducedBasis]
    obtain ⟨bases, b1, b2, b3⟩ := bases_init hT hgood R hact {1}
    obtain ⟨⟨f, b⟩, rfl⟩ := List.length_eq_one_iff.1 b2
    rw [b1]
    rfl
  rw [run, h4, h3 Gs fuel hf]
  exact congrArg some g1

/-- The number of slices is the dimension of the space of tensors with the symmetry. -/
theorem dim_of_reduced [LinearOrder T.Ir] {δ : Fin m → ℕ} {N : Fin m → NRep n h} {G : Set (SignedPerm m)}
    {x : RepArray T m} (hx : IsReducedArray δ N G x) :
    x.rep.dim = Module.finrank ℂ (symC G δ) := by
  rw [← hx.span, finrank_span_eq_card hx.indep, Fintype.card_fin]

theorem ofFn_run [LinearOrder T.Ir] (inter : InterFn) (ord : SetOrder) (fuel : ℕ) (G : ℕ → Finset SP)
    (irs : Fin m → ReducedRep T) :
    ((run inter ord fuel (fun k : Fin (List.ofFn irs).length => (List.ofFn irs)[k])
      (G (List.ofFn irs).length)).map fun r => r >>= fun x => (.ok ⟨_, x⟩ : Py (Σ m, RepArray T m))) =
    (run inter ord fuel irs (G m)).map fun r => r >>= fun x => (.ok ⟨_, x⟩ : Py (Σ m, RepArray T m)) := by
  have : ∀ (l : List (ReducedRep T)) (hl : l.length = m), (∀ k : Fin m, l[k] = irs k) →
      ((run inter ord fuel (fun k : Fin l.length => l[k])
        (G l.length)).map fun r => r >>= fun x => (.ok ⟨_, x⟩ : Py (Σ m, RepArray T m))) =
      (run inter ord fuel irs (G m)).map fun r => r >>= fun x => (.ok ⟨_, x⟩ : Py (Σ m, RepArray T m)) := by
    rintro l rfl hk
    have : (fun k : Fin l.length => l[k]) = irs := funext hk
    rw [this]
  exact this _ (by simp) (by simp)

/-- **C74.** `reduced_tensor_product_basis` of a list of one or more representations: for all small
tolerances and long enough runs it returns the same basis of all tensors, made of equivariant blocks;
the dimension is the product of the dimensions. -/
theorem C74_list [LinearOrder T.Ir] {eigh : EighFn} (he : EighSpec eigh) (hr : EighReal eigh)
    {ord : SetOrder} (hord : SortedOrder m ord) (hT : GoodTable T) (hm : 1 ≤ m)
    (heap : ℕ → ReducedRep T) (args : Fin m → Arg T) (irs : Fin m → ReducedRep T)
    (hargs : ∀ k, toReduced heap (args k) = .ok (irs k)) (hgood : ∀ i, GoodRed (irs i))
    (R : ∀ i, Rep n h (irs i).dim) (hact : ∀ i, ActsG (irs i) (R i)) :
    ∃ K x e, 0 < e ∧ (∀ eps, 0 < eps → eps < e → ∀ fuel ≥ K,
        listBasis (interEps eigh eps) ord fuel heap (List.ofFn args) = some (.ok ⟨m, x⟩)) ∧
      IsReducedArray (fun i => (irs i).dim) (fun i => NRep.of (R i)) {1} x ∧
      x.rep.dim = ∏ i, (irs i).dim := by
  have hmap : (List.ofFn args).mapM (toReduced heap) = .ok (List.ofFn irs) := by
    rw [List.ofFn_eq_map, List.mapM_map, List.ofFn_eq_map]
    exact mapM_ok fun k _ => hargs k
  have hGs : ((({(1, List.range m)} : Finset SP)) : Set SP) =
      stup '' ((⊥ : Subgroup (SignedPerm m)) : Set (SignedPerm m)) := by
    rw [Subgroup.coe_bot, Set.image_singleton, Finset.coe_singleton]
    congr 1
    simp only [stup, Prod.fst_one, Prod.snd_one, Units.val_one, Prod.mk.injEq, true_and, tup]
    apply List.ext_getElem <;> simp
  have key : ∃ K x e, 0 < e ∧ (∀ eps, 0 < eps → eps < e → ∀ fuel ≥ K,
        run (interEps eigh eps) ord fuel irs {(1, List.range m)} = some (.ok x)) ∧
      IsReducedArray (fun i => (irs i).dim) (fun i => NRep.of (R i)) {1} x := by
    rcases Nat.lt_or_ge 1 m with h2 | h2
    · obtain ⟨K, r, e, he0, g1, g2, g3⟩ := run_two he hr hord hT h2 irs hgood R hact ⊥ _ hGs
        (by intro g hg k; rw [Subgroup.mem_bot] at hg; subst hg; rfl)
      obtain ⟨x, rfl⟩ := g3 (by intro g hg; rw [Subgroup.mem_bot] at hg; subst hg; rfl)
      have := g2 x rfl
      rw [Subgroup.coe_bot] at this
      exact ⟨K, x, e, he0, g1, this⟩
    · obtain rfl : m = 1 := by omega
      obtain ⟨x, g1, g2⟩ := run_one_eps eigh ord hT irs hgood R hact
      exact ⟨1, x, 1, one_pos, fun eps _ _ fuel hf => g2 eps _ fuel hf, g1⟩
  obtain ⟨K, x, e, he0, g1, g2⟩ := key
  refine ⟨K, x, e, he0, fun eps e0 e1 fuel hf => ?_, g2, ?_⟩
  · rw [listBasis, hmap]
    exact (ofFn_run (interEps eigh eps) ord fuel (fun k => {(1, List.range k)}) irs).trans
      (by rw [g1 eps e0 e1 fuel hf]; rfl)
  · rw [dim_of_reduced g2, finrank_all]

/-- **C74.** `reduced_symmetric_tensor_product_basis` of positive order: for all small tolerances and long
enough runs it returns the same basis of the symmetric tensors, made of equivariant blocks; there are
`binomial (d + order - 1) order` of them. -/
theorem C74_symmetric [LinearOrder T.Ir] {eigh : EighFn} (he : EighSpec eigh) (hr : EighReal eigh)
    {ord : SetOrder} {order : ℕ} (hord : SortedOrder order ord) (hT : GoodTable T) (hm : 1 ≤ order)
    (heap : ℕ → ReducedRep T) (arg : Arg T) (r : ReducedRep T) (harg : toReduced heap arg = .ok r)
    (hgood : GoodRed r) (R : Rep n h r.dim) (hact : ActsG r R) :
    ∃ K x e, 0 < e ∧ (∀ eps, 0 < eps → eps < e → ∀ fuel ≥ K,
        symmetricBasis (interEps eigh eps) ord fuel heap arg order = some (.ok x)) ∧
      IsReducedArray (fun _ => r.dim) (fun _ => NRep.of R) {g : SignedPerm order | g.1 = 1} x ∧
      x.rep.dim = (r.dim + order - 1).choose order := by
  have hset : {g : SignedPerm order | g.1 = 1} = (allPerms order : Set (SignedPerm order)) := by
    ext g; exact mem_allPerms.symm
  have hrun : ∀ eps fuel, symmetricBasis (interEps eigh eps) ord fuel heap arg order =
      run (interEps eigh eps) ord fuel (fun _ : Fin order => r)
        (((List.range order).permutations.map fun p => ((1 : ℤ), p)).toFinset) := by
    intro eps fuel
    rw [symmetricBasis, harg]
  have key : ∃ K x e, 0 < e ∧ (∀ eps, 0 < eps → eps < e → ∀ fuel ≥ K,
        symmetricBasis (interEps eigh eps) ord fuel heap arg order = some (.ok x)) ∧
      IsReducedArray (fun _ => r.dim) (fun _ => NRep.of R) (allPerms order : Set (SignedPerm order)) x := by
    simp only [hrun]
    rcases Nat.lt_or_ge 1 order with h2 | h2
    · obtain ⟨K, o, e, he0, g1, g2, g3⟩ := run_two he hr hord hT h2 (fun _ : Fin order => r) (fun _ => hgood)
        (fun _ => R) (fun _ => hact) (allPerms order) _ (mem_permutations order) (fun _ _ _ => rfl)
      obtain ⟨x, rfl⟩ := g3 fun g hg => mem_allPerms.1 hg
      exact ⟨K, x, e, he0, g1, g2 x rfl⟩
    · obtain rfl : order = 1 := by omega
      obtain ⟨x, g1, g2⟩ := run_one_eps eigh ord hT (fun _ : Fin 1 => r) (fun _ => hgood)
        (fun _ => R) (fun _ => hact)
      have h1 : (allPerms 1 : Set (SignedPerm 1)) = {1} := by
        ext g
        rw [SetLike.mem_coe, mem_allPerms, Set.mem_singleton_iff]
        exact ⟨fun hg => Prod.ext hg (Subsingleton.elim _ _), fun hg => by rw [hg]; rfl⟩
      rw [h1]
      exact ⟨1, x, 1, one_pos, fun eps _ _ fuel hf => g2 eps _ fuel hf, g1⟩
  obtain ⟨K, x, e, he0, g1, g2⟩ := key
  refine ⟨K, x, e, he0, g1, hset ▸ g2, ?_⟩
  rw [dim_of_reduced g2, finrank_symmetric, Nat.multichoose_eq]

/-- **C74.** A formula with at least two indices, keywords that determine the representation of every
index, and the group that the formula generates.  Every index gets the representation of the keywords it
is linked to; for all small tolerances and long enough runs the outcome is the same; a result is a basis
of the tensors with the symmetry, made of equivariant blocks; a formula without minus signs never
raises. -/
theorem C74_formula [LinearOrder T.Ir] {eigh : EighFn} (he : EighSpec eigh) (hr : EighReal eigh)
    {ord : SetOrder} (hT : GoodTable T) (heap : ℕ → ReducedRep T) (iter : Finset SP → List SP)
    (hiter : ∀ s x, x ∈ iter s ↔ x ∈ s)
    (t0 : List Char) (l : List (List Char)) (hsep : ∀ t ∈ t0 :: l, '=' ∉ t) (h0 : t0.head? ≠ some '-')
    (hw : ∀ t ∈ t0 :: l, (termWord t).Nodup ∧ ∀ c, c ∈ termWord t ↔ c ∈ termWord t0)
    (hord : SortedOrder (termWord t0).length ord) (hm : 2 ≤ (termWord t0).length)
    (kw : List (Char × Arg T)) (hnd : (kw.map Prod.fst).Nodup)
    (hkw : ∀ ca ∈ kw, ∃ r, toReduced heap ca.2 = .ok r ∧ GoodRed r)
    (hdet : Determined (termWord t0) (Subgroup.closure (termPerms (termWord t0).length (termWord t0) (t0 :: l)) :
      Set (SignedPerm (termWord t0).length)) kw) :
    ∃ (irs : Fin (termWord t0).length → ReducedRep T) (R : ∀ k, Rep n h (irs k).dim),
      (∀ k k', Linked (Subgroup.closure (termPerms (termWord t0).length (termWord t0) (t0 :: l)) :
        Set (SignedPerm (termWord t0).length)) k k' → ∀ ca ∈ kw, ca.1 = (termWord t0)[k'] →
        toReduced heap ca.2 = .ok (irs k)) ∧ (∀ k, ActsG (irs k) (R k)) ∧
      ∃ K r e, 0 < e ∧ (∀ eps, 0 < eps → eps < e → ∀ fuel ≥ K,
        formulaBasis (interEps eigh eps) ord iter fuel heap (['='].intercalate (t0 :: l))
          (kw.map fun ca => ([ca.1], ca.2)) = some (r >>= fun x => .ok ⟨_, x⟩)) ∧
        (∀ x, r = .ok x → IsReducedArray (fun i => (irs i).dim) (fun i => NRep.of (R i))
          (Subgroup.closure (termPerms (termWord t0).length (termWord t0) (t0 :: l)) :
            Set (SignedPerm (termWord t0).length)) x) ∧
        ((∀ t ∈ t0 :: l, t.head? ≠ some '-') → ∃ x, r = .ok x) := by
  obtain ⟨N, Gs, hN, hGs⟩ := C50_germinate t0 l hsep h0 hw
  set G := Subgroup.closure (termPerms (termWord t0).length (termWord t0) (t0 :: l)) with hG
  have hoth : ∀ ca ∈ kw, ca.2 ≠ .other := by
    intro ca hca h1
    obtain ⟨r, h2, _⟩ := hkw ca hca
    rw [h1] at h2
    cases h2
  obtain ⟨irs, ha, hb⟩ := (assign_spec heap (hw t0 (by simp)).1 hGs (hiter Gs) hnd hoth).1 hdet
  have hgood : ∀ k, GoodRed (irs k) := by
    intro k
    obtain ⟨k', hk, ca, hca, hc⟩ := hdet.covered k
    obtain ⟨r, h2, h3⟩ := hkw ca hca
    have : r = irs k := Except.ok.inj (h2.symm.trans (hb k k' hk ca hca hc))
    exact this ▸ h3
  choose R hR using fun k => good_acts (hgood k)
  have hirs : ∀ g ∈ G, ∀ k, irs (g.2 k) = irs k := by
    intro g hg k
    obtain ⟨k', ⟨g', hg', hk'⟩, ca, hca, hc⟩ := hdet.covered k
    have h1 := hb k k' ⟨g', hg', hk'⟩ ca hca hc
    have h2 := hb (g.2 k) k' ⟨g' * g⁻¹, G.mul_mem hg' (G.inv_mem hg), by simp [hk']⟩ ca hca hc
    exact Except.ok.inj (h2.symm.trans h1)
  obtain ⟨K, r, e, he0, g1, g2, g3⟩ := run_two he hr hord hT hm irs hgood R hR G Gs hGs hirs
  refine ⟨irs, R, hb, hR, max K N, r, e, he0, fun eps e0 e1 fuel hf => ?_, g2, fun hs => g3 ?_⟩
  · have hfl : formulaBasis (interEps eigh eps) ord iter fuel heap (['='].intercalate (t0 :: l)) (keyed kw) =
        ((run (interEps eigh eps) ord fuel (fun k : Fin (List.ofFn irs).length => (List.ofFn irs)[k])
          Gs).map fun r => r >>= fun x => (.ok ⟨_, x⟩ : Py (Σ m, RepArray T m))) := by
      rw [formulaBasis, hN fuel (le_trans (le_max_right _ _) hf)]
      simp only [ha]
    refine hfl.trans ((ofFn_run (interEps eigh eps) ord fuel (fun _ => Gs) irs).trans ?_)
    rw [g1 eps e0 e1 fuel (le_trans (le_max_left _ _) hf)]
    rfl
  · have hle : G ≤ allPerms _ := by
      rw [hG, Subgroup.closure_le]
      rintro g ⟨t, ht, hg, _⟩
      rw [SetLike.mem_coe, mem_allPerms, hg, termSign, if_neg (hs t ht)]
    exact fun g hg => mem_allPerms.1 (hle hg)

/-- **C74.** Keywords of one letter that do not determine the representations: a letter that is not in
the formula, an index without representation, or linked indices with different objects.  The outcome is
a `RuntimeError`. -/
theorem C74_undetermined [LinearOrder T.Ir] (inter : InterFn) (ord : SetOrder) (heap : ℕ → ReducedRep T)
    (iter : Finset SP → List SP) (hiter : ∀ s x, x ∈ iter s ↔ x ∈ s)
    (t0 : List Char) (l : List (List Char)) (hsep : ∀ t ∈ t0 :: l, '=' ∉ t) (h0 : t0.head? ≠ some '-')
    (hw : ∀ t ∈ t0 :: l, (termWord t).Nodup ∧ ∀ c, c ∈ termWord t ↔ c ∈ termWord t0)
    (kw : List (Char × Arg T)) (hnd : (kw.map Prod.fst).Nodup) (hkw : ∀ ca ∈ kw, ca.2 ≠ .other)
    (hdet : ¬ Determined (termWord t0) (Subgroup.closure (termPerms (termWord t0).length (termWord t0) (t0 :: l)) :
      Set (SignedPerm (termWord t0).length)) kw) :
    ∃ K, ∀ fuel ≥ K, formulaBasis inter ord iter fuel heap (['='].intercalate (t0 :: l))
        (kw.map fun ca => ([ca.1], ca.2)) = some (.error .runtimeError) := by
  obtain ⟨N, Gs, hN, hGs⟩ := C50_germinate t0 l hsep h0 hw
  refine ⟨N, fun fuel hf => ?_⟩
  have ha := (assign_spec heap (hw t0 (by simp)).1 hGs (hiter Gs) hnd hkw).2 hdet
  have : formulaBasis inter ord iter fuel heap (['='].intercalate (t0 :: l)) (keyed kw) =
      some (.error .runtimeError) := by
    rw [formulaBasis, hN fuel hf]
    simp only [ha]
  exact this

/-- **C74** (surprising): the two indices of `ij=ji` with the irreps given twice, `i=ir, j=ir`.  The two
`ReducedRep` objects are compared by identity, the outcome is a `RuntimeError` although they are equal. -/
theorem C74_equal_irreps [LinearOrder T.Ir] (inter : InterFn) (ord : SetOrder) (heap : ℕ → ReducedRep T)
    (iter : Finset SP → List SP) (hiter : ∀ s x, x ∈ iter s ↔ x ∈ s) (ir : T.Ir) :
    ∃ K, ∀ fuel ≥ K, formulaBasis inter ord iter fuel heap "ij=ji".toList
        [(['i'], .irrep ir), (['j'], .irrep ir)] = some (.error .runtimeError) := by
  have h1 : "ij=ji".toList = ['='].intercalate ("ij".toList :: ["ji".toList]) := by decide
  rw [h1]
  refine C74_undetermined inter ord heap iter hiter "ij".toList ["ji".toList] (by decide) (by decide) ?_
    [('i', .irrep ir), ('j', .irrep ir)] (by simp) (by simp) ?_
  · intro t ht
    simp only [List.mem_cons, List.not_mem_nil, or_false] at ht
    rcases ht with rfl | rfl
    · exact ⟨by decide, fun c => Iff.rfl⟩
    · refine ⟨by decide, fun c => ?_⟩
      have e1 : termWord "ji".toList = ['j', 'i'] := by decide
      have e2 : termWord "ij".toList = ['i', 'j'] := by decide
      rw [e1, e2]
      simp [or_comm]
  · intro hd
    have := hd.same ('i', .irrep ir) (by simp) ('j', .irrep ir) (by simp) ⟨0, by decide⟩ ⟨1, by decide⟩ rfl
      rfl ⟨(1, Equiv.swap ⟨0, by decide⟩ ⟨1, by decide⟩), Subgroup.subset_closure
        ⟨"ji".toList, by simp, by decide, by decide⟩, by simp⟩
    rcases this with h2 | ⟨x, h2, _⟩
    · simp at h2
    · cases h2

/-- **C74.** Keywords: a keyword with an argument that is not a representation is an `AssertionError`;
otherwise a keyword that is not one letter is a `TypeError`. -/
theorem C74_keywords [LinearOrder T.Ir] (inter : InterFn) (ord : SetOrder) (heap : ℕ → ReducedRep T)
    (iter : Finset SP → List SP) (fuel : ℕ) (formula : List Char) (f0 : List Char) (G : Finset SP)
    (hf : germinatePermRepr fuel formula = some (.ok (f0, G))) (kw : List (Key × Arg T)) :
    ((∃ ka ∈ kw, ka.2 = .other) →
      formulaBasis inter ord iter fuel heap formula kw = some (.error .assertionError)) ∧
    ((∀ ka ∈ kw, ka.2 ≠ .other) → (∃ ka ∈ kw, ka.1.length ≠ 1) →
      formulaBasis inter ord iter fuel heap formula kw = some (.error .typeError)) := by
  constructor
  · rintro ⟨ka, hka, ho⟩
    have : assign heap iter f0 G kw = .error .assertionError := by
      rw [assign, TBasis.mapM_error (e := .assertionError)]
      · rfl
      · intro kb _
        by_cases hb : kb.2 = .other
        · right; rw [hb]; rfl
        · left
          obtain ⟨r, hr⟩ := toReduced_ok heap hb
          exact ⟨_, by rw [hr]; rfl⟩
      · exact ⟨ka, hka, by rw [ho]; rfl⟩
    rw [formulaBasis, hf]
    simp only [this]
  · rintro ho ⟨ka, hka, hk⟩
    have hm : (kw.mapM fun ka => do
        let _ ← toReduced heap ka.2
        return (ka.1, refOf ka.1 ka.2)) = (.ok (kw.map fun ka => (ka.1, refOf ka.1 ka.2)) : Py Dict) := by
      refine mapM_ok fun kb hkb => ?_
      obtain ⟨r, hr⟩ := toReduced_ok heap (ho kb hkb)
      rw [hr]; rfl
    have : assign heap iter f0 G kw = .error .typeError := by
      rw [assign, hm]
      show (if _ then _ else _) = _
      rw [if_pos ⟨ka.1, List.mem_map_of_mem hka, hk⟩]
      rfl
    rw [formulaBasis, hf]
    simp only [this]

/-! ## The hypotheses can be met -/

/-- `reduced_symmetric_tensor_product_basis(ReducedRep.from_string("0+1+2+0", SO3), 3)`, the call of the
test of the repository: `220 = binomial 12 3` slices. -/
example [LinearOrder SO3.table.Ir] : ∃ eigh, EighSpec eigh ∧ EighReal eigh ∧ ∃ ord, SortedOrder 3 ord ∧
    ∃ K x e, 0 < e ∧ (∀ eps, 0 < eps → eps < e → ∀ fuel ≥ K,
      symmetricBasis (interEps eigh eps) ord fuel (fun _ => scalars) (.reduced 0) 3 = some (.ok x)) ∧
      x.rep.dim = 220 := by
  obtain ⟨eigh, h1, h2⟩ := exists_eigh_real
  obtain ⟨ord, h3⟩ := exists_order 3
  obtain ⟨R, h4⟩ := good_acts scalars_good
  obtain ⟨K, x, e, he, g1, _, g3⟩ := C74_symmetric h1 h2 h3 so3_goodTable (by norm_num) (fun _ => scalars)
    (.reduced 0) scalars rfl scalars_good R h4
  exact ⟨eigh, h1, h2, ord, h3, K, x, e, he, g1, g3.trans (by show Nat.choose 12 3 = 220; decide)⟩

/-- A keyword for one of the two indices of `ij=ji` determines both. -/
example (ir : T.Ir) : Determined (T := T) (termWord "ij".toList) (Subgroup.closure
    (termPerms (termWord "ij".toList).length (termWord "ij".toList) ["ij".toList, "ji".toList]) :
      Set (SignedPerm (termWord "ij".toList).length)) [('i', .irrep ir)] := by
  refine ⟨by simp; decide, ?_, by simp [SameObject]⟩
  intro k
  have hs : ((1, Equiv.swap ⟨0, by decide⟩ ⟨1, by decide⟩) : SignedPerm (termWord "ij".toList).length) ∈
      Subgroup.closure (termPerms (termWord "ij".toList).length (termWord "ij".toList)
        ["ij".toList, "ji".toList]) :=
    Subgroup.subset_closure ⟨"ji".toList, by simp, by decide, by decide⟩
  have h2 : (termWord "ij".toList).length = 2 := by decide
  obtain ⟨k, hk⟩ := k
  obtain rfl | rfl : k = 0 ∨ k = 1 := by omega
  · exact ⟨⟨0, hk⟩, ⟨1, Subgroup.one_mem _, rfl⟩, ('i', .irrep ir), by simp, rfl⟩
  · exact ⟨⟨0, by decide⟩, ⟨_, hs, by simp⟩, ('i', .irrep ir), by simp, rfl⟩

end LieNN.Props
