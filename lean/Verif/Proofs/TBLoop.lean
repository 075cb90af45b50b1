import Verif.Proofs.TBFinish

/-! # The loop of `_reduced_tensor_product_basis` -/
namespace LieNN.TBasis
open LieNN.Spec LieNN.IArr LieNN.PermRepr Module Matrix

variable {n h : ℕ} {T : Table n h} {m : ℕ}

theorem mem_pairs {len i j : ℕ} : (i, j) ∈ pairs len ↔ i < j ∧ j < len := by
  simp only [pairs, List.mem_flatMap, List.mem_range, List.mem_map, List.mem_range'_1, Prod.mk.injEq]
  constructor
  · rintro ⟨a, ha, b, hb, rfl, rfl⟩
    omega
  · rintro ⟨h1, h2⟩
    exact ⟨i, by omega, j, by omega, rfl, rfl⟩

theorem restrict_finset {G : Subgroup (SignedPerm m)} {Gs : Finset SP}
    (hGs : (Gs : Set SP) = stup '' (G : Set (SignedPerm m))) (f : Finset (Fin m)) :
    ∃ H : Subgroup (SignedPerm f.card), (H : Set (SignedPerm f.card)) = restrictPerms f (G : Set (SignedPerm m)) ∧
      (subrepr (f.image Fin.val) Gs : Set SP) = stup '' (H : Set (SignedPerm f.card)) := by
  obtain ⟨Gf, hG, rfl⟩ := exists_finset hGs
  obtain ⟨H, hH⟩ := restrictPerms_subgroup f G
  refine ⟨H, hH, ?_⟩
  rw [subrepr_stup, hH]
  congr 2
  ext g
  exact hG g

theorem restrict_inv {G : Set (SignedPerm m)} {f : Finset (Fin m)} {α : Type} {δ : Fin m → α}
    (hδ : ∀ g ∈ G, ∀ k, δ (g.2 k) = δ k) (g : SignedPerm f.card) (hg : g ∈ restrictPerms f G) (k) :
    δ (f.orderEmbOfFin rfl (g.2 k)) = δ (f.orderEmbOfFin rfl k) := by
  obtain ⟨g', hg', _, _, h2⟩ := hg
  rw [← h2, hδ g' hg']

theorem subgroupDim_ok {M : ℕ} {ord : SetOrder} (hord : SortedOrder M ord) (hM : m ≤ M)
    {G : Subgroup (SignedPerm m)} {Gs : Finset SP} (hGs : (Gs : Set SP) = stup '' (G : Set (SignedPerm m)))
    {δ : Fin m → ℕ} (hδ : ∀ g ∈ G, ∀ k, δ (g.2 k) = δ k) (f : Finset (Fin m)) :
    ∃ p, subgroupDim ord f Gs δ = .ok p := by
  obtain ⟨H, hH, hs⟩ := restrict_finset hGs f
  obtain ⟨Hf, hHf, he⟩ := exists_finset hs
  rw [subgroupDim]
  split_ifs with hc
  · exact ⟨_, rfl⟩
  · rw [subDims_eq hord hM, he]
    obtain ⟨b, hb, _⟩ := base_spec hHf fun j => δ (f.orderEmbOfFin rfl j)
    rw [hb]
    exact ⟨_, rfl⟩

theorem greedy_ok {M : ℕ} {ord : SetOrder} (hord : SortedOrder M ord) (hM : m ≤ M)
    {G : Subgroup (SignedPerm m)} {Gs : Finset SP} (hGs : (Gs : Set SP) = stup '' (G : Set (SignedPerm m)))
    {δ : Fin m → ℕ} (hδ : ∀ g ∈ G, ∀ k, δ (g.2 k) = δ k) (fs : List (Finset (Fin m))) (hl : 2 ≤ fs.length) :
    ∃ p i j, ∃ (hij : i < j) (hj : j < fs.length),
      greedy ord Gs δ fs = .ok (some (p, i, j, fs[i]'(hij.trans hj) ∪ fs[j])) := by
  let V : Option (ℕ × ℕ × ℕ × Finset (Fin m)) → Prop := fun o => ∀ r ∈ o, ∃ p i j, ∃ (hij : i < j) (hj : j < fs.length),
    r = (p, i, j, fs[i]'(hij.trans hj) ∪ fs[j])
  have key : ∀ (L : List (ℕ × ℕ)) (best : Option (ℕ × ℕ × ℕ × Finset (Fin m))),
      (∀ ij ∈ L, ij.1 < ij.2 ∧ ij.2 < fs.length) → V best → ∃ best', V best' ∧
      (L ≠ [] ∨ best ≠ none → best' ≠ none) ∧ L.foldlM (fun best ij =>
        match fs[ij.1]?, fs[ij.2]? with
        | some fa, some fb => do
          let p ← subgroupDim ord (fa ∪ fb) Gs δ
          match best with
          | none => pure (some (p, ij.1, ij.2, fa ∪ fb))
          | some r => pure (if p < r.1 then some (p, ij.1, ij.2, fa ∪ fb) else best)
        | _, _ => .error .indexError) best = (.ok best' : Py _) := by
    intro L
    induction L with
    | nil => intro best _ hb; exact ⟨best, hb, by simp, rfl⟩
    | cons ij L ih =>
      intro best hL hb
      obtain ⟨h1, h2⟩ := hL ij (by simp)
      obtain ⟨p, hp⟩ := subgroupDim_ok hord hM hGs hδ (fs[ij.1]'(h1.trans h2) ∪ fs[ij.2])
      have hnew : V (some (p, ij.1, ij.2, fs[ij.1]'(h1.trans h2) ∪ fs[ij.2])) := by
        intro r hr
        cases hr
        exact ⟨p, ij.1, ij.2, h1, h2, rfl⟩
      have e1 : fs[ij.1]? = some (fs[ij.1]'(h1.trans h2)) := List.getElem?_eq_getElem _
      have e2 : fs[ij.2]? = some fs[ij.2] := List.getElem?_eq_getElem _
      rw [List.foldlM_cons]
      cases best with
      | none =>
        obtain ⟨b', g1, g2, g3⟩ := ih _ (fun x hx => hL x (by simp [hx])) hnew
        refine ⟨b', g1, fun _ => g2 (.inr (by simp)), ?_⟩
        simp only [e1, e2, hp]
        exact g3
      | some r =>
        by_cases hlt : p < r.1
        · obtain ⟨b', g1, g2, g3⟩ := ih _ (fun x hx => hL x (by simp [hx])) hnew
          refine ⟨b', g1, fun _ => g2 (.inr (by simp)), ?_⟩
          simp only [e1, e2, hp]
          show (pure (if p < r.1 then _ else _) >>= _) = _
          rw [if_pos hlt]
          exact g3
        · obtain ⟨b', g1, g2, g3⟩ := ih _ (fun x hx => hL x (by simp [hx])) hb
          refine ⟨b', g1, fun _ => g2 (.inr (by simp)), ?_⟩
          simp only [e1, e2, hp]
          show (pure (if p < r.1 then _ else _) >>= _) = _
          rw [if_neg hlt]
          exact g3
  obtain ⟨b', g1, g2, g3⟩ := key (pairs fs.length) none (fun ij hij => mem_pairs.1 hij) (by intro r hr; cases hr)
  have hne : b' ≠ none := g2 (.inl fun h0 => by
    have : (0, 1) ∈ pairs fs.length := mem_pairs.2 ⟨by omega, by omega⟩
    rw [h0] at this; simp at this)
  obtain ⟨r, rfl⟩ := Option.ne_none_iff_exists'.1 hne
  obtain ⟨p, i, j, hij, hj, rfl⟩ := g1 r rfl
  exact ⟨p, i, j, hij, hj, g3⟩

/-- The basis of a sub-call, after `reshape`. -/
theorem inv_reshape {G : Set (SignedPerm m)} {δ : Fin m → ℕ} {N : Fin m → NRep n h} {f : Finset (Fin m)}
    {l : List (Blk T f.card)}
    (hl : Full (fun j => δ (f.orderEmbOfFin rfl j)) (fun j => N (f.orderEmbOfFin rfl j)) (restrictPerms f G) l) :
    ∃ l', reshape (padShape f δ) none l = .ok l' ∧ Inv δ N G f l' := by
  obtain ⟨l', h1, h2, h3, h4, h5, h6, h7⟩ := reshape_spec f hl.ne hl.equi hl.real hl.mul
  refine ⟨l', h1, h2, h3, h4, h5, ?_, ?_⟩
  · have e : spanC (padShape f δ) l' = (spanC (fun j => δ (f.orderEmbOfFin rfl j)) l).map
        (LinearEquiv.funCongrLeft ℂ ℂ (embox f δ)).toLinearMap := by
      ext t
      rw [h7]
      constructor
      · intro ht
        refine ⟨_, ht, ?_⟩
        funext p
        show t ((embox f δ).symm (embox f δ p)) = t p
        rw [Equiv.symm_apply_apply]
      · rintro ⟨t, ht, rfl⟩
        have e : (fun ξ => (LinearEquiv.funCongrLeft ℂ ℂ (embox f δ)).toLinearMap t ((embox f δ).symm ξ)) = t := by
          funext ξ
          show t (embox f δ ((embox f δ).symm ξ)) = t ξ
          rw [Equiv.apply_symm_apply]
        rw [e]
        exact ht
    rw [e, LinearEquiv.finrank_map_eq, h6, hl.indep]
  · intro t ht
    rw [h7, hl.span]
    exact symC_sub f ht

/-- What the list of bases satisfies. -/
structure Bases (δ : Fin m → ℕ) (N : Fin m → NRep n h) (G : Set (SignedPerm m))
    (bases : List (Finset (Fin m) × List (Blk T m))) : Prop where
  disj : bases.Pairwise fun a b => Disjoint a.1 b.1
  ne : ∀ x ∈ bases, x.1.Nonempty
  cov : ∀ k, ∃ x ∈ bases, k ∈ x.1
  inv : ∀ x ∈ bases, Inv δ N G x.1 x.2

theorem bases_perm {δ : Fin m → ℕ} {N : Fin m → NRep n h} {G : Set (SignedPerm m)}
    {b b' : List (Finset (Fin m) × List (Blk T m))} (hp : b.Perm b') (hb : Bases δ N G b) : Bases δ N G b' := by
  refine ⟨(hp.pairwise_iff fun h => h.symm).1 hb.disj, fun x hx => hb.ne x (hp.mem_iff.2 hx), fun k => ?_,
    fun x hx => hb.inv x (hp.mem_iff.2 hx)⟩
  obtain ⟨x, hx, hk⟩ := hb.cov k
  exact ⟨x, hp.mem_iff.1 hx, hk⟩

theorem perm_erase {α : Type} (l : List α) {i j : ℕ} (hij : i < j) (hj : j < l.length) :
    l.Perm ((l[i]'(hij.trans hj)) :: l[j] :: (l.eraseIdx j).eraseIdx i) := by
  have h1 : (l[j] :: l.eraseIdx j).Perm l := List.getElem_cons_eraseIdx_perm hj
  have hlen : i < (l.eraseIdx j).length := by rw [List.length_eraseIdx_of_lt hj]; omega
  have h2 : ((l.eraseIdx j)[i] :: (l.eraseIdx j).eraseIdx i).Perm (l.eraseIdx j) :=
    List.getElem_cons_eraseIdx_perm hlen
  have h3 : (l.eraseIdx j)[i] = l[i]'(hij.trans hj) := List.getElem_eraseIdx_of_lt _ hij
  rw [h3] at h2
  exact h1.symm.trans ((h2.symm.cons _).trans (List.Perm.swap _ _ _))

/-- The initial bases. -/
theorem bases_init (hT : GoodTable T) {irs : Fin m → ReducedRep T} (hg : ∀ i, GoodRed (irs i))
    (R : ∀ i, Rep n h (irs i).dim) (ha : ∀ i, ActsG (irs i) (R i)) (G : Set (SignedPerm m)) :
    ∃ bases, initBases irs = .ok bases ∧ bases.length = m ∧
      Bases (fun i => (irs i).dim) (fun i => NRep.of (R i)) G bases := by
  obtain ⟨bases, h1, h2, h3⟩ := inv_init hT hg R ha G
  have hlen : bases.length = m := by
    have := congrArg List.length h2
    simpa using this
  refine ⟨bases, h1, hlen, ?_, ?_, ?_, h3⟩
  · have : (bases.map Prod.fst).Pairwise Disjoint := by
      rw [h2, List.pairwise_map]
      exact (List.nodup_finRange m).imp fun {a b} hab => by simpa using hab
    exact List.pairwise_map.1 this
  · intro x hx
    have : x.1 ∈ bases.map Prod.fst := List.mem_map_of_mem hx
    rw [h2] at this
    obtain ⟨i, _, hi⟩ := List.mem_map.1 this
    rw [← hi]
    exact Finset.singleton_nonempty i
  · intro k
    have : ({k} : Finset (Fin m)) ∈ bases.map Prod.fst := by
      rw [h2]; exact List.mem_map.2 ⟨k, List.mem_finRange k, rfl⟩
    obtain ⟨x, hx, he⟩ := List.mem_map.1 this
    exact ⟨x, hx, by rw [he]; simp⟩

theorem loop_spec [LinearOrder T.Ir] {inter : InterFn} (hinter : InterSpec inter) {M : ℕ} {ord : SetOrder}
    (hord : SortedOrder M ord) (hT : GoodTable T) : ∀ (m : ℕ), m ≤ M →
    ∀ (irs : Fin m → ReducedRep T), (∀ i, GoodRed (irs i)) →
    ∀ (R : ∀ i, Rep n h (irs i).dim), (∀ i, ActsG (irs i) (R i)) →
    ∀ (G : Subgroup (SignedPerm m)) (Gs : Finset SP), (Gs : Set SP) = stup '' (G : Set (SignedPerm m)) →
    (∀ g ∈ G, ∀ k, (irs (g.2 k)).dim = (irs k).dim) → (∀ g ∈ G, ∀ k, NRep.of (R (g.2 k)) = NRep.of (R k)) →
    ∀ bases, Bases (fun i => (irs i).dim) (fun i => NRep.of (R i)) (G : Set (SignedPerm m)) bases →
    2 ≤ bases.length →
    ∃ K r, (∀ fuel ≥ K, loop inter ord fuel irs Gs bases = some r) ∧
      (∀ out, r = .ok out → Full (fun i => (irs i).dim) (fun i => NRep.of (R i)) (G : Set (SignedPerm m)) out ∧
        IsReducedBasis (fun i => (irs i).dim) (fun i => NRep.of (R i)) (G : Set (SignedPerm m)) out) ∧
      ((∀ g ∈ G, g.1 = 1) → ∃ out, r = .ok out) := by
  intro m
  induction m using Nat.strong_induction_on with
  | _ m IH =>
  intro hM irs hgood R hact G Gs hGs hδ hN bases
  have hpos : ∀ k, (irs k).dim ≠ 0 := by
    intro k h0
    obtain ⟨b, l, hl⟩ := List.exists_cons_of_ne_nil (hgood k).ne
    rw [ReducedRep.dim, hl] at h0
    simp only [dimL, MulIr.dim] at h0
    have h1 := (hgood k).mul b (by rw [hl]; simp)
    have h2 := hT.pos b.ir
    have : 0 < b.mul * T.dim b.ir := Nat.mul_pos (Nat.pos_of_ne_zero h1) h2
    omega
  induction hlen : bases.length generalizing bases with
  | zero => intro _ h2; omega
  | succ len ih =>
  intro hb h2
  match bases, hb, h2, hlen with
  | [(fa, a), (fb, b)], hb, _, _ =>
    have hd : Disjoint fa fb := by simpa using hb.disj
    have hu : fa ∪ fb = Finset.univ := by
      ext k
      simp only [Finset.mem_union, Finset.mem_univ, iff_true]
      obtain ⟨x, hx, hk⟩ := hb.cov k
      simp only [List.mem_cons, List.not_mem_nil, or_false] at hx
      rcases hx with rfl | rfl
      · exact .inl hk
      · exact .inr hk
    obtain ⟨h1, h2⟩ := finish_spec hinter hord hM hT hGs hpos hδ hN hd hu (hb.inv (fa, a) (by simp)) (hb.inv (fb, b) (by simp))
    refine ⟨1, _, fun fuel hf => ?_, h1, h2⟩
    obtain ⟨fuel, rfl⟩ : ∃ k, fuel = k + 1 := ⟨fuel - 1, by omega⟩
    rfl
  | b1 :: b2 :: b3 :: rest, hb, _, hlen =>
    set bases := b1 :: b2 :: b3 :: rest with hbases
    obtain ⟨p, i, j, hij, hj, hgr⟩ := greedy_ok hord hM hGs (δ := fun i => (irs i).dim) hδ (bases.map Prod.fst) (by simp [hbases])
    have hj' : j < bases.length := by simpa using hj
    simp only [List.getElem_map] at hgr
    set f := (bases[i]'(hij.trans hj')).1 ∪ bases[j].1 with hf
    have hperm := perm_erase bases hij hj'
    have hb' := bases_perm hperm hb
    set rest' := (bases.eraseIdx j).eraseIdx i with hrest
    have hlen' : bases.length = rest'.length + 2 := by
      have := hperm.length_eq
      simpa using this
    have hrne : rest' ≠ [] := by
      intro h0
      rw [h0] at hlen'
      simp [hbases] at hlen'
    obtain ⟨x, xs, hxs⟩ := List.exists_cons_of_ne_nil hrne
    have hdisj := hb'.disj
    rw [List.pairwise_cons, List.pairwise_cons] at hdisj
    obtain ⟨d1, d2, d3⟩ := hdisj
    have hne' := hb'.ne
    have hcard : f.card < m := by
      have h1 : f ⊂ Finset.univ := by
        rw [Finset.ssubset_univ_iff]
        intro h0
        obtain ⟨k, hk⟩ := hne' x (by rw [hxs]; simp)
        have hkf : k ∈ f := by rw [h0]; simp
        rcases Finset.mem_union.1 hkf with h3 | h3
        · exact Finset.disjoint_left.1 (d1 x (by rw [hxs]; simp)) h3 hk
        · exact Finset.disjoint_left.1 (d2 x (by rw [hxs]; simp)) h3 hk
      simpa using Finset.card_lt_card h1
    have hd12 : Disjoint (bases[i]'(hij.trans hj')).1 bases[j].1 := d1 _ (by simp)
    have hcard2 : 2 ≤ f.card := by
      rw [hf, Finset.card_union_of_disjoint hd12]
      have h3 := (hne' _ (by simp : bases[i]'(hij.trans hj') ∈ _)).card_pos
      have h4 := (hne' bases[j] (by simp)).card_pos
      omega
    -- the sub-call
    obtain ⟨H, hH, hHs⟩ := restrict_finset hGs f
    have hord' : (fun k => irs (ord m f k)) = fun k => irs (f.orderEmbOfFin rfl k) := by
      funext k; rw [hord m hM]
    have hHδ : ∀ g ∈ H, ∀ k, (irs (f.orderEmbOfFin rfl (g.2 k))).dim = (irs (f.orderEmbOfFin rfl k)).dim := by
      intro g hg k
      exact restrict_inv (δ := fun k => (irs k).dim) hδ g (hH ▸ hg) k
    have hHN : ∀ g ∈ H, ∀ k, NRep.of (R (f.orderEmbOfFin rfl (g.2 k))) = NRep.of (R (f.orderEmbOfFin rfl k)) := by
      intro g hg k
      exact restrict_inv (δ := fun k => NRep.of (R k)) hN g (hH ▸ hg) k
    obtain ⟨sub, hsub, hsublen, hsubB⟩ := bases_init hT (irs := fun k => irs (f.orderEmbOfFin rfl k))
      (fun k => hgood _) (fun k => R _) (fun k => hact _) (H : Set (SignedPerm f.card))
    obtain ⟨K1, r1, hr1, hr2, hr3⟩ := IH f.card hcard (by omega) (fun k => irs (f.orderEmbOfFin rfl k))
      (fun k => hgood _) (fun k => R _) (fun k => hact _) H (subrepr (f.image Fin.val) Gs) hHs hHδ hHN sub hsubB
      (by omega)
    have hstep : ∀ fuel, loop inter ord (fuel + 1) irs Gs bases =
        match loop inter ord fuel (fun k => irs (f.orderEmbOfFin rfl k)) (subrepr (f.image Fin.val) Gs) sub with
          | none => none
          | some (.error e) => some (.error e)
          | some (.ok ab) =>
            match reshape (padShape f fun i => (irs i).dim) none ab with
            | .error e => some (.error e)
            | .ok ab => loop inter ord fuel irs Gs ((f, ab) :: rest') := by
      intro fuel
      rw [hbases, loop]
      · rw [← hbases]
        simp only [hgr]
        rw [hord', hsub]
        rfl
      · intro f b he; cases he
      · intro fa a fb b he; cases he
    cases hr1e : r1 with
    | error e =>
      refine ⟨K1 + 1, .error e, fun fuel hfu => ?_, (by intro out ho; cases ho), fun hs => ?_⟩
      · obtain ⟨fuel, rfl⟩ : ∃ k, fuel = k + 1 := ⟨fuel - 1, by omega⟩
        rw [hstep, hr1 fuel (by omega), hr1e]
      · obtain ⟨out, ho⟩ := hr3 (by
          intro g hg
          have hg' : g ∈ restrictPerms f (G : Set (SignedPerm m)) := hH ▸ hg
          obtain ⟨g', hg', _, h1, _⟩ := hg'
          rw [h1]; exact hs g' hg')
        rw [hr1e] at ho; cases ho
    | ok ab =>
      obtain ⟨hfull, _⟩ := hr2 ab hr1e
      rw [hH] at hfull
      obtain ⟨ab', hre, hinv⟩ := inv_reshape (δ := fun i => (irs i).dim) (N := fun i => NRep.of (R i)) hfull
      have hB : Bases (fun i => (irs i).dim) (fun i => NRep.of (R i)) (G : Set (SignedPerm m)) ((f, ab') :: rest') := by
        refine ⟨List.pairwise_cons.2 ⟨fun y hy => ?_, d3⟩, fun y hy => ?_, fun k => ?_, fun y hy => ?_⟩
        · exact Finset.disjoint_union_left.2 ⟨d1 y (by simp [hy]), d2 y hy⟩
        · rcases List.mem_cons.1 hy with rfl | hy
          · exact (hne' _ (by simp)).mono Finset.subset_union_left
          · exact hne' y (by simp [hy])
        · obtain ⟨y, hy, hk⟩ := hb'.cov k
          simp only [List.mem_cons] at hy
          rcases hy with rfl | rfl | hy
          · exact ⟨_, List.mem_cons_self, Finset.mem_union_left _ hk⟩
          · exact ⟨_, List.mem_cons_self, Finset.mem_union_right _ hk⟩
          · exact ⟨y, by simp [hy], hk⟩
        · rcases List.mem_cons.1 hy with rfl | hy
          · exact hinv
          · exact hb'.inv y (by simp [hy])
      obtain ⟨K2, r2, g1, g2, g3⟩ := ih ((f, ab') :: rest') (by simp; omega) hB (by
        have : 1 ≤ rest'.length := by rw [hxs]; simp
        omega)
      refine ⟨max K1 K2 + 1, r2, fun fuel hfu => ?_, g2, g3⟩
      obtain ⟨fuel, rfl⟩ : ∃ k, fuel = k + 1 := ⟨fuel - 1, by omega⟩
      rw [hstep, hr1 fuel (by omega), hr1e]
      simp only [hre]
      exact g1 fuel (by omega)

end LieNN.TBasis
