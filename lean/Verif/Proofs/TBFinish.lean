import Verif.Proofs.TBConstrain

/-! # The last product of the loop -/
namespace LieNN.TBasis
open LieNN.Spec LieNN.IArr LieNN.PermRepr Module Matrix

variable {n h : ℕ} {T : Table n h} {m : ℕ}

/-- A basis of the tensors with the symmetry `G`. -/
structure Full (δ : Fin m → ℕ) (N : Fin m → NRep n h) (G : Set (SignedPerm m)) (l : List (Blk T m)) : Prop where
  ne : l ≠ []
  equi : ∀ b ∈ l, EquiBlk δ (tensorRep Finset.univ N) b
  real : ∀ b ∈ l, RealBlk δ b
  mul : ∀ b ∈ l, b.mul ≠ 0
  indep : tot l = finrank ℂ (spanC δ l)
  span : spanC δ l = symC G δ

theorem full_projected (hT : GoodTable T) {G : Subgroup (SignedPerm m)} {δ : Fin m → ℕ}
    (hδ : ∀ g ∈ G, ∀ k, δ (g.2 k) = δ k) {N : Fin m → NRep n h} (hN : ∀ g ∈ G, ∀ k, N (g.2 k) = N k)
    {l : List (Blk T m)} (hl : Inv δ N (G : Set (SignedPerm m)) Finset.univ l)
    (hir : ∀ i j : Fin l.length, i ≠ j → l[i].ir ≠ l[j].ir)
    (P : (i : Fin l.length) → List (Vec l[i].mul))
    (hP : ∀ i, GoodCoeffs hT.pos (G : Set (SignedPerm m)) δ l[i] (P i)) :
    (∀ b ∈ projected l P, EquiBlk δ (tensorRep Finset.univ N) b) ∧
    (∀ b ∈ projected l P, RealBlk δ b) ∧ (∀ b ∈ projected l P, b.mul ≠ 0) ∧
    tot (projected l P) = finrank ℂ (spanC δ (projected l P)) ∧
    spanC δ (projected l P) = symC (G : Set (SignedPerm m)) δ := by
  have heq := hl.equi
  have hre := hl.real
  have hin := hl.indep
  have hsy := hl.sym
  rw [pad_univ] at heq hre hin hsy
  rw [stab_univ] at hsy
  have hin' := (indep_iff δ l).2 hin
  obtain ⟨C, hC⟩ := commut hT.schur heq hin' hir (symProj hδ)
    (fun a t => symProj_act hδ (fun g hg q p => tensorRep_X_perm g.2 (hN g hg) a q p) t)
    (fun a t => symProj_act hδ (fun g hg q p => tensorRep_H_perm g.2 (hN g hg) a q p) t)
    (fun c => hsy (symProj_mem hδ _))
  obtain ⟨h1, h2⟩ := project_basis hT.pos hin' (symProj hδ) (symC (G : Set (SignedPerm m)) δ)
    (symProj_iff hδ) hsy C hC P (fun i => (hP i).orth) (by
      intro i y
      rw [(hP i).coeff]
      have : (∑ u, y u • col δ l ⟨i, u, ⟨0, hT.pos _⟩⟩) =
          fun p : Box δ => ∑ u, y u * l[i].x p.1 u ⟨0, hT.pos _⟩ := by
        funext p
        rw [Finset.sum_apply]
        rfl
      rw [this])
  refine ⟨?_, ?_, ?_, ?_, ?_⟩
  · intro b hb
    obtain ⟨i, _, rfl⟩ := mem_projected.1 hb
    exact equi_project (heq _ (List.getElem_mem _)) _
  · intro b hb
    obtain ⟨i, _, rfl⟩ := mem_projected.1 hb
    exact real_project (hre _ (List.getElem_mem _)) (hP i).real
  · intro b hb
    obtain ⟨i, hi, rfl⟩ := mem_projected.1 hb
    exact Nat.pos_iff_ne_zero.1 hi
  · rw [span_projected, finrank_span_eq_card h1, tot_projected, Fintype.card_sigma]
    simp only [Fintype.card_prod, Fintype.card_fin]
  · rw [span_projected, h2]

/-- The blocks of `constrain`. -/
theorem constrain_inv {inter : InterFn} (hinter : InterSpec inter) (hT : GoodTable T)
    {G : Set (SignedPerm m)} {δ : Fin m → ℕ} {Q : List (ℕ → ℝ)} (hQ : PermRows G δ Q)
    {l out : List (Blk T m)} (hs : ∀ b ∈ l, b.shape = δ) (hr : ∀ b ∈ l, RealBlk δ b) (hm : ∀ b ∈ l, b.mul ≠ 0)
    (ho : constrain inter l (List.ofFn δ, Q) = .ok out) :
    out ≠ [] ∧ ∃ P : (i : Fin l.length) → List (Vec l[i].mul),
      (∀ i, GoodCoeffs hT.pos G δ l[i] (P i)) ∧ out = projected l P := by
  rw [constrain] at ho
  obtain ⟨_, _, ho⟩ := bind_ok_inv ho
  simp only at ho
  split_ifs at ho with h0
  · cases ho
  obtain ⟨new, h1, h2⟩ := bind_ok_inv ho
  obtain ⟨rfl, hne, _⟩ := mk_inv h2
  refine ⟨hne, ?_⟩
  obtain ⟨e, h3⟩ := mapM_getElem h1
  have h4 : ∀ i : Fin l.length, ∃ P : List (Vec l[i].mul), GoodCoeffs hT.pos G δ l[i] P ∧
      new[i.1]'(e ▸ i.2) = if P.length > 0 then [project l[i] P] else [] := by
    intro i
    have hb : l[i] ∈ l := List.getElem_mem _
    obtain ⟨c1, c2⟩ := constrainBlk_spec hinter hT.pos hQ (hs _ hb) (hr _ hb) (hm _ hb)
    have h5 := h3 i.1 i.2
    by_cases hex : ∃ p : Box δ, (∃ u : Fin l[i].mul, l[i].x p.1 u ⟨0, hT.pos _⟩ ≠ 0) ∧ ∃ q ∈ Q, q (rowMajor δ p.1) ≠ 0
    · obtain ⟨P, g1, g2⟩ := c1 hex
      refine ⟨P, g1, ?_⟩
      have := h5.symm.trans g2
      exact Except.ok.inj this
    · have := h5.symm.trans (c2 hex)
      cases this
  choose P hP1 hP2 using h4
  refine ⟨P, hP1, ?_⟩
  rw [projected]
  congr 1
  apply List.ext_getElem
  · simp [e]
  · intro i g1 g2
    rw [List.getElem_ofFn]
    exact hP2 ⟨i, by rw [e]; exact g1⟩

theorem full_sortSimp [LinearOrder T.Ir] {G : Set (SignedPerm m)} {δ : Fin m → ℕ} {N : Fin m → NRep n h}
    {l out : List (Blk T m)} (hl : Full δ N G l) (ho : sortSimp l = .ok out) :
    Full δ N G out ∧ IsReducedBasis δ N G out := by
  have h1 : Full δ N G out := by
    refine ⟨?_, sortSimp_forall (fun a b e => equi_merge a b e) ho hl.equi,
      sortSimp_forall (fun a b e => realBlk_merge a b e) ho hl.real,
      sortSimp_forall (P := fun b => b.mul ≠ 0) (fun a b e ha _ => by simp only [merge]; omega) ho hl.mul, ?_, ?_⟩
    · rintro rfl
      obtain ⟨l', g1, g2⟩ := bind_ok_inv ho
      obtain ⟨acc, g3, g4⟩ := bind_ok_inv g2
      obtain ⟨g5, g6, _⟩ := mk_inv g4
      exact g6 g5.symm
    · rw [sortSimp_tot ho, sortSimp_span ho, hl.indep]
    · rw [sortSimp_span ho, hl.span]
  exact ⟨h1, h1.equi, (indep_iff _ _).2 h1.indep, by rw [span_col, h1.span], sortSimp_sorted ho, h1.mul⟩

theorem ir_ne_of_sorted [LinearOrder T.Ir] {l : List (Blk T m)} (hl : l.Pairwise fun a b => a.ir < b.ir)
    (i j : Fin l.length) (hij : i ≠ j) : l[i].ir ≠ l[j].ir := by
  rw [List.pairwise_iff_getElem] at hl
  rcases lt_or_gt_of_ne hij with h1 | h1
  · exact (hl i.1 j.1 i.2 j.2 h1).ne
  · exact (hl j.1 i.1 j.2 i.2 h1).ne'

theorem card_one {G : Subgroup (SignedPerm m)} {Gf : Finset (SignedPerm m)} (hG : ∀ g, g ∈ Gf ↔ g ∈ G)
    (hc : (Gf.image stup).card = 1) (g : SignedPerm m) (hg : g ∈ G) : g = 1 := by
  obtain ⟨x, hx⟩ := Finset.card_eq_one.1 hc
  have h1 : ∀ g ∈ G, stup g = x := by
    intro g hg
    have : stup g ∈ Gf.image stup := Finset.mem_image_of_mem _ ((hG g).2 hg)
    rw [hx] at this
    exact Finset.mem_singleton.1 this
  exact stup_injective ((h1 g hg).trans (h1 1 G.one_mem).symm)

/-- The last step: what is returned is a reduced basis. -/
theorem finish_spec [LinearOrder T.Ir] {inter : InterFn} (hinter : InterSpec inter) {M : ℕ} {ord : SetOrder}
    (hord : SortedOrder M ord) (hM : m ≤ M) (hT : GoodTable T) {G : Subgroup (SignedPerm m)} {Gs : Finset SP}
    (hGs : (Gs : Set SP) = stup '' (G : Set (SignedPerm m))) {δ : Fin m → ℕ} (hpos : ∀ k, δ k ≠ 0)
    (hδ : ∀ g ∈ G, ∀ k, δ (g.2 k) = δ k) {N : Fin m → NRep n h} (hN : ∀ g ∈ G, ∀ k, N (g.2 k) = N k)
    {fa fb : Finset (Fin m)} (hd : Disjoint fa fb) (hu : fa ∪ fb = Finset.univ) {a b : List (Blk T m)}
    (ha : Inv δ N (G : Set (SignedPerm m)) fa a) (hb : Inv δ N (G : Set (SignedPerm m)) fb b) :
    (∀ out, finish inter ord Gs δ fa a fb b = .ok out → Full δ N (G : Set (SignedPerm m)) out ∧
      IsReducedBasis δ N (G : Set (SignedPerm m)) out) ∧
    ((∀ g ∈ G, g.1 = 1) → ∃ out, finish inter ord Gs δ fa a fb b = .ok out) := by
  classical
  obtain ⟨Gf, hG, rfl⟩ := exists_finset hGs
  obtain ⟨r, hr, hinv, hsort⟩ := inv_product hT hd ha hb
  rw [hu] at hinv
  have heq := hinv.equi
  have hre := hinv.real
  have hin := hinv.indep
  have hsy := hinv.sym
  rw [pad_univ] at heq hre hin hsy
  rw [stab_univ] at hsy
  have hfin : finish inter ord (Gf.image stup) δ fa a fb b =
      if (Gf.image stup).card = 1 then sortSimp r else
        (subgroupBasis ord Finset.univ (Gf.image stup) δ >>= fun p => constrain inter r p >>= sortSimp) := by
    rw [finish, hr]
    show (if _ then _ else _) = _
    rw [hu, subrepr_univ]
  by_cases hc : (Gf.image stup).card = 1
  · rw [hfin, if_pos hc]
    have h1 := card_one hG hc
    have htop : symC (G : Set (SignedPerm m)) δ = ⊤ := by
      rw [eq_top_iff]
      intro t _ g hg ξ η he
      have := h1 g hg
      subst this
      have : η = ξ := Subtype.ext (by simpa using he)
      rw [this]; simp
    have hF : Full δ N (G : Set (SignedPerm m)) r :=
      ⟨hinv.ne, heq, hre, hinv.mul, hin, le_antisymm (by rw [htop]; exact le_top) hsy⟩
    refine ⟨fun out ho => full_sortSimp hF ho, fun _ => ?_⟩
    obtain ⟨out, ho, _⟩ := sortSimp_ok hinv.ne fun b hb => (heq b hb).shape
    exact ⟨out, ho⟩
  · rw [hfin, if_neg hc]
    obtain ⟨bs, Q, h1, h2, h3, h4, h5, h6, -⟩ := matrix_spec_disj hG δ fun g hg => funext (hδ g hg)
    have hQ : PermRows (G : Set (SignedPerm m)) δ Q := ⟨h5, h6⟩
    have hsub : subgroupBasis ord Finset.univ (Gf.image stup) δ = .ok (List.ofFn δ, Q) := by
      rw [subgroupBasis]
      rw [subrepr_univ, if_neg hc, subDims_univ hord hM, h1]
      show (matrix bs (List.ofFn δ) >>= _) = _
      rw [h2]
      show (if _ then _ else _) = _
      rw [pad_univ, if_neg (Finset.prod_ne_zero_iff.2 fun k _ => hpos k)]
      rfl
    rw [hsub]
    have hsh := fun b hb => (heq b hb).shape
    constructor
    · intro out ho
      have ho : (constrain inter r (List.ofFn δ, Q) >>= sortSimp) = .ok out := ho
      obtain ⟨out', g1, g2⟩ := bind_ok_inv ho
      obtain ⟨hne, P, hP, rfl⟩ := constrain_inv hinter hT hQ hsh hre hinv.mul g1
      obtain ⟨k1, k2, k3, k4, k5⟩ := full_projected hT hδ hN hinv (ir_ne_of_sorted hsort) P hP
      exact full_sortSimp ⟨hne, k1, k2, k3, k4, k5⟩ g2
    · intro hsgn
      -- the constant tensor
      have hone : (fun _ : Box δ => (1 : ℝ)) ∈ symTensors (G : Set (SignedPerm m)) δ := by
        intro g hg ξ η _
        rw [hsgn g hg]; simp
      have hcov : ∀ p : Box δ, ∃ q ∈ Q, q (rowMajor δ p.1) ≠ 0 := by
        intro p
        rw [← h5] at hone
        obtain ⟨z, hz⟩ := (Submodule.mem_span_range_iff_exists_fun ℝ).1 hone
        by_contra hno
        push Not at hno
        have := congrFun hz p
        rw [Finset.sum_apply, Finset.sum_eq_zero] at this
        · exact zero_ne_one this
        · intro i _
          simp only [Pi.smul_apply]
          have h7 : Q[i] (rowMajor δ p.1) = 0 := hno _ (List.getElem_mem _)
          rw [h7, smul_zero]
      have hin' := (indep_iff δ r).2 hin
      have hbl : ∀ i : Fin r.length, ∃ P : List (Vec r[i].mul),
          GoodCoeffs hT.pos (G : Set (SignedPerm m)) δ r[i] P ∧
          constrainBlk inter Q r[i] = .ok (if P.length > 0 then [project r[i] P] else []) := by
        intro i
        have hb : r[i] ∈ r := List.getElem_mem _
        refine (constrainBlk_spec hinter hT.pos hQ (hsh _ hb) (hre _ hb) (hinv.mul _ hb)).1 ?_
        have h0 := hin'.ne_zero (⟨i, ⟨0, Nat.pos_of_ne_zero (hinv.mul _ hb)⟩, ⟨0, hT.pos _⟩⟩ : Cols r)
        obtain ⟨p, hp⟩ := Function.ne_iff.1 h0
        exact ⟨p, ⟨_, hp⟩, hcov p⟩
      choose P hP1 hP2 using hbl
      obtain ⟨k1, k2, k3, k4, k5⟩ := full_projected hT hδ hN hinv (ir_ne_of_sorted hsort) P hP1
      have hbox : ∃ p : Box δ, True := ⟨⟨fun _ => 0, by
        show _ ∈ box _
        rw [memb]; exact fun k => Nat.pos_of_ne_zero (hpos k)⟩, trivial⟩
      obtain ⟨p0, _⟩ := hbox
      have hne : projected r P ≠ [] := by
        intro h0
        have h7 : (fun _ : Box δ => (1 : ℂ)) ∈ symC (G : Set (SignedPerm m)) δ := by
          intro g hg ξ η _
          rw [hsgn g hg]; simp
        rw [← k5, h0, spanC] at h7
        have : {c : Box δ → ℂ | ∃ b ∈ ([] : List (Blk T m)), ∃ u k, c = fun p => b.x p.1 u k} = ∅ := by
          ext c; simp
        rw [this, Submodule.span_empty, Submodule.mem_bot] at h7
        exact one_ne_zero (congrFun h7 p0)
      have hmapM : r.mapM (constrainBlk inter Q) = .ok (List.ofFn fun i : Fin r.length =>
          if (P i).length > 0 then [project r[i] (P i)] else []) := by
        have hf : ∀ b ∈ r, ∃ q, constrainBlk inter Q b = .ok q ∧ True := by
          intro b hb
          obtain ⟨i, hi, rfl⟩ := List.mem_iff_getElem.1 hb
          exact ⟨_, hP2 ⟨i, hi⟩, trivial⟩
        obtain ⟨new, e1, _⟩ := mapM_forall₂ (constrainBlk inter Q) (fun _ _ => True) r hf
        rw [e1]
        congr 1
        obtain ⟨e2, e3⟩ := mapM_getElem e1
        apply List.ext_getElem
        · simp [e2]
        · intro i g1 g2
          rw [List.getElem_ofFn]
          have := (e3 i (by rw [e2]; exact g1)).symm.trans (hP2 ⟨i, by rw [e2]; exact g1⟩)
          exact Except.ok.inj this
      have hQne : ¬ Q.length = 0 := by
        obtain ⟨q, hq, _⟩ := hcov p0
        intro h0
        rw [List.length_eq_zero_iff] at h0
        simp [h0] at hq
      have hcon : constrain inter r (List.ofFn δ, Q) = .ok (projected r P) := by
        rw [constrain, pyAssert, if_pos (by intro b hb; rw [hsh b hb])]
        show (if Q.length = 0 then _ else _) = _
        rw [if_neg hQne]
        show (r.mapM (constrainBlk inter Q) >>= fun new => IArr.mk new.flatten) = _
        rw [hmapM]
        exact mk_ok hne fun b hb => (k1 b hb).shape
      obtain ⟨out, ho, _⟩ := sortSimp_ok hne fun b hb => (k1 b hb).shape
      refine ⟨out, ?_⟩
      show (constrain inter r (List.ofFn δ, Q) >>= sortSimp) = _
      rw [hcon]
      exact ho

end LieNN.TBasis
