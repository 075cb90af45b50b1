import Verif.Proofs.TBLimit

/-!
# Inputs on which the reduced tensor product fails
-/
namespace LieNN.TBasis

open Matrix LieNN.PermRepr LieNN.IArr LieNN.Spec

variable {n h : ℕ} {T : Table n h} {m : ℕ}

theorem mapM_error {α β : Type} {f : α → Py β} {e : PyErr} : ∀ {l : List α},
    (∀ a ∈ l, (∃ b, f a = .ok b) ∨ f a = .error e) → (∃ a ∈ l, f a = .error e) → l.mapM f = .error e := by
  intro l
  induction l with
  | nil => rintro _ ⟨a, ha, _⟩; simp at ha
  | cons a l ih =>
    intro h1 h2
    rw [List.mapM_cons]
    rcases h1 a (by simp) with ⟨b, hb⟩ | he
    · have : l.mapM f = .error e := by
        refine ih (fun x hx => h1 x (by simp [hx])) ?_
        obtain ⟨x, hx, hxe⟩ := h2
        rcases List.mem_cons.1 hx with rfl | hx
        · rw [hb] at hxe; cases hxe
        · exact ⟨x, hx, hxe⟩
      rw [hb, this]; rfl
    · rw [he]; rfl

/-- A block whose component `0` is supported where all tensors with the symmetry vanish makes the last
step fail. -/
theorem finish_error [LinearOrder T.Ir] {inter : InterFn} (hinter : InterSpec inter) {M : ℕ} {ord : SetOrder}
    (hord : SortedOrder M ord) (hM : m ≤ M) (hT : GoodTable T) {G : Subgroup (SignedPerm m)} {Gs : Finset SP}
    (hGs : (Gs : Set SP) = stup '' (G : Set (SignedPerm m))) {δ : Fin m → ℕ} (hpos : ∀ k, δ k ≠ 0)
    (hδ : ∀ g ∈ G, ∀ k, δ (g.2 k) = δ k) {N : Fin m → NRep n h}
    {fa fb : Finset (Fin m)} (hd : Disjoint fa fb) (hu : fa ∪ fb = Finset.univ) {a b : List (Blk T m)}
    (ha : Inv δ N {1} fa a) (hb : Inv δ N {1} fb b) (hone : ∃ g ∈ G, g ≠ 1) (p : Box δ)
    (hp : ∀ b : Blk T m, EquiBlk δ (tensorRep Finset.univ N) b → (∃ u k, b.x p.1 u k ≠ 0) →
      ∀ q : Box δ, (∃ u, b.x q.1 u ⟨0, hT.pos _⟩ ≠ 0) → ∀ t ∈ symC (G : Set (SignedPerm m)) δ, t q = 0) :
    finish inter ord Gs δ fa a fb b = .error .valueError := by
  classical
  obtain ⟨Gf, hG, rfl⟩ := exists_finset hGs
  obtain ⟨r, hr, hinv, hsort⟩ := inv_product hT hd ha hb
  rw [hu] at hinv
  have heq := hinv.equi
  have hre := hinv.real
  have hsy := hinv.sym
  rw [pad_univ] at heq hre hsy
  rw [stab_univ] at hsy
  have hc : ¬ (Gf.image stup).card = 1 := by
    intro hc
    obtain ⟨g, hg, hg1⟩ := hone
    exact hg1 (card_one hG hc g hg)
  have hfin : finish inter ord (Gf.image stup) δ fa a fb b =
        (subgroupBasis ord Finset.univ (Gf.image stup) δ >>= fun p => constrain inter r p >>= sortSimp) := by
    rw [finish, hr]
    show (if _ then _ else _) = _
    rw [hu, subrepr_univ, if_neg hc]
  rw [hfin]
  obtain ⟨bs, Q, h1, h2, h3, h4, h5, h6, -⟩ := matrix_spec_disj hG δ fun g hg => funext (hδ g hg)
  have hQ : PermRows (G : Set (SignedPerm m)) δ Q := ⟨h5, h6⟩
  have hsub : subgroupBasis ord Finset.univ (Gf.image stup) δ = .ok (List.ofFn δ, Q) := by
    rw [subgroupBasis]
    rw [subrepr_univ, if_neg hc, subDims_univ hord hM, h1]
    show (matrix bs (List.ofFn δ) >>= _) = _
    rw [h2]
    show (if _ then _ else _) = _
    rw [pad_univ, if_neg (Finset.prod_ne_zero_iff.2 fun k _ => hpos k)]
    rfl
  rw [hsub]
  have hsh := fun b hb => (heq b hb).shape
  -- a block that does not vanish at `p`
  obtain ⟨b0, hb0, hnz⟩ : ∃ b0 ∈ r, ∃ u k, b0.x p.1 u k ≠ 0 := by
    by_contra hno
    push Not at hno
    have h7 : (fun q : Box δ => if q = p then (1 : ℂ) else 0) ∈ spanC δ r := by
      refine hsy ?_
      rintro g hg ξ η he
      obtain rfl : g = 1 := hg
      have : η = ξ := Subtype.ext (by simpa using he)
      rw [this]; simp
    have h8 : ∀ t ∈ spanC δ r, t p = 0 := by
      intro t ht
      induction ht using Submodule.span_induction with
      | mem t ht =>
        obtain ⟨b, hb, u, k, rfl⟩ := ht
        exact hno b hb u k
      | zero => rfl
      | add x y _ _ hx hy => rw [Pi.add_apply, hx, hy, add_zero]
      | smul c x _ hx => rw [Pi.smul_apply, hx, smul_zero]
    have := h8 _ h7
    simp at this
  have hbad : constrainBlk inter Q b0 = .error .valueError := by
    refine (constrainBlk_spec hinter hT.pos hQ (hsh _ hb0) (hre _ hb0) (hinv.mul _ hb0)).2 ?_
    rintro ⟨q, hq, y, hy, hyq⟩
    obtain ⟨i, hi, rfl⟩ := List.mem_iff_getElem.1 hy
    have hmem : (fun ξ : Box δ => Q[i] (rowMajor δ ξ.1)) ∈ symTensors (G : Set (SignedPerm m)) δ := by
      rw [← h5]
      exact Submodule.subset_span ⟨⟨i, hi⟩, rfl⟩
    have hmemC : (fun ξ : Box δ => ((Q[i] (rowMajor δ ξ.1) : ℝ) : ℂ)) ∈ symC (G : Set (SignedPerm m)) δ := by
      intro g hg ξ η he
      have := hmem g hg ξ η he
      simp only at this
      simp only [this]
      push_cast
      rfl
    have := hp b0 (heq b0 hb0) hnz q hq _ hmemC
    exact hyq (by exact_mod_cast this)
  show (constrain inter r (List.ofFn δ, Q) >>= sortSimp) = _
  have hcon : constrain inter r (List.ofFn δ, Q) = .error .valueError := by
    rw [constrain, pyAssert, if_pos (by intro b hb; rw [hsh b hb])]
    show (if Q.length = 0 then _ else _) = _
    split_ifs with hl
    · rfl
    · show (r.mapM (constrainBlk inter Q) >>= fun new => IArr.mk new.flatten) = _
      rw [mapM_error (e := .valueError) ?_ ⟨b0, hb0, hbad⟩]
      · rfl
      · intro b hb
        have hs := constrainBlk_spec hinter hT.pos hQ (hsh _ hb) (hre _ hb) (hinv.mul _ hb)
        by_cases hcov : ∃ p : Box δ, (∃ u, b.x p.1 u ⟨0, hT.pos _⟩ ≠ 0) ∧ ∃ q ∈ Q, q (rowMajor δ p.1) ≠ 0
        · obtain ⟨P, _, hP⟩ := hs.1 hcov
          exact .inl ⟨_, hP⟩
        · exact .inr (hs.2 hcov)
  rw [hcon]
  rfl

theorem good_acts {r : ReducedRep T} (hg : GoodRed r) : ∃ R : Rep n h r.dim, ActsG r R := by
  obtain ⟨q, hq, hu⟩ : ∃ q : Matrix (Fin r.dim) (Fin r.dim) ℂ, r.q = .ok q ∧ IsUnit q := by
    cases hQ : r.Q with
    | none => exact ⟨1, by rw [ReducedRep.q, hQ]; rfl, isUnit_one⟩
    | some Q =>
      obtain ⟨q, rfl, hu, hr⟩ := hg.Q Q (by rw [hQ]; rfl)
      exact ⟨q, by rw [ReducedRep.q, hQ]; exact SMat.view_mk q, hu⟩
  exact ⟨blockRep r.A r.irreps q, fun hn => r.continuousGenerators_ok hn hg.ne hg.mul hq hu,
    r.discreteGenerators_ok hg.ne hg.mul hq hu⟩

theorem acts_nrep {r s : ReducedRep T} (he : r = s) {R : Rep n h r.dim} {S : Rep n h s.dim} (hR : ActsG r R)
    (hS : ActsG s S) : NRep.of R = NRep.of S := by
  subst he
  have hX : R.X = S.X := by
    funext a
    have h0 : n ≠ 0 := by rintro rfl; exact a.elim0
    have := List.ofFn_injective (Except.ok.inj ((hR.1 h0).symm.trans (hS.1 h0)))
    have := congrFun this a
    simpa using this
  have hH : R.H = S.H := by
    funext a
    have := List.ofFn_injective (Except.ok.inj (hR.2.symm.trans hS.2))
    have := congrFun this a
    simpa using this
  rw [NRep.of, NRep.of, hX, hH]

theorem good_pos (hT : GoodTable T) {r : ReducedRep T} (hg : GoodRed r) : r.dim ≠ 0 := by
  intro h0
  obtain ⟨b, l, hl⟩ := List.exists_cons_of_ne_nil hg.ne
  rw [ReducedRep.dim, hl] at h0
  simp only [dimL, MulIr.dim] at h0
  have h1 := hg.mul b (by rw [hl]; simp)
  have h2 := hT.pos b.ir
  have : 0 < b.mul * T.dim b.ir := Nat.mul_pos (Nat.pos_of_ne_zero h1) h2
  omega

end LieNN.TBasis
