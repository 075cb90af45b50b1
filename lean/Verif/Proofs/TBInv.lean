import Verif.Proofs.TBShape
import Verif.Proofs.TBInit

/-! # The invariant of the loop and the product of two bases -/
namespace LieNN.TBasis
open LieNN.Spec LieNN.IArr LieNN.PermRepr Module

variable {n h : ℕ} {T : Table n h} {m : ℕ}

/-- A basis `l` for the indices of `f`: it contains all the tensors with the symmetry. -/
structure Inv (δ : Fin m → ℕ) (N : Fin m → NRep n h) (G : Set (SignedPerm m)) (f : Finset (Fin m))
    (l : List (Blk T m)) : Prop where
  ne : l ≠ []
  equi : ∀ b ∈ l, EquiBlk (padShape f δ) (tensorRep f N) b
  real : ∀ b ∈ l, RealBlk (padShape f δ) b
  mul : ∀ b ∈ l, b.mul ≠ 0
  indep : tot l = finrank ℂ (spanC (padShape f δ) l)
  sym : symC (stab f G) (padShape f δ) ≤ spanC (padShape f δ) l

theorem initShape_eq (i : Fin m) (δ : Fin m → ℕ) : initShape i (δ i) = padShape {i} δ := by
  funext k
  simp only [initShape, padShape, Finset.mem_singleton]
  split_ifs with hk
  · rw [hk]
  · rfl

theorem equi_congr {s : Fin m → ℕ} {Y Z : LeadRep n h m} (hX : ∀ a, ∀ q ∈ box s, ∀ p ∈ box s, Y.X a q p = Z.X a q p)
    (hH : ∀ a, ∀ q ∈ box s, ∀ p ∈ box s, Y.H a q p = Z.H a q p) {b : Blk T m} (hb : EquiBlk s Y b) :
    EquiBlk s Z b := by
  refine ⟨hb.shape, fun a p hp u l => ?_, fun a p hp u l => ?_⟩
  · rw [hb.X a p hp u l]
    exact Finset.sum_congr rfl fun q hq => by rw [hX a q hq p hp]
  · rw [hb.H a p hp u l]
    exact Finset.sum_congr rfl fun q hq => by rw [hH a q hq p hp]

theorem pad_union {fa fb : Finset (Fin m)} (hd : Disjoint fa fb) (δ : Fin m → ℕ) :
    (fun k => padShape fa δ k * padShape fb δ k) = padShape (fa ∪ fb) δ := by
  funext k
  simp only [padShape, Finset.mem_union]
  by_cases h1 : k ∈ fa
  · have h2 := Finset.disjoint_left.1 hd h1
    simp [h1, h2]
  · simp [h1]

theorem pad_one {fa fb : Finset (Fin m)} (hd : Disjoint fa fb) (δ : Fin m → ℕ) (k : Fin m) :
    padShape fa δ k = 1 ∨ padShape fb δ k = 1 := by
  by_cases h1 : k ∈ fa
  · exact .inr (by rw [padShape, if_neg (Finset.disjoint_left.1 hd h1)])
  · exact .inl (by rw [padShape, if_neg h1])

theorem ite_and_one (p q : Prop) [Decidable p] [Decidable q] [Decidable (p ∧ q)] :
    (if p ∧ q then (1 : ℂ) else 0) = (if p then 1 else 0) * if q then 1 else 0 := by
  by_cases hp : p <;> by_cases hq : q <;> simp [hp, hq]

theorem part_pad {f g : Finset (Fin m)} {δ q : Fin m → ℕ} (hfg : f ⊆ g) (hq : q ∈ box (padShape g δ)) :
    part (padShape f δ) q = fun k => if k ∈ f then q k else 0 := by
  funext k
  simp only [part, padShape]
  by_cases hk : k ∈ f
  · have := pad_lt g hq (hfg hk)
    simp only [hk, if_true]
    split_ifs with h1
    · omega
    · rfl
  · simp [hk]

theorem tensor_pad {fa fb : Finset (Fin m)} (hd : Disjoint fa fb) (δ : Fin m → ℕ) (N : Fin m → NRep n h) :
    (∀ a, ∀ q ∈ box (padShape (fa ∪ fb) δ), ∀ p ∈ box (padShape (fa ∪ fb) δ),
      ((tensorRep fa N).tensor (padShape fa δ) (padShape fb δ) (tensorRep fb N)).X a q p =
        (tensorRep (fa ∪ fb) N).X a q p) ∧
    ∀ a, ∀ q ∈ box (padShape (fa ∪ fb) δ), ∀ p ∈ box (padShape (fa ∪ fb) δ),
      ((tensorRep fa N).tensor (padShape fa δ) (padShape fb δ) (tensorRep fb N)).H a q p =
        (tensorRep (fa ∪ fb) N).H a q p := by
  have key : ∀ {f g : Finset (Fin m)}, Disjoint f g → ∀ q ∈ box (padShape (f ∪ g) δ),
      ∀ p ∈ box (padShape (f ∪ g) δ), ∀ i ∈ f,
      ((∀ j, j ≠ i → (if j ∈ f then q j else 0) = if j ∈ f then p j else 0) ∧
        (fun k => if k ∈ g then q k else 0) = fun k => if k ∈ g then p k else 0) ↔
        ∀ j, j ≠ i → q j = p j := by
    intro f g hd q hq p hp i hi
    constructor
    · rintro ⟨h1, h2⟩ j hj
      by_cases hf : j ∈ f
      · simpa [hf] using h1 j hj
      · by_cases hg : j ∈ g
        · simpa [hg] using congrFun h2 j
        · rw [pad_zero _ hq (by simp [hf, hg]), pad_zero _ hp (by simp [hf, hg])]
    · intro hh
      refine ⟨fun j hj => by rw [hh j hj], ?_⟩
      funext k
      split_ifs with hk
      · exact hh k fun e => Finset.disjoint_left.1 hd hi (e ▸ hk)
      · rfl
  constructor
  · intro a q hq p hp
    simp only [LeadRep.tensor]
    rw [part_pad Finset.subset_union_left hq, part_pad Finset.subset_union_left hp,
      part_pad Finset.subset_union_right hq, part_pad Finset.subset_union_right hp]
    simp only [tensorRep]
    rw [Finset.sum_union hd, Finset.sum_mul, Finset.mul_sum]
    congr 1
    · refine Finset.sum_congr rfl fun i hi => ?_
      rw [if_pos hi, if_pos hi, mul_assoc, ← ite_and_one, if_congr (key hd q hq p hp i hi) rfl rfl]
    · refine Finset.sum_congr rfl fun i hi => ?_
      rw [if_pos hi, if_pos hi, mul_comm, mul_assoc, ← ite_and_one,
        if_congr (key hd.symm q (by rwa [Finset.union_comm]) p (by rwa [Finset.union_comm]) i hi) rfl rfl]
  · intro a q hq p hp
    simp only [LeadRep.tensor]
    rw [part_pad Finset.subset_union_left hq, part_pad Finset.subset_union_left hp,
      part_pad Finset.subset_union_right hq, part_pad Finset.subset_union_right hp]
    simp only [tensorRep]
    rw [Finset.prod_union hd, if_pos, if_pos, if_pos, mul_one, mul_one, mul_one]
    · congr 1
      · exact Finset.prod_congr rfl fun i hi => by rw [if_pos hi, if_pos hi]
      · exact Finset.prod_congr rfl fun i hi => by rw [if_pos hi, if_pos hi]
    · intro j hj
      rw [pad_zero _ hq hj, pad_zero _ hp hj]
    · intro j hj
      rw [if_neg hj, if_neg hj]
    · intro j hj
      rw [if_neg hj, if_neg hj]

theorem ite_box {fa fb : Finset (Fin m)} (hd : Disjoint fa fb) {δ : Fin m → ℕ} {a b : Fin m → ℕ}
    (ha : a ∈ box (padShape fa δ)) (hb : b ∈ box (padShape fb δ)) :
    (fun k => if k ∈ fa then a k else b k) ∈ box (fun k => padShape fa δ k * padShape fb δ k) := by
  rw [pad_union hd, memb]
  intro k
  by_cases h1 : k ∈ fa
  · simpa [padShape, h1] using pad_lt fa ha h1
  · by_cases h2 : k ∈ fb
    · simpa [padShape, h1, h2] using pad_lt fb hb h2
    · simp [padShape, h1, h2, pad_zero fb hb h2]

/-- The product of two bases keeps the invariant. -/
theorem inv_product [LinearOrder T.Ir] (hT : GoodTable T) {δ : Fin m → ℕ} {N : Fin m → NRep n h}
    {G : Set (SignedPerm m)} {fa fb : Finset (Fin m)} (hd : Disjoint fa fb) {a b : List (Blk T m)}
    (ha : Inv δ N G fa a) (hb : Inv δ N G fb b) :
    ∃ r, reduceBasisProduct a b = .ok r ∧ Inv δ N G (fa ∪ fb) r ∧ r.Pairwise fun a b => a.ir < b.ir := by
  have hd' := pad_one hd δ
  obtain ⟨r, h1, h2, h3, h4, h5, h6, h7, h8⟩ := product_full hT hd' ha.ne hb.ne ha.equi hb.equi
    ha.mul hb.mul ha.real hb.real
  have e := pad_union hd δ
  refine ⟨r, h1, ⟨h2, ?_, ?_, h4, ?_, ?_⟩, h6⟩
  · intro b hb
    have := h3 b hb
    rw [e] at this
    exact equi_congr (tensor_pad hd δ N).1 (tensor_pad hd δ N).2 this
  · rw [← e]; exact h5
  · rw [← e, h8, LinearEquiv.finrank_map_eq, finrank_tens, h7, ha.indep, hb.indep]
  · rw [← e, h8]
    intro t ht
    refine ⟨(joint hd').symm t, ?_, LinearEquiv.apply_symm_apply _ _⟩
    have hval : ∀ (x : Box (padShape fa δ)) (y : Box (padShape fb δ)), (joint hd').symm t (x, y) =
        t ⟨fun k => if k ∈ fa then x.1 k else y.1 k, ite_box hd x.2 y.2⟩ := by
      intro x y
      have hsurj := (joint hd').apply_symm_apply t
      set S := (joint hd').symm t
      rw [← hsurj, joint_apply]
      have hbox := ite_box hd x.2 y.2
      rw [e] at hbox
      congr 1
      refine Prod.ext ?_ ?_
      · apply Subtype.ext
        simp only
        rw [part_pad Finset.subset_union_left hbox]
        funext k
        split_ifs with hk
        · rfl
        · exact pad_zero fa x.2 hk
      · apply Subtype.ext
        simp only
        rw [part_pad Finset.subset_union_right hbox]
        funext k
        split_ifs with hk hk'
        · exact absurd hk (Finset.disjoint_left.1 hd hk')
        · rfl
        · exact pad_zero fb y.2 hk
    apply mem_tens_of_slices
    · intro y
      apply ha.sym
      intro g hg ξ η he
      simp only [hval]
      apply ht g ⟨hg.1, fun k hk => hg.2 k fun h => hk (Finset.mem_union_left _ h)⟩
      funext k
      simp only [Function.comp_apply]
      by_cases hk : k ∈ fa
      · have : g.2 k ∈ fa := by
          by_contra hn
          have h1 := hg.2 _ hn
          exact hn ((g.2.injective h1).symm ▸ hk)
        rw [if_pos hk, if_pos this, he]
        rfl
      · rw [if_neg hk, hg.2 k hk, if_neg hk]
    · intro x
      apply hb.sym
      intro g hg ξ η he
      simp only [hval]
      apply ht g ⟨hg.1, fun k hk => hg.2 k fun h => hk (Finset.mem_union_right _ h)⟩
      funext k
      simp only [Function.comp_apply]
      by_cases hk : k ∈ fa
      · have hk' := Finset.disjoint_left.1 hd hk
        rw [if_pos hk, hg.2 k hk', if_pos hk]
      · by_cases hk' : k ∈ fb
        · have : g.2 k ∈ fb := by
            by_contra hn
            have h1 := hg.2 _ hn
            exact hn ((g.2.injective h1).symm ▸ hk')
          rw [if_neg hk, if_neg (Finset.disjoint_right.1 hd this), he]
          rfl
        · rw [hg.2 k hk', if_neg hk, if_neg hk, he, Function.comp_apply, hg.2 k hk']

/-- The initial bases have the invariant. -/
theorem inv_init (hT : GoodTable T) {irs : Fin m → ReducedRep T} (hg : ∀ i, GoodRed (irs i))
    (R : ∀ i, Rep n h (irs i).dim) (ha : ∀ i, ActsG (irs i) (R i)) (G : Set (SignedPerm m)) :
    ∃ bases, initBases irs = .ok bases ∧ bases.map Prod.fst = (List.finRange m).map ({·}) ∧
      ∀ fb ∈ bases, Inv (fun i => (irs i).dim) (fun i => NRep.of (R i)) G fb.1 fb.2 := by
  obtain ⟨L, h1, h2⟩ := mapM_forall₂ (fun i : Fin m => do
      let M ← initMatrix (irs i)
      let l ← IArr.mk (initBlocks i M 0 (irs i).irreps)
      return (({i}, l) : Finset (Fin m) × List (Blk T m)))
    (fun i fb => fb.1 = {i} ∧ Inv (fun i => (irs i).dim) (fun i => NRep.of (R i)) G fb.1 fb.2)
    (List.finRange m) (by
      intro i _
      obtain ⟨M, hM, hu, hre, hX, hH⟩ := initMatrix_spec (hg i) (ha i)
      obtain ⟨g1, g2, g3, g4, g5, g6, g7⟩ := init_basis hT.pos (hg i) hu hre hX hH i
        (fun i => NRep.of (R i)) rfl
      have e := initShape_eq i fun i => (irs i).dim
      rw [e] at g3 g4 g6 g7
      refine ⟨({i}, initBlocks i M 0 (irs i).irreps), ?_, rfl, ⟨g2, g3, g4, g5, g6, ?_⟩⟩
      · rw [hM]
        show (IArr.mk _ >>= _) = _
        rw [g1]
        rfl
      · rw [g7]; exact le_top)
  refine ⟨L, h1, ?_, fun fb hfb => ?_⟩
  · clear h1
    generalize List.finRange m = F at h2
    induction h2 with
    | nil => rfl
    | cons h _ ih => rw [List.map_cons, List.map_cons, ih, h.1]
  · obtain ⟨i, _, hi⟩ := forall₂_right h2 hfb
    exact hi.2

end LieNN.TBasis
