import Verif.Proofs.TBSym
import Verif.Proofs.PermRestrict
import Verif.Proofs.Reduced
import Mathlib.Algebra.BigOperators.Fin

/-! # Shapes: flat indices, sub-shapes -/
namespace LieNN.TBasis
open LieNN.Spec LieNN.IArr LieNN.PermRepr Module

variable {n h : ℕ} {T : Table n h} {m : ℕ}

theorem unravel_rowMajor {m : ℕ} : ∀ {s p : Fin m → ℕ}, (∀ k, p k < s k) →
    unravel s (rowMajor s p) = p := by
  induction m with
  | zero => intro s p _; funext k; exact k.elim0
  | succ m ih =>
    intro s p hp
    have hr := rowMajor_lt (δ := fun k => s k.succ) (ξ := fun k => p k.succ) fun k => hp k.succ
    have hi := ih (s := fun k => s k.succ) (p := fun k => p k.succ) fun k => hp k.succ
    funext k
    rw [rowMajor_succ]
    refine Fin.cases ?_ (fun k => ?_) k
    · have h0 : ∏ k' ∈ Finset.univ.filter ((0 : Fin (m + 1)) < ·), s k' = ∏ k, s (Fin.succ k) := by
        rw [Finset.prod_filter, Fin.prod_univ_succ]
        simp
      have hpos : 0 < ∏ k, s (Fin.succ k) := by omega
      simp only [unravel, h0]
      rw [Nat.add_comm, Nat.add_mul_div_right _ _ hpos, Nat.div_eq_of_lt hr, zero_add,
        Nat.mod_eq_of_lt (hp 0)]
    · have h1 : ∏ k' ∈ Finset.univ.filter (k.succ < ·), s k' =
          ∏ k' ∈ Finset.univ.filter (k < ·), s (Fin.succ k') := by
        rw [Finset.prod_filter, Finset.prod_filter, Fin.prod_univ_succ]
        simp
      have h2 := congrFun hi k
      simp only [unravel] at h2 ⊢
      rw [h1]
      have h3 : (∏ k' ∈ Finset.univ.filter (k < ·), s (Fin.succ k')) * s k.succ ∣ ∏ k, s (Fin.succ k) := by
        have : (∏ k' ∈ Finset.univ.filter (k < ·), s (Fin.succ k')) * s k.succ =
            ∏ k' ∈ insert k (Finset.univ.filter (k < ·)), s (Fin.succ k') := by
          rw [Finset.prod_insert (by simp), mul_comm]
        rw [this]
        exact Finset.prod_dvd_prod_of_subset _ _ _ (Finset.subset_univ _)
      obtain ⟨E, hE⟩ := h3
      set D := ∏ k' ∈ Finset.univ.filter (k < ·), s (Fin.succ k')
      have hD : 0 < D := by
        rcases Nat.eq_zero_or_pos D with h0 | h0
        · rw [h0] at hE; omega
        · exact h0
      rw [hE, show p 0 * (D * s k.succ * E) = (p 0 * E * s k.succ) * D by ring, Nat.add_comm,
        Nat.add_mul_div_right _ _ hD, Nat.add_mul_mod_self_right]
      exact h2

theorem ravel_eq (s p : Fin m → ℕ) : ravel s p = rowMajor s p := flat_ofFn s p

/-! ### Sub-shapes -/

variable (f : Finset (Fin m))

theorem sum_sub (g : Fin m → ℂ) : ∑ i ∈ f, g i = ∑ j : Fin f.card, g (f.orderEmbOfFin rfl j) := by
  conv_lhs => rw [← Finset.map_orderEmbOfFin_univ f rfl]
  rw [Finset.sum_map]
  rfl

theorem prod_sub {R : Type} [CommMonoid R] (g : Fin m → R) :
    ∏ i ∈ f, g i = ∏ j : Fin f.card, g (f.orderEmbOfFin rfl j) := by
  conv_lhs => rw [← Finset.map_orderEmbOfFin_univ f rfl]
  rw [Finset.prod_map]
  rfl

theorem prod_pad (δ : Fin m → ℕ) : ∏ k, padShape f δ k = ∏ j, δ (f.orderEmbOfFin rfl j) := by
  rw [← prod_sub f δ]
  simp only [padShape]
  rw [Finset.prod_ite_mem, Finset.univ_inter]

theorem pad_zero {δ : Fin m → ℕ} {p : Fin m → ℕ} (hp : p ∈ box (padShape f δ)) {k : Fin m} (hk : k ∉ f) :
    p k = 0 := by
  have := memb.1 hp k
  rw [padShape, if_neg hk] at this
  omega

theorem pad_lt {δ : Fin m → ℕ} {p : Fin m → ℕ} (hp : p ∈ box (padShape f δ)) {k : Fin m} (hk : k ∈ f) :
    p k < δ k := by
  have := memb.1 hp k
  rwa [padShape, if_pos hk] at this

theorem rowMajor_pad {δ : Fin m → ℕ} {p : Fin m → ℕ} (hp : p ∈ box (padShape f δ)) :
    rowMajor (padShape f δ) p =
      rowMajor (fun j => δ (f.orderEmbOfFin rfl j)) fun j => p (f.orderEmbOfFin rfl j) := by
  simp only [rowMajor]
  have h1 : ∑ k, p k * ∏ j ∈ Finset.univ.filter (k < ·), padShape f δ j =
      ∑ k ∈ f, p k * ∏ j ∈ Finset.univ.filter (k < ·), padShape f δ j := by
    symm
    apply Finset.sum_subset (Finset.subset_univ _)
    intro k _ hk
    rw [pad_zero f hp hk, zero_mul]
  have h2 : ∀ g : Fin m → ℕ, ∑ i ∈ f, g i = ∑ j : Fin f.card, g (f.orderEmbOfFin rfl j) := by
    intro g
    conv_lhs => rw [← Finset.map_orderEmbOfFin_univ f rfl]
    rw [Finset.sum_map]
    rfl
  rw [h1, h2]
  refine Finset.sum_congr rfl fun j _ => ?_
  congr 1
  rw [Finset.prod_filter, Finset.prod_filter]
  have h3 : ∏ a, (if f.orderEmbOfFin rfl j < a then padShape f δ a else 1) =
      ∏ a ∈ f, if f.orderEmbOfFin rfl j < a then δ a else 1 := by
    rw [← Finset.prod_subset (Finset.subset_univ f)]
    · refine Finset.prod_congr rfl fun a ha => ?_
      rw [padShape, if_pos ha]
    · intro a _ ha
      rw [padShape, if_neg ha, ite_self]
  rw [h3, prod_sub f]
  refine Finset.prod_congr rfl fun a _ => ?_
  simp only [OrderEmbedding.lt_iff_lt]

/-- Multi-indices of the sub-shape. -/
theorem embox_bij (δ : Fin m → ℕ) : Function.Bijective
    (fun p : Box (padShape f δ) => (⟨fun j => p.1 (f.orderEmbOfFin rfl j), by
      show _ ∈ box _
      rw [memb]
      intro j
      exact pad_lt f p.2 (Finset.orderEmbOfFin_mem f rfl j)⟩ : Box fun j => δ (f.orderEmbOfFin rfl j))) := by
  constructor
  · intro p q he
    apply Subtype.ext
    funext k
    have he := congrArg Subtype.val he
    simp only at he
    by_cases hk : k ∈ f
    · obtain ⟨j, rfl⟩ : k ∈ Set.range (f.orderEmbOfFin rfl) := by
        rw [Finset.range_orderEmbOfFin]; exact hk
      exact congrFun he j
    · rw [pad_zero f p.2 hk, pad_zero f q.2 hk]
  · intro ξ
    refine ⟨⟨fun k => if hk : k ∈ f then ξ.1 ((f.orderIsoOfFin rfl).symm ⟨k, hk⟩) else 0, ?_⟩, ?_⟩
    · show _ ∈ box _
      rw [memb]
      intro k
      rw [padShape]
      split_ifs with hk
      · have := memb.1 ξ.2 ((f.orderIsoOfFin rfl).symm ⟨k, hk⟩)
        have e : f.orderEmbOfFin rfl ((f.orderIsoOfFin rfl).symm ⟨k, hk⟩) = k := by
          rw [← Finset.coe_orderIsoOfFin_apply, OrderIso.apply_symm_apply]
        rw [e] at this
        exact this
      · exact Nat.one_pos
    · apply Subtype.ext
      funext j
      have hj := Finset.orderEmbOfFin_mem f rfl j
      simp only [dif_pos hj]
      have e : (f.orderIsoOfFin rfl).symm ⟨f.orderEmbOfFin rfl j, hj⟩ = j := by
        rw [OrderIso.symm_apply_eq]
        apply Subtype.ext
        rw [Finset.coe_orderIsoOfFin_apply]
      rw [e]

/-- Multi-indices of the sub-shape. -/
noncomputable def embox (δ : Fin m → ℕ) :
    Box (padShape f δ) ≃ Box fun j => δ (f.orderEmbOfFin rfl j) := Equiv.ofBijective _ (embox_bij f δ)

theorem embox_val (δ : Fin m → ℕ) (p : Box (padShape f δ)) (j) :
    (embox f δ p).1 j = p.1 (f.orderEmbOfFin rfl j) := rfl

/-- The elements of `G` that fix the indices outside `f`. -/
def stab (G : Set (SignedPerm m)) : Set (SignedPerm m) := {g | g ∈ G ∧ ∀ k, k ∉ f → g.2 k = k}

theorem symC_sub {δ : Fin m → ℕ} {G : Set (SignedPerm m)} {t : Box (padShape f δ) → ℂ}
    (ht : t ∈ symC (stab f G) (padShape f δ)) :
    (fun ξ => t ((embox f δ).symm ξ)) ∈ symC (restrictPerms f G) fun j => δ (f.orderEmbOfFin rfl j) := by
  rintro τ ⟨g, hg, h1, h2, h3⟩ ξ η he
  obtain ⟨ξ, rfl⟩ := (embox f δ).surjective ξ
  obtain ⟨η, rfl⟩ := (embox f δ).surjective η
  simp only [Equiv.symm_apply_apply, h2]
  apply ht g ⟨hg, h1⟩
  funext k
  by_cases hk : k ∈ f
  · obtain ⟨j, rfl⟩ : k ∈ Set.range (f.orderEmbOfFin rfl) := by
      rw [Finset.range_orderEmbOfFin]; exact hk
    have := congrFun he j
    rw [embox_val, Function.comp_apply, embox_val, ← h3] at this
    exact this
  · rw [pad_zero f η.2 hk, Function.comp_apply, h1 k hk, pad_zero f ξ.2 hk]

theorem tensorRep_sub_X {δ : Fin m → ℕ} (N : Fin m → NRep n h) (a : Fin n) (q p : Box (padShape f δ)) :
    (tensorRep f N).X a q.1 p.1 =
      (tensorRep Finset.univ fun j => N (f.orderEmbOfFin rfl j)).X a (embox f δ q).1 (embox f δ p).1 := by
  simp only [tensorRep]
  rw [sum_sub f]
  refine Finset.sum_congr rfl fun j _ => ?_
  have : (∀ k, k ≠ f.orderEmbOfFin rfl j → q.1 k = p.1 k) ↔
      ∀ j', j' ≠ j → (embox f δ q).1 j' = (embox f δ p).1 j' := by
    constructor
    · intro hh j' hj
      exact hh _ fun e => hj ((f.orderEmbOfFin rfl).injective e)
    · intro hh k hk
      by_cases hf : k ∈ f
      · obtain ⟨j', rfl⟩ : k ∈ Set.range (f.orderEmbOfFin rfl) := by
          rw [Finset.range_orderEmbOfFin]; exact hf
        exact hh j' fun e => hk (by rw [e])
      · rw [pad_zero f q.2 hf, pad_zero f p.2 hf]
  rw [if_congr this rfl rfl]
  rfl

theorem tensorRep_sub_H {δ : Fin m → ℕ} (N : Fin m → NRep n h) (a : Fin h) (q p : Box (padShape f δ)) :
    (tensorRep f N).H a q.1 p.1 =
      (tensorRep Finset.univ fun j => N (f.orderEmbOfFin rfl j)).H a (embox f δ q).1 (embox f δ p).1 := by
  simp only [tensorRep]
  rw [prod_sub f, if_pos, if_pos]
  · rfl
  · simp
  · intro j hj
    rw [pad_zero f q.2 hj, pad_zero f p.2 hj]

/-- `reshape` of a basis of the sub-shape. -/
theorem reshape_spec {δ : Fin m → ℕ} {N : Fin m → NRep n h} {l : List (Blk T f.card)} (hne : l ≠ [])
    (he : ∀ b ∈ l, EquiBlk (fun j => δ (f.orderEmbOfFin rfl j))
      (tensorRep Finset.univ fun j => N (f.orderEmbOfFin rfl j)) b)
    (hr : ∀ b ∈ l, RealBlk (fun j => δ (f.orderEmbOfFin rfl j)) b) (hm : ∀ b ∈ l, b.mul ≠ 0) :
    ∃ l', reshape (padShape f δ) none l = .ok l' ∧ l' ≠ [] ∧
      (∀ b ∈ l', EquiBlk (padShape f δ) (tensorRep f N) b) ∧
      (∀ b ∈ l', RealBlk (padShape f δ) b) ∧ (∀ b ∈ l', b.mul ≠ 0) ∧ tot l' = tot l ∧
      (∀ t, t ∈ spanC (padShape f δ) l' ↔
        (fun ξ => t ((embox f δ).symm ξ)) ∈ spanC (fun j => δ (f.orderEmbOfFin rfl j)) l) := by
  let R : Blk T f.card → Blk T m := fun b =>
    { mul := b.mul, ir := b.ir, shape := padShape f δ,
      x := fun p u k => b.x (unravel b.shape (ravel (padShape f δ) p)) u k }
  have hx : ∀ b ∈ l, ∀ (p : Box (padShape f δ)) u k, (R b).x p.1 u k = b.x (embox f δ p).1 u k := by
    intro b hb p u k
    show b.x (unravel b.shape (ravel (padShape f δ) p.1)) u k = _
    rw [(he b hb).shape, ravel_eq, rowMajor_pad f p.2, unravel_rowMajor]
    · rfl
    · intro j
      exact pad_lt f p.2 (Finset.orderEmbOfFin_mem f rfl j)
  have hsh : ∀ b ∈ l.map R, b.shape = padShape f δ := by
    intro b hb
    obtain ⟨b, _, rfl⟩ := List.mem_map.1 hb
    rfl
  have hne' : l.map R ≠ [] := by simpa using hne
  have hsum : ∀ b ∈ l, ∀ (p : Box (padShape f δ)) (Y : (Fin m → ℕ) → (Fin m → ℕ) → ℂ)
      (Y' : (Fin f.card → ℕ) → (Fin f.card → ℕ) → ℂ),
      (∀ q p : Box (padShape f δ), Y q.1 p.1 = Y' (embox f δ q).1 (embox f δ p).1) → ∀ u l,
      ∑ q ∈ box (padShape f δ), Y q p.1 * (R b).x q u l =
        ∑ q ∈ box (fun j => δ (f.orderEmbOfFin rfl j)), Y' q (embox f δ p).1 * b.x q u l := by
    intro b hb p Y Y' hY u l
    rw [sum_Box, sum_Box, ← (embox f δ).sum_comp]
    refine Finset.sum_congr rfl fun q _ => ?_
    rw [hY, hx b hb]
  refine ⟨l.map R, ?_, hne', ?_, ?_, ?_, ?_, ?_⟩
  · rw [reshape]
    show (pyAssert _ >>= _) = _
    rw [pyAssert, if_pos (by simp)]
    have h1 : l.mapM (fun b : Blk T f.card =>
        if (∏ k, b.shape k) * (b.mul * T.dim b.ir) = (∏ k, padShape f δ k) * (b.mul * T.dim b.ir) then
          (Except.ok (R b) : Py (Blk T m)) else .error .valueError) = .ok (l.map R) := by
      refine LieNN.mapM_ok fun b hb => ?_
      rw [if_pos]
      rw [(he b hb).shape, prod_pad]
    show (l.mapM _ >>= fun l' => IArr.mk l') = _
    refine Eq.trans (congrArg (· >>= fun l' => IArr.mk l') h1) ?_
    exact mk_ok hne' hsh
  · intro b hb
    obtain ⟨b, hb0, rfl⟩ := List.mem_map.1 hb
    replace hb := hb0
    refine ⟨rfl, ?_, ?_⟩
    · intro a p hp u l
      rw [hsum b hb ⟨p, hp⟩ _ _ (tensorRep_sub_X f N a)]
      rw [← (he b hb).X a _ (embox f δ ⟨p, hp⟩).2]
      exact Finset.sum_congr rfl fun k _ => by rw [hx b hb ⟨p, hp⟩]
    · intro a p hp u l
      rw [hsum b hb ⟨p, hp⟩ _ _ (tensorRep_sub_H f N a)]
      rw [← (he b hb).H a _ (embox f δ ⟨p, hp⟩).2]
      exact Finset.sum_congr rfl fun k _ => by rw [hx b hb ⟨p, hp⟩]
  · intro b hb
    obtain ⟨b, hb0, rfl⟩ := List.mem_map.1 hb
    replace hb := hb0
    intro p hp u k
    rw [hx b hb ⟨p, hp⟩]
    exact hr b hb _ (embox f δ ⟨p, hp⟩).2 u k
  · intro b hb
    obtain ⟨b, hb0, rfl⟩ := List.mem_map.1 hb
    replace hb := hb0
    exact hm b hb
  · rw [tot, tot, List.map_map]
    rfl
  · let L := LinearEquiv.funCongrLeft ℂ ℂ (embox f δ)
    have hL : ∀ t p, L t p = t (embox f δ p) := fun t p => rfl
    have hmap : spanC (padShape f δ) (l.map R) =
        (spanC (fun j => δ (f.orderEmbOfFin rfl j)) l).map L.toLinearMap := by
      rw [spanC, spanC, Submodule.map_span]
      congr 1
      ext c
      constructor
      · rintro ⟨b, hb, u, k, rfl⟩
        obtain ⟨b, hb0, rfl⟩ := List.mem_map.1 hb
        replace hb := hb0
        refine ⟨_, ⟨b, hb, u, k, rfl⟩, ?_⟩
        funext p
        exact (hx b hb p u k).symm
      · rintro ⟨_, ⟨b, hb, u, k, rfl⟩, rfl⟩
        refine ⟨R b, List.mem_map_of_mem hb, u, k, ?_⟩
        funext p
        exact (hx b hb p u k).symm
    intro t
    rw [hmap]
    constructor
    · rintro ⟨t, ht, rfl⟩
      have e : (fun ξ => L.toLinearMap t ((embox f δ).symm ξ)) = t := by
        funext ξ
        show t (embox f δ ((embox f δ).symm ξ)) = t ξ
        rw [Equiv.apply_symm_apply]
      rw [e]
      exact ht
    · intro ht
      refine ⟨_, ht, ?_⟩
      funext p
      show t ((embox f δ).symm (embox f δ p)) = t p
      rw [Equiv.symm_apply_apply]

end LieNN.TBasis
