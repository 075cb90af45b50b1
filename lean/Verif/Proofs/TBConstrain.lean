import Verif.Proofs.TBInv

/-! # `constrain_rotation_basis_by_permutation_basis` and the last step -/
namespace LieNN.TBasis
open LieNN.Spec LieNN.IArr LieNN.PermRepr Module Matrix

variable {n h : ℕ} {T : Table n h} {m : ℕ}

/-! ### The whole set of indices -/

theorem pad_univ (δ : Fin m → ℕ) : padShape Finset.univ δ = δ := by
  funext k; simp [padShape]

theorem stab_univ (G : Set (SignedPerm m)) : stab Finset.univ G = G := by
  ext g; simp [stab]

theorem ofFn_univ : List.ofFn (Finset.univ.orderEmbOfFin rfl : Fin (Finset.univ : Finset (Fin m)).card → Fin m) =
    List.finRange m := by
  rw [← filter_finRange]
  simp

theorem subDims_eq {M : ℕ} {ord : SetOrder} (ho : SortedOrder M ord) (hm : m ≤ M) (f : Finset (Fin m))
    (δ : Fin m → ℕ) : subDims ord f δ = List.ofFn fun j => δ (f.orderEmbOfFin rfl j) := by
  rw [subDims]
  congr 1
  funext j
  rw [ho m hm]

theorem subDims_univ {M : ℕ} {ord : SetOrder} (ho : SortedOrder M ord) (hm : m ≤ M) (δ : Fin m → ℕ) :
    subDims ord Finset.univ δ = List.ofFn δ := by
  rw [subDims_eq ho hm]
  have := congrArg (List.map δ) (ofFn_univ (m := m))
  rw [List.map_ofFn, ← List.ofFn_eq_map] at this
  exact this

theorem subrepr_univ (G : Finset (SignedPerm m)) :
    subrepr ((Finset.univ : Finset (Fin m)).image Fin.val) (G.image stup) = G.image stup := by
  apply Finset.coe_injective
  rw [subrepr_stup, Finset.coe_image]
  have hcard : (Finset.univ : Finset (Fin m)).card = m := Finset.card_fin m
  have hidx : ∀ j : Fin (Finset.univ : Finset (Fin m)).card,
      ((Finset.univ.orderEmbOfFin rfl j : Fin m) : ℕ) = j := by
    intro j
    have := congrArg (fun L => L[(j : ℕ)]?) (ofFn_univ (m := m))
    simp only [List.getElem?_ofFn, j.2, dif_pos] at this
    rw [List.getElem?_eq_getElem (by have := j.2; simp only [List.length_finRange]; omega)] at this
    have := Option.some.inj this
    rw [Fin.eta] at this
    rw [this, List.getElem_finRange]
    rfl
  have htup : ∀ (τ : Equiv.Perm (Fin (Finset.univ : Finset (Fin m)).card)) (σ : Equiv.Perm (Fin m)),
      (∀ j, σ (Finset.univ.orderEmbOfFin rfl j) = Finset.univ.orderEmbOfFin rfl (τ j)) → tup τ = tup σ := by
    intro τ σ hh
    apply List.ext_getElem
    · simp [tup]
    · intro i h1 h2
      simp only [tup, List.getElem_ofFn]
      have h3 : i < (Finset.univ : Finset (Fin m)).card := by simpa [tup] using h1
      have := congrArg Fin.val (hh ⟨i, h3⟩)
      rw [hidx] at this
      rw [← this]
      congr 2
      apply Fin.ext
      exact hidx _
  ext x
  constructor
  · rintro ⟨y, ⟨g, hg, _, h1, h2⟩, rfl⟩
    refine ⟨g, hg, ?_⟩
    rw [stup, stup, h1, htup y.2 g.2 h2]
  · rintro ⟨g, hg, rfl⟩
    obtain ⟨τ, hτ⟩ := exists_restrict Finset.univ g.2 (by simp)
    refine ⟨(g.1, τ), ⟨g, hg, by simp, rfl, hτ⟩, ?_⟩
    rw [stup, stup, htup τ g.2 hτ]

/-! ### Flat indices -/

theorem flat_bij (δ : Fin m → ℕ) :
    Function.Bijective fun p : Box δ => (⟨rowMajor δ p.1, rowMajor_lt (memb.1 p.2)⟩ : Fin (∏ k, δ k)) := by
  rw [Fintype.bijective_iff_injective_and_card]
  constructor
  · intro p q he
    exact Subtype.ext (rowMajor_inj (memb.1 p.2) (memb.1 q.2) (congrArg Fin.val he))
  · rw [Fintype.card_fin, Fintype.card_coe, Fintype.card_piFinset]
    simp

/-- Flat indices. -/
noncomputable def flatEquiv (δ : Fin m → ℕ) : Box δ ≃ Fin (∏ k, δ k) := Equiv.ofBijective _ (flat_bij δ)

theorem flatEquiv_val (δ : Fin m → ℕ) (p : Box δ) : (flatEquiv δ p).val = rowMajor δ p.1 := rfl

theorem unravel_flat (δ : Fin m → ℕ) (p : Box δ) : unravel δ (flatEquiv δ p).val = p.1 := by
  rw [flatEquiv_val, unravel_rowMajor (memb.1 p.2)]

/-! ### One block -/

/-- What is needed of the array of the permutations. -/
structure PermRows (G : Set (SignedPerm m)) (δ : Fin m → ℕ) (Q : List (ℕ → ℝ)) : Prop where
  span : Submodule.span ℝ (Set.range fun i : Fin Q.length => fun ξ : Box δ => Q[i] (rowMajor δ ξ.1)) =
    symTensors G δ
  disj : ∀ i j (hi : i < Q.length) (hj : j < Q.length), i ≠ j →
    ∀ ξ : Box δ, Q[i] (rowMajor δ ξ.1) * Q[j] (rowMajor δ ξ.1) = 0

theorem perm_opt {G : Set (SignedPerm m)} {δ : Fin m → ℕ} {Q : List (ℕ → ℝ)} (hQ : PermRows G δ Q)
    {mul : ℕ} (R : Matrix (Fin mul) (Fin (∏ k, δ k)) ℂ) (y : Fin mul → ℂ) :
    (∃ z, y ᵥ* R = z ᵥ* rowArray (∏ k, δ k) (permOpt R Q)) ↔
      (fun p : Box δ => ∑ u, y u * R u (flatEquiv δ p)) ∈ symC G δ := by
  have hs := span_symC (fun (i : Fin Q.length) (ξ : Box δ) => Q[i] (rowMajor δ ξ.1)) hQ.span
  constructor
  · rintro ⟨z, hz⟩
    have h1 : (fun p : Box δ => ∑ u, y u * R u (flatEquiv δ p)) =
        ∑ j, z j • fun p : Box δ => (((permOpt R Q)[j] (rowMajor δ p.1) : ℝ) : ℂ) := by
      funext p
      have := congrFun hz (flatEquiv δ p)
      simp only [vecMul, dotProduct] at this
      rw [this, Finset.sum_apply]
      rfl
    rw [h1]
    refine Submodule.sum_mem _ fun j _ => Submodule.smul_mem _ _ ?_
    rw [← hs]
    have h2 : (permOpt R Q)[j] ∈ Q := (List.mem_filter.1 (List.getElem_mem j.2)).1
    obtain ⟨i, hi, e⟩ := List.mem_iff_getElem.1 h2
    exact Submodule.subset_span ⟨⟨i, hi⟩, by simp [e]⟩
  · intro ht
    rw [← hs] at ht
    obtain ⟨z, hz⟩ := (Submodule.mem_span_range_iff_exists_fun ℂ).1 ht
    have hzp : ∀ p : Box δ, ∑ i, z i * ((Q[i] (rowMajor δ p.1) : ℝ) : ℂ) = ∑ u, y u * R u (flatEquiv δ p) := by
      intro p
      have := congrFun hz p
      rw [Finset.sum_apply] at this
      exact this
    have h2 : (fun p : Box δ => ∑ u, y u * R u (flatEquiv δ p)) ∈ Submodule.span ℂ
        (Set.range fun j : Fin (permOpt R Q).length => fun p : Box δ =>
          (((permOpt R Q)[j] (rowMajor δ p.1) : ℝ) : ℂ)) := by
      rw [← hz]
      refine Submodule.sum_mem _ fun i _ => ?_
      by_cases hi : Q[i] ∈ permOpt R Q
      · apply Submodule.smul_mem
        obtain ⟨j, hj, e⟩ := List.mem_iff_getElem.1 hi
        exact Submodule.subset_span ⟨⟨j, hj⟩, by simp [e]⟩
      · have h0 : z i • (fun p : Box δ => ((Q[i] (rowMajor δ p.1) : ℝ) : ℂ)) = 0 := by
          funext p
          simp only [Pi.smul_apply, smul_eq_mul, Pi.zero_apply]
          by_contra hne
          have hq : Q[i] (rowMajor δ p.1) ≠ 0 := by
            intro h0; rw [h0] at hne; simp at hne
          have hR : ∀ u, R u (flatEquiv δ p) = 0 := by
            by_contra hex
            push Not at hex
            apply hi
            rw [permOpt, List.mem_filter]
            refine ⟨List.getElem_mem i.2, ?_⟩
            simp only [decide_eq_true_eq]
            exact ⟨flatEquiv δ p, hex, hq⟩
          have := hzp p
          rw [Finset.sum_eq_single i] at this
          · rw [this] at hne
            simp [hR] at hne
          · intro j _ hj
            have h3 := hQ.disj i j i.2 j.2 (fun e => hj (Fin.ext e.symm)) p
            have h4 : Q[j] (rowMajor δ p.1) = 0 := (mul_eq_zero.1 h3).resolve_left hq
            rw [h4]; simp
          · simp
        rw [h0]; exact Submodule.zero_mem _
    obtain ⟨w, hw⟩ := (Submodule.mem_span_range_iff_exists_fun ℂ).1 h2
    refine ⟨w, ?_⟩
    funext j
    obtain ⟨p, rfl⟩ := (flatEquiv δ).surjective j
    have := congrFun hw p
    rw [Finset.sum_apply] at this
    exact this.symm

/-- What the coefficients of one block are. -/
structure GoodCoeffs (hpos : ∀ i, 0 < T.dim i) (G : Set (SignedPerm m)) (δ : Fin m → ℕ) (b : Blk T m)
    (P : List (Vec b.mul)) : Prop where
  orth : OrthonormalList P
  real : ∀ x ∈ P, ∀ i, (x i).im = 0
  coeff : ∀ y : Vec b.mul, y ∈ lspan P ↔
    (fun p : Box δ => ∑ u, y u * b.x p.1 u ⟨0, hpos _⟩) ∈ symC G δ

theorem constrainBlk_spec {inter : InterFn} (hinter : InterSpec inter) (hpos : ∀ i, 0 < T.dim i)
    {G : Set (SignedPerm m)} {δ : Fin m → ℕ} {Q : List (ℕ → ℝ)} (hQ : PermRows G δ Q) {b : Blk T m}
    (hs : b.shape = δ) (hr : RealBlk δ b) (hm : b.mul ≠ 0) :
    ((∃ p : Box δ, (∃ u, b.x p.1 u ⟨0, hpos _⟩ ≠ 0) ∧ ∃ q ∈ Q, q (rowMajor δ p.1) ≠ 0) →
      ∃ P, GoodCoeffs hpos G δ b P ∧ constrainBlk inter Q b = .ok (if P.length > 0 then [project b P] else [])) ∧
    ((¬ ∃ p : Box δ, (∃ u, b.x p.1 u ⟨0, hpos _⟩ ≠ 0) ∧ ∃ q ∈ Q, q (rowMajor δ p.1) ≠ 0) →
      constrainBlk inter Q b = .error .valueError) := by
  subst hs
  have hR : rotMatrix b = .ok fun u j => b.x (unravel b.shape j) u ⟨0, hpos _⟩ := by
    rw [rotMatrix, dif_pos (hpos _), if_neg hm]
  set R : Matrix (Fin b.mul) (Fin (∏ k, b.shape k)) ℂ := fun u j => b.x (unravel b.shape j) u ⟨0, hpos _⟩
    with hRdef
  have hRp : ∀ u p, R u (flatEquiv b.shape p) = b.x p.1 u ⟨0, hpos _⟩ := by
    intro u p
    rw [hRdef]
    simp only
    rw [unravel_flat]
  have hc : constrainBlk inter Q b = (inter _ _ _ R (rowArray _ (permOpt R Q)) >>= fun P =>
      pure (if P.1.length > 0 then [project b P.1] else [])) := by
    rw [constrainBlk, hR]
    rfl
  have hopt : (∃ p : Box b.shape, (∃ u, b.x p.1 u ⟨0, hpos _⟩ ≠ 0) ∧ ∃ q ∈ Q, q (rowMajor b.shape p.1) ≠ 0) ↔
      (permOpt R Q).length ≠ 0 := by
    rw [← Nat.pos_iff_ne_zero, List.length_pos_iff_exists_mem]
    constructor
    · rintro ⟨p, ⟨u, hu⟩, q, hq, hqp⟩
      refine ⟨q, List.mem_filter.2 ⟨hq, ?_⟩⟩
      simp only [decide_eq_true_eq]
      exact ⟨flatEquiv _ p, ⟨u, by rw [hRp]; exact hu⟩, hqp⟩
    · rintro ⟨q, hq⟩
      obtain ⟨h1, h2⟩ := List.mem_filter.1 hq
      simp only [decide_eq_true_eq] at h2
      obtain ⟨j, ⟨u, hu⟩, hj⟩ := h2
      obtain ⟨p, rfl⟩ := (flatEquiv _).surjective j
      rw [hRp] at hu
      exact ⟨p, ⟨u, hu⟩, q, h1, hj⟩
  constructor
  · intro hex
    have hlen := hopt.1 hex
    obtain ⟨P₁, P₂, he, hi⟩ := hinter.ok R (rowArray _ (permOpt R Q)) (by
      intro u j
      obtain ⟨p, rfl⟩ := (flatEquiv _).surjective j
      rw [hRp]
      exact hr p.1 p.2 u _) (by
      intro i j
      simp [rowArray]) hm hlen
    refine ⟨P₁, ⟨hi.orth₁, hi.real₁, fun y => ?_⟩, ?_⟩
    · rw [hi.coeff₁, perm_opt hQ]
      simp only [hRp]
    · rw [hc, he]
      rfl
  · intro hex
    have hlen : (permOpt R Q).length = 0 := by
      by_contra hne
      exact hex (hopt.2 hne)
    rw [hc, hinter.empty _ _ (.inr hlen)]
    rfl

/-! ### All the blocks -/

theorem tot_flatten (L : List (List (Blk T m))) : tot L.flatten = (L.map tot).sum := by
  induction L with
  | nil => rfl
  | cons a L ih =>
    rw [List.flatten_cons, List.map_cons, List.sum_cons, ← ih]
    simp [tot]

theorem equi_project {s : Fin m → ℕ} {Y : LeadRep n h m} {b : Blk T m} (hb : EquiBlk s Y b)
    (P : List (Vec b.mul)) : EquiBlk s Y (project b P) := by
  have key : ∀ (p : Fin m → ℕ) (A : Matrix (Fin (T.dim b.ir)) (Fin (T.dim b.ir)) ℂ)
      (B : (Fin m → ℕ) → (Fin m → ℕ) → ℂ),
      (∀ u l, ∑ k, b.x p u k * A l k = ∑ q ∈ box s, B q p * b.x q u l) →
      ∀ (v : Fin P.length) l, ∑ k, (∑ u, P[v] u * b.x p u k) * A l k =
        ∑ q ∈ box s, B q p * ∑ u, P[v] u * b.x q u l := by
    intro p A B hh v l
    simp only [Finset.sum_mul, Finset.mul_sum]
    rw [Finset.sum_comm, Finset.sum_comm (s := box s)]
    refine Finset.sum_congr rfl fun u _ => ?_
    have := congrArg (fun z => P[v] u * z) (hh u l)
    simp only [Finset.mul_sum] at this
    simp only [mul_assoc]
    rw [this]
    exact Finset.sum_congr rfl fun q _ => by ring
  refine ⟨hb.shape, fun a p hp v l => ?_, fun a p hp v l => ?_⟩
  · exact key p _ (Y.X a) (fun u l => hb.X a p hp u l) v l
  · exact key p _ (Y.H a) (fun u l => hb.H a p hp u l) v l

theorem real_project {s : Fin m → ℕ} {b : Blk T m} (hb : RealBlk s b) {P : List (Vec b.mul)}
    (hP : ∀ x ∈ P, ∀ i, (x i).im = 0) : RealBlk s (project b P) := by
  intro p hp (v : Fin P.length) (k : Fin (T.dim b.ir))
  show (∑ u, P[v] u * b.x p u k).im = 0
  rw [Complex.im_sum]
  refine Finset.sum_eq_zero fun u _ => ?_
  have h1 : (P[v] u).im = 0 := hP _ (List.getElem_mem v.2) u
  rw [Complex.mul_im, hb p hp u k, h1]
  ring

/-- The blocks after the projection. -/
noncomputable def projected (l : List (Blk T m)) (P : (i : Fin l.length) → List (Vec l[i].mul)) :
    List (Blk T m) :=
  (List.ofFn fun i : Fin l.length => if (P i).length > 0 then [project l[i] (P i)] else []).flatten

theorem mem_projected {l : List (Blk T m)} {P : (i : Fin l.length) → List (Vec l[i].mul)} {b : Blk T m} :
    b ∈ projected l P ↔ ∃ i, (P i).length > 0 ∧ b = project l[i] (P i) := by
  rw [projected, List.mem_flatten]
  constructor
  · rintro ⟨L, hL, hb⟩
    obtain ⟨i, rfl⟩ := List.mem_ofFn.1 hL
    split_ifs at hb with h1
    · exact ⟨i, h1, List.mem_singleton.1 hb⟩
    · simp at hb
  · rintro ⟨i, hi, rfl⟩
    exact ⟨_, List.mem_ofFn.2 ⟨i, rfl⟩, by rw [if_pos hi]; simp⟩

theorem tot_projected (l : List (Blk T m)) (P : (i : Fin l.length) → List (Vec l[i].mul)) :
    tot (projected l P) = ∑ i, (P i).length * T.dim l[i].ir := by
  rw [projected, tot_flatten, List.map_ofFn, List.sum_ofFn]
  refine Finset.sum_congr rfl fun i _ => ?_
  simp only [Function.comp_apply]
  split_ifs with h1
  · simp [tot, project]
  · have : (P i).length = 0 := by omega
    rw [this, zero_mul]
    rfl

theorem span_projected (δ : Fin m → ℕ) (l : List (Blk T m)) (P : (i : Fin l.length) → List (Vec l[i].mul)) :
    spanC δ (projected l P) = Submodule.span ℂ (Set.range (pcol δ l P)) := by
  rw [spanC]
  congr 1
  have hval : ∀ i v k, pcol δ l P ⟨i, v, k⟩ = fun p : Box δ => (project l[i] (P i)).x p.1 v k := by
    intro i v k
    funext p
    simp only [pcol, project]
    rw [Finset.sum_apply]
    rfl
  ext c
  constructor
  · rintro ⟨b, hb, u, k, rfl⟩
    obtain ⟨i, _, rfl⟩ := mem_projected.1 hb
    exact ⟨⟨i, u, k⟩, hval i u k⟩
  · rintro ⟨⟨i, v, k⟩, rfl⟩
    exact ⟨_, mem_projected.2 ⟨i, lt_of_le_of_lt (Nat.zero_le _) v.2, rfl⟩, v, k, hval i v k⟩

theorem mapM_getElem {α β : Type} {f : α → Py β} {l : List α} {L : List β} (hh : l.mapM f = .ok L) :
    ∃ e : l.length = L.length, ∀ i (hi : i < l.length), f l[i] = .ok (L[i]'(e ▸ hi)) := by
  have h1 := mapM_ok_inv hh
  refine ⟨h1.length_eq, ?_⟩
  clear hh
  induction h1 with
  | nil => intro i hi; simp at hi
  | @cons a b l L h0 h1 ih =>
    intro i hi
    cases i with
    | zero => exact h0
    | succ i => exact ih i (by simpa using hi)

end LieNN.TBasis
