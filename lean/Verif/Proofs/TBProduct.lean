import Verif.Proofs.TBSpan
import Mathlib.LinearAlgebra.Dual.Lemmas
import Mathlib.LinearAlgebra.Pi

/-! # The product of two bases on disjoint axes -/
namespace LieNN.TBasis
open LieNN.Spec LieNN.IArr Module

variable {n h : ℕ} {T : Table n h} {m : ℕ}

/-- Real entries on the box. -/
def RealBlk (s : Fin m → ℕ) (b : Blk T m) : Prop := ∀ p ∈ box s, ∀ u k, (b.x p u k).im = 0

theorem realBlk_merge {s : Fin m → ℕ} (a b : Blk T m) (e : b.ir = a.ir) (ha : RealBlk s a)
    (hb : RealBlk s b) : RealBlk s (merge a b e) := by
  intro p hp u k
  obtain ⟨mu, i, sa, x⟩ := a
  obtain ⟨mu', i', sb, x'⟩ := b
  obtain rfl : i' = i := e
  refine Fin.addCases (fun u => ?_) (fun u => ?_) u
  · simp only [merge, Fin.addCases_left]
    exact ha p hp u k
  · simp only [merge, Fin.addCases_right]
    exact hb p hp u k

/-- A spanning criterion. -/
theorem span_eq_top_of {ι : Type} [Fintype ι] [DecidableEq ι] (S : Set (ι → ℂ))
    (hS : ∀ t : ι → ℂ, (∀ v ∈ S, ∑ i, v i * t i = 0) → t = 0) : Submodule.span ℂ S = ⊤ := by
  by_contra hne
  obtain ⟨f, hf, hle⟩ := Submodule.exists_le_ker_of_lt_top _ (lt_top_iff_ne_top.2 hne)
  apply hf
  have hsum : ∀ v : ι → ℂ, f v = ∑ i, v i * f (Pi.single i 1) := by
    intro v
    have : v = ∑ i, v i • (Pi.single i 1 : ι → ℂ) := by
      funext j
      simp [Finset.sum_apply, Pi.single_apply]
    conv_lhs => rw [this]
    rw [map_sum]
    simp
  have h0 : (fun i => f (Pi.single i 1)) = (0 : ι → ℂ) := by
    apply hS
    intro v hv
    rw [← hsum]
    exact hle (Submodule.subset_span hv)
  ext i
  simpa using congrFun h0 i

section disjoint
variable {s t : Fin m → ℕ} (hd : ∀ k, s k = 1 ∨ t k = 1)

/-- The multi-indices of the joint shape are pairs. -/
def boxEquiv : Box (fun k => s k * t k) ≃ Box s × Box t where
  toFun p := (⟨part s p.1, part_left hd p.2⟩, ⟨part t p.1, part_right hd p.2⟩)
  invFun pq := ⟨fun k => if s k = 1 then pq.2.1 k else pq.1.1 k, by
    show _ ∈ box _
    rw [memb]
    intro k
    have h1 := memb.1 pq.1.2 k
    have h2 := memb.1 pq.2.2 k
    split_ifs with h3
    · rw [h3, one_mul]; exact h2
    · rw [(hd k).resolve_left h3, mul_one]; exact h1⟩
  left_inv p := by
    apply Subtype.ext
    funext k
    have := memb.1 p.2 k
    simp only [part]
    split_ifs with h1 h2
    · rw [h1, h2] at this; omega
    · rfl
    · rfl
  right_inv pq := by
    obtain ⟨⟨p, h1⟩, ⟨q, h2⟩⟩ := pq
    have h1 := memb.1 h1
    have h2 := memb.1 h2
    apply Prod.ext <;> apply Subtype.ext <;> funext k
    · have h1 := h1 k
      simp only [part]
      split_ifs with h3
      · rw [h3] at h1; exact (Nat.lt_one_iff.1 h1).symm
      · rfl
    · have h2 := h2 k
      simp only [part]
      split_ifs with h3 h4
      · rw [h3] at h2; exact (Nat.lt_one_iff.1 h2).symm
      · rfl
      · exact absurd ((hd k).resolve_left h4) h3

/-- Functions on the joint shape are functions of pairs. -/
noncomputable def joint : (Box s × Box t → ℂ) ≃ₗ[ℂ] (Box (fun k => s k * t k) → ℂ) :=
  LinearEquiv.funCongrLeft ℂ ℂ (boxEquiv hd)

theorem joint_apply (T : Box s × Box t → ℂ) (p) : joint hd T p =
    T (⟨part s p.1, part_left hd p.2⟩, ⟨part t p.1, part_right hd p.2⟩) := rfl

end disjoint

/-- The columns of the Clebsch-Gordan coefficients span. -/
theorem cg_span {i j : T.Ir} (hc : CGComplete i j) :
    Submodule.span ℂ {v : Fin (T.dim i) × Fin (T.dim j) → ℂ | ∃ k ∈ T.prod i j, ∃ C ∈ T.cg i j k,
      ∃ l, v = fun xy => C xy.1 xy.2 l} = ⊤ := by
  apply span_eq_top_of
  intro t ht
  have := hc.2 (fun x y => t (x, y)) (by
    intro k hk C hC l
    have := ht _ ⟨k, hk, C, hC, l, rfl⟩
    rw [Fintype.sum_prod_type] at this
    exact this)
  funext ⟨x, y⟩
  exact congrFun (congrFun this x) y

theorem mem_mapM3 [LinearOrder T.Ir] {r1 r2 : List (Blk T m)} {N : List (List (List (Blk T m)))}
    (hN : (r1.mapM fun b1 => r2.mapM fun b2 =>
      ((T.prod b1.ir b2.ir).filter fun _ => true).mapM fun ir => einsumBlk b1 b2 ir) = .ok N)
    (b : Blk T m) : b ∈ N.flatten.flatten ↔ ∃ b1 ∈ r1, ∃ b2 ∈ r2, ∃ ir ∈ T.prod b1.ir b2.ir,
      einsumBlk b1 b2 ir = .ok b := by
  have h1 := mapM_ok_inv hN
  constructor
  · intro hb
    obtain ⟨N2, hN2, hb⟩ := List.mem_flatten.1 hb
    obtain ⟨N3, hN3, hb2⟩ := List.mem_flatten.1 hN2
    obtain ⟨b1, hb1, e1⟩ := forall₂_right h1 hN3
    obtain ⟨b2, hb2, e2⟩ := forall₂_right (mapM_ok_inv e1) hb2
    obtain ⟨ir, hir, e3⟩ := forall₂_right (mapM_ok_inv e2) hb
    exact ⟨b1, hb1, b2, hb2, ir, List.mem_of_mem_filter hir, e3⟩
  · rintro ⟨b1, hb1, b2, hb2, ir, hir, e3⟩
    obtain ⟨N3, hN3, e1⟩ := forall₂_left h1 hb1
    obtain ⟨N2, hN2, e2⟩ := forall₂_left (mapM_ok_inv e1) hb2
    obtain ⟨b', hb', e4⟩ := forall₂_left (mapM_ok_inv e2) (List.mem_filter.2 ⟨hir, rfl⟩)
    rw [e3] at e4
    cases e4
    exact List.mem_flatten.2 ⟨N2, List.mem_flatten.2 ⟨N3, hN3, hN2⟩, hb'⟩

theorem tot_copies (l : List (Blk T m)) : tot l = ((copies l).map T.dim).sum := by
  induction l with
  | nil => rfl
  | cons b l ih =>
    show b.mul * T.dim b.ir + tot l = ((List.replicate b.mul b.ir ++ copies l).map T.dim).sum
    rw [List.map_append, List.sum_append, ih, List.map_replicate, List.sum_replicate, smul_eq_mul]

theorem sum_map_flatMap {α β : Type} (l : List α) (g : α → List β) (w : β → ℕ) :
    ((l.flatMap g).map w).sum = (l.map fun a => ((g a).map w).sum).sum := by
  induction l with
  | nil => rfl
  | cons a l ih => simp [List.flatMap_cons, ih]

theorem prodCopies_dim [LinearOrder T.Ir] (hc : ∀ i j : T.Ir, CGComplete i j) (c1 c2 : List T.Ir) :
    ((prodCopies none c1 c2).map T.dim).sum = (c1.map T.dim).sum * (c2.map T.dim).sum := by
  rw [prodCopies, sum_map_flatMap, ← List.sum_map_mul_right]
  congr 1
  apply List.map_congr_left
  intro i _
  rw [sum_map_flatMap, ← List.sum_map_mul_left]
  congr 1
  apply List.map_congr_left
  intro j _
  rw [sum_map_flatMap, ← (hc i j).1]
  congr 1
  simp only [keep, List.filter_true]
  apply List.map_congr_left
  intro k _
  rw [List.map_replicate, List.sum_replicate, smul_eq_mul]

/-- What the product of two bases is. -/
theorem product_full [LinearOrder T.Ir] (hT : GoodTable T) {s t : Fin m → ℕ}
    (hd : ∀ k, s k = 1 ∨ t k = 1) {Y Z : LeadRep n h m} {l1 l2 : List (Blk T m)} (hn1 : l1 ≠ [])
    (hn2 : l2 ≠ []) (h1 : ∀ b ∈ l1, EquiBlk s Y b) (h2 : ∀ b ∈ l2, EquiBlk t Z b)
    (hm1 : ∀ b ∈ l1, b.mul ≠ 0) (hm2 : ∀ b ∈ l2, b.mul ≠ 0) (hr1 : ∀ b ∈ l1, RealBlk s b)
    (hr2 : ∀ b ∈ l2, RealBlk t b) :
    ∃ r, reduceBasisProduct l1 l2 = .ok r ∧ r ≠ [] ∧
      (∀ b ∈ r, EquiBlk (fun k => s k * t k) (Y.tensor s t Z) b) ∧ (∀ b ∈ r, b.mul ≠ 0) ∧
      (∀ b ∈ r, RealBlk (fun k => s k * t k) b) ∧ (r.Pairwise fun a b => a.ir < b.ir) ∧
      tot r = tot l1 * tot l2 ∧
      spanC (fun k => s k * t k) r = (tens (spanC s l1) (spanC t l2)).map (joint hd).toLinearMap := by
  obtain ⟨c1, l1', rfl⟩ := List.exists_cons_of_ne_nil hn1
  obtain ⟨c2, l2', rfl⟩ := List.exists_cons_of_ne_nil hn2
  obtain ⟨r, hr, hE, hP⟩ := (product_spec hd hT.equi none _ _ hn1 hn2 h1 h2).1
    ⟨c1, by simp, c2, by simp, by
      simp only [keep, List.filter_true]
      exact (hT.pair _ _).nonempty⟩
  set l1 := c1 :: l1'
  set l2 := c2 :: l2'
  have hinv := hr
  obtain ⟨r1, e1, hinv⟩ := bind_ok_inv hinv
  obtain ⟨r2, e2, hinv⟩ := bind_ok_inv hinv
  obtain ⟨N, e3, hinv⟩ := bind_ok_inv hinv
  obtain ⟨N', e4, e5⟩ := bind_ok_inv hinv
  obtain ⟨rfl, hNne, _⟩ := mk_inv e4
  have hmem := mem_mapM3 e3
  have hE1 : ∀ b ∈ r1, EquiBlk s Y b := sortSimp_forall (fun a b e => equi_merge a b e) e1 h1
  have hE2 : ∀ b ∈ r2, EquiBlk t Z b := sortSimp_forall (fun a b e => equi_merge a b e) e2 h2
  have hM1 : ∀ b ∈ r1, b.mul ≠ 0 :=
    sortSimp_forall (P := fun b => b.mul ≠ 0) (fun a b e ha _ => by simp only [merge]; omega) e1 hm1
  have hM2 : ∀ b ∈ r2, b.mul ≠ 0 :=
    sortSimp_forall (P := fun b => b.mul ≠ 0) (fun a b e ha _ => by simp only [merge]; omega) e2 hm2
  have hR1 : ∀ b ∈ r1, RealBlk s b := sortSimp_forall (fun a b e => realBlk_merge a b e) e1 hr1
  have hR2 : ∀ b ∈ r2, RealBlk t b := sortSimp_forall (fun a b e => realBlk_merge a b e) e2 hr2
  have hbc : ∀ b1 ∈ r1, ∀ b2 ∈ r2, bcast b1.shape b2.shape = .ok fun k => s k * t k := by
    intro b1 hb1 b2 hb2
    rw [(hE1 b1 hb1).shape, (hE2 b2 hb2).shape]
    exact bcast_ok hd
  refine ⟨r, hr, ?_, hE, ?_, ?_, sortSimp_sorted e5, ?_, ?_⟩
  · rintro rfl
    obtain ⟨l', g1, g2⟩ := bind_ok_inv e5
    obtain ⟨acc, g3, g4⟩ := bind_ok_inv g2
    obtain ⟨g5, g6, _⟩ := mk_inv g4
    exact g6 g5.symm
  · refine sortSimp_forall (P := fun b => b.mul ≠ 0)
      (fun a b e ha _ => by simp only [merge]; omega) e5 ?_
    intro b hb
    obtain ⟨b1, hb1, b2, hb2, ir, hir, he⟩ := (hmem b).1 hb
    rw [einsumBlk, hbc b1 hb1 b2 hb2] at he
    cases he
    show _ * _ * _ ≠ 0
    have := (hT.pair b1.ir b2.ir).sols ir hir
    exact mul_ne_zero (mul_ne_zero (by simpa using this) (hM1 b1 hb1)) (hM2 b2 hb2)
  · refine sortSimp_forall (fun a b e => realBlk_merge a b e) e5 ?_
    intro b hb
    obtain ⟨b1, hb1, b2, hb2, ir, hir, he⟩ := (hmem b).1 hb
    rw [einsumBlk, hbc b1 hb1 b2 hb2] at he
    cases he
    intro p hp u k
    simp only [clip_eq_part, (hE1 b1 hb1).shape, (hE2 b2 hb2).shape]
    rw [Complex.im_sum]
    refine Finset.sum_eq_zero fun i _ => ?_
    rw [Complex.im_sum]
    refine Finset.sum_eq_zero fun j _ => ?_
    have g1 := hR1 b1 hb1 _ (part_left hd hp)
      (finProdFinEquiv.symm (finProdFinEquiv.symm u).1).2 i
    have g2 := hR2 b2 hb2 _ (part_right hd hp) (finProdFinEquiv.symm u).2 j
    have g3 := hT.real b1.ir b2.ir ir _
      (List.getElem_mem (finProdFinEquiv.symm (finProdFinEquiv.symm u).1).1.2) i j k
    rw [Complex.mul_im, Complex.mul_im, g1, g2]
    simp only [Fin.getElem_fin, g3]
    ring
  · rw [tot_copies, (hP.map _).sum_eq, prodCopies_dim fun i j => (hT.pair i j).complete,
      ← tot_copies, ← tot_copies]
  · rw [sortSimp_span e5, ← sortSimp_span e1, ← sortSimp_span e2]
    apply le_antisymm
    · conv_lhs => rw [spanC]
      rw [Submodule.span_le]
      rintro _ ⟨b, hb, u, k, rfl⟩
      obtain ⟨b1, hb1, b2, hb2, ir, hir, he⟩ := (hmem b).1 hb
      rw [einsumBlk, hbc b1 hb1 b2 hb2] at he
      cases he
      refine ⟨fun pq => ∑ i, ∑ j,
        b1.x pq.1.1 (finProdFinEquiv.symm (finProdFinEquiv.symm u).1).2 i *
        b2.x pq.2.1 (finProdFinEquiv.symm u).2 j *
        (T.cg b1.ir b2.ir ir)[(finProdFinEquiv.symm (finProdFinEquiv.symm u).1).1] i j k, ?_, ?_⟩
      · have : (fun pq : Box s × Box t => ∑ i, ∑ j,
            b1.x pq.1.1 (finProdFinEquiv.symm (finProdFinEquiv.symm u).1).2 i *
            b2.x pq.2.1 (finProdFinEquiv.symm u).2 j *
            (T.cg b1.ir b2.ir ir)[(finProdFinEquiv.symm (finProdFinEquiv.symm u).1).1] i j k) =
            ∑ i, ∑ j, (T.cg b1.ir b2.ir ir)[(finProdFinEquiv.symm (finProdFinEquiv.symm u).1).1] i j k •
              fun pq : Box s × Box t =>
                b1.x pq.1.1 (finProdFinEquiv.symm (finProdFinEquiv.symm u).1).2 i *
                b2.x pq.2.1 (finProdFinEquiv.symm u).2 j := by
          funext pq
          simp only [Finset.sum_apply, Pi.smul_apply, smul_eq_mul]
          refine Finset.sum_congr rfl fun i _ => Finset.sum_congr rfl fun j _ => ?_
          ring
        rw [SetLike.mem_coe, this]
        exact Submodule.sum_mem _ fun i _ => Submodule.sum_mem _ fun j _ =>
          Submodule.smul_mem _ _ (mul_mem_tens (mem_spanC hb1 _ i) (mem_spanC hb2 _ j))
      · funext p
        rw [LinearEquiv.coe_coe, joint_apply]
        simp only [clip_eq_part, (hE1 b1 hb1).shape, (hE2 b2 hb2).shape]
    · rw [Submodule.map_le_iff_le_comap]
      apply tens_span_le
      rintro _ ⟨b1, hb1, u, i, rfl⟩ _ ⟨b2, hb2, v, j, rfl⟩
      let L : (Fin (T.dim b1.ir) × Fin (T.dim b2.ir) → ℂ) →ₗ[ℂ] (Box (fun k => s k * t k) → ℂ) :=
        { toFun := fun c p => ∑ xy, b1.x (part s p.1) u xy.1 * b2.x (part t p.1) v xy.2 * c xy
          map_add' := fun c c' => by
            funext p
            simp only [Pi.add_apply, mul_add, Finset.sum_add_distrib]
          map_smul' := fun c c' => by
            funext p
            simp only [Pi.smul_apply, smul_eq_mul, RingHom.id_apply, Finset.mul_sum]
            refine Finset.sum_congr rfl fun _ _ => ?_
            ring }
      have hle : (⊤ : Submodule ℂ (Fin (T.dim b1.ir) × Fin (T.dim b2.ir) → ℂ)) ≤
          (spanC (fun k => s k * t k) N.flatten.flatten).comap L := by
        rw [← cg_span (hT.pair b1.ir b2.ir).complete, Submodule.span_le]
        rintro _ ⟨ir, hir, C, hC, l, rfl⟩
        obtain ⟨w, hw, rfl⟩ := List.getElem_of_mem hC
        have he : einsumBlk b1 b2 ir = .ok
            { mul := (T.cg b1.ir b2.ir ir).length * b1.mul * b2.mul
              ir := ir
              shape := fun k => s k * t k
              x := fun p τ k =>
                ∑ i, ∑ j, b1.x (clip b1.shape p)
                    (finProdFinEquiv.symm (finProdFinEquiv.symm τ).1).2 i *
                  b2.x (clip b2.shape p) (finProdFinEquiv.symm τ).2 j *
                  (T.cg b1.ir b2.ir ir)[(finProdFinEquiv.symm (finProdFinEquiv.symm τ).1).1] i j k } := by
          rw [einsumBlk, hbc b1 hb1 b2 hb2]; rfl
        have hb := (hmem _).2 ⟨b1, hb1, b2, hb2, ir, hir, he⟩
        have hin := mem_spanC (δ := fun k => s k * t k) hb
          (finProdFinEquiv (finProdFinEquiv ((⟨w, hw⟩ : Fin (T.cg b1.ir b2.ir ir).length), u), v)) l
        rw [SetLike.mem_coe, Submodule.mem_comap]
        convert hin using 1
        funext p
        show ∑ xy, _ = _
        rw [Fintype.sum_prod_type]
        simp only [clip_eq_part, (hE1 b1 hb1).shape, (hE2 b2 hb2).shape, Equiv.symm_apply_apply]
        refine Finset.sum_congr rfl fun x _ => Finset.sum_congr rfl fun y _ => ?_
        congr 1
        have hi : (finProdFinEquiv.symm (finProdFinEquiv.symm (finProdFinEquiv (finProdFinEquiv
            ((⟨w, hw⟩ : Fin (T.cg b1.ir b2.ir ir).length), u), v))).1).1 = ⟨w, hw⟩ := by
          rw [Equiv.symm_apply_apply, Equiv.symm_apply_apply]
        exact congrFun (congrFun (congrFun
          (congrArg (fun q => (T.cg b1.ir b2.ir ir).get q) hi.symm) x) y) l
      have hin := hle (Submodule.mem_top : Pi.single (i, j) 1 ∈ _)
      rw [Submodule.mem_comap] at hin ⊢
      convert hin using 1
      funext p
      rw [LinearEquiv.coe_coe, joint_apply]
      show _ = ∑ xy, _
      rw [Finset.sum_eq_single (i, j)]
      · simp
      · intro xy _ hxy
        simp [Pi.single_apply, hxy]
      · simp

end LieNN.TBasis
