import Verif.Proofs.BasisProduct
import Verif.Proofs.TBAlg
import Verif.Spec.TensorBasis
import Mathlib.LinearAlgebra.Dimension.OrzechProperty

/-! # The space spanned by the arrays of a list of blocks -/
namespace LieNN.TBasis
open LieNN.Spec LieNN.IArr Module

variable {n h : ℕ} {T : Table n h} {m : ℕ}

theorem mapM_ok_inv {α β : Type} {f : α → Py β} {l : List α} {L : List β} (hh : l.mapM f = .ok L) :
    List.Forall₂ (fun x y => f x = .ok y) l L := by
  induction l generalizing L with
  | nil => cases hh; exact .nil
  | cons b l ih =>
    rw [List.mapM_cons] at hh
    obtain ⟨a, h1, h2⟩ := bind_ok_inv hh
    obtain ⟨r, h3, h4⟩ := bind_ok_inv h2
    cases h4
    exact .cons h1 (ih h3)

theorem forall₂_left {α β : Type} {R : α → β → Prop} {l : List α} {L : List β} (hh : List.Forall₂ R l L)
    {x : α} (hx : x ∈ l) : ∃ y ∈ L, R x y := by
  induction hh with
  | nil => simp at hx
  | cons h1 _ ih =>
    rcases List.mem_cons.1 hx with rfl | hx
    · exact ⟨_, by simp, h1⟩
    · obtain ⟨y, hy, hr⟩ := ih hx
      exact ⟨y, by simp [hy], hr⟩

theorem forall₂_right {α β : Type} {R : α → β → Prop} {l : List α} {L : List β} (hh : List.Forall₂ R l L)
    {y : β} (hy : y ∈ L) : ∃ x ∈ l, R x y := by
  obtain ⟨x, hx, hr⟩ := forall₂_left hh.flip hy
  exact ⟨x, hx, hr⟩

/-! ### Columns -/

/-- The slices of the arrays, in the order of the last axis. -/
def colsL (l : List (Blk T m)) : List ((Fin m → ℕ) → ℂ) :=
  l.flatMap fun b => (List.finRange b.mul).flatMap fun u =>
    (List.finRange (T.dim b.ir)).map fun k p => b.x p u k

/-- The total dimension. -/
def tot (l : List (Blk T m)) : ℕ := (l.map fun b => b.mul * T.dim b.ir).sum

theorem length_colsL (l : List (Blk T m)) : (colsL l).length = tot l := by
  simp [colsL, tot, List.length_flatMap]

theorem array_eq (l : List (Blk T m)) (p : Fin m → ℕ) : array l p = (colsL l).map fun c => c p := by
  simp only [array, colsL, List.map_flatMap, List.map_map]
  rfl

theorem mem_colsL {l : List (Blk T m)} {c : (Fin m → ℕ) → ℂ} :
    c ∈ colsL l ↔ ∃ b ∈ l, ∃ u k, c = fun p => b.x p u k := by
  simp only [colsL, List.mem_flatMap, List.mem_map, List.mem_finRange, true_and]
  refine exists_congr fun b => and_congr_right fun _ => exists_congr fun u => exists_congr fun k => ?_
  exact eq_comm

theorem colsL_ext {l l' : List (Blk T m)} (h1 : tot l = tot l') (h2 : ∀ p, array l p = array l' p) :
    colsL l = colsL l' := by
  apply List.ext_getElem
  · rw [length_colsL, length_colsL, h1]
  · intro i hi hi'
    funext p
    have := h2 p
    rw [array_eq, array_eq] at this
    have h3 := congrArg (fun L => L[i]?) this
    simpa [List.getElem?_eq_getElem, hi, hi'] using h3

/-- The span of the slices. -/
def spanC (δ : Fin m → ℕ) (l : List (Blk T m)) : Submodule ℂ (Box δ → ℂ) :=
  Submodule.span ℂ {c | ∃ b ∈ l, ∃ u k, c = fun p : Box δ => b.x p.1 u k}

theorem mem_spanC {δ : Fin m → ℕ} {l : List (Blk T m)} {b : Blk T m} (hb : b ∈ l) (u k) :
    (fun p : Box δ => b.x p.1 u k) ∈ spanC δ l := Submodule.subset_span ⟨b, hb, u, k, rfl⟩

theorem spanC_eq (δ : Fin m → ℕ) (l : List (Blk T m)) :
    spanC δ l = Submodule.span ℂ {c | ∃ c' ∈ colsL l, c = fun p : Box δ => c' p.1} := by
  unfold spanC
  congr 1
  ext c
  simp only [mem_colsL]
  constructor
  · rintro ⟨b, hb, u, k, rfl⟩
    exact ⟨_, ⟨b, hb, u, k, rfl⟩, rfl⟩
  · rintro ⟨_, ⟨b, hb, u, k, rfl⟩, rfl⟩
    exact ⟨b, hb, u, k, rfl⟩

theorem span_col (δ : Fin m → ℕ) (l : List (Blk T m)) :
    Submodule.span ℂ (Set.range (col δ l)) = spanC δ l := by
  unfold spanC
  congr 1
  ext c
  constructor
  · rintro ⟨⟨i, u, k⟩, rfl⟩
    exact ⟨l[i], List.getElem_mem _, u, k, rfl⟩
  · rintro ⟨b, hb, u, k, rfl⟩
    obtain ⟨i, hi, rfl⟩ := List.getElem_of_mem hb
    exact ⟨⟨⟨i, hi⟩, u, k⟩, rfl⟩

theorem sum_fin_getElem {α : Type} (l : List α) (g : α → ℕ) :
    ∑ i : Fin l.length, g l[i] = (l.map g).sum := by
  induction l with
  | nil => rfl
  | cons a l ih =>
    rw [List.map_cons, List.sum_cons, ← ih]
    exact Fin.sum_univ_succ (n := l.length) fun i => g (a :: l)[i]

theorem card_cols (l : List (Blk T m)) : Fintype.card (Cols l) = tot l := by
  rw [Fintype.card_sigma]
  simp only [Fintype.card_prod, Fintype.card_fin]
  exact sum_fin_getElem l fun b => b.mul * T.dim b.ir

theorem indep_iff (δ : Fin m → ℕ) (l : List (Blk T m)) :
    LinearIndependent ℂ (col δ l) ↔ tot l = finrank ℂ (spanC δ l) := by
  rw [linearIndependent_iff_card_eq_finrank_span, card_cols, Set.finrank, span_col]

/-! ### `sorted().simplify()` -/

section sortSimp
variable [LinearOrder T.Ir]

theorem colsL_perm {l l' : List (Blk T m)} (hp : l.Perm l') : (colsL l).Perm (colsL l') :=
  hp.flatMap_right _

theorem tot_perm {l l' : List (Blk T m)} (hp : l.Perm l') : tot l = tot l' :=
  (hp.map _).sum_eq

theorem sortSimp_cols {l r : List (Blk T m)} (hr : sortSimp l = .ok r) :
    (colsL r).Perm (colsL l) := by
  obtain ⟨l', h1, h2⟩ := bind_ok_inv hr
  obtain ⟨rfl, hne, s, hs⟩ := mk_inv h1
  obtain ⟨r', L, h3, h6, h4, h7, h5⟩ := simplify_spec _ hne hs
  rw [h2] at h3
  cases h3
  have hp : (l.mergeSort fun a b => decide (key a ≤ key b)).Perm l := List.mergeSort_perm _ _
  refine List.Perm.trans ?_ (colsL_perm hp)
  rw [← h5]
  apply List.Perm.of_eq
  have ht : tot r = tot L.flatten := by
    clear h2 hr h5 h6 h7
    induction h4 with
    | nil => rfl
    | @cons run b L r h0 _ ih =>
      rw [List.flatten_cons]
      show b.mul * T.dim b.ir + tot r = ((run ++ L.flatten).map _).sum
      rw [List.map_append, List.sum_append, ih, h0.mul]
      congr 1
      have h2 := h0.ir
      clear h0 ih
      induction run with
      | nil => simp
      | cons c run ih =>
        rw [List.map_cons, List.sum_cons, List.map_cons, List.sum_cons, add_mul,
          ih fun c hc => h2 c (by simp [hc]), h2 c (by simp)]
  exact colsL_ext ht fun p => array_flatten h4 p

theorem sortSimp_tot {l r : List (Blk T m)} (hr : sortSimp l = .ok r) : tot r = tot l := by
  rw [← length_colsL, ← length_colsL, (sortSimp_cols hr).length_eq]

theorem sortSimp_span {l r : List (Blk T m)} (hr : sortSimp l = .ok r) (δ : Fin m → ℕ) :
    spanC δ r = spanC δ l := by
  rw [spanC_eq, spanC_eq]
  congr 1
  ext c
  simp only [(sortSimp_cols hr).mem_iff]

theorem sortSimp_sorted {l r : List (Blk T m)} (hr : sortSimp l = .ok r) :
    r.Pairwise fun a b => a.ir < b.ir := by
  obtain ⟨l', h1, h2⟩ := bind_ok_inv hr
  obtain ⟨rfl, hne, s, hs⟩ := mk_inv h1
  obtain ⟨r', L, h3, h7, h4, hc, h5⟩ := simplify_spec _ hne hs
  rw [h2] at h3
  cases h3
  have hle : L.flatten.Pairwise fun a b => a.ir ≤ b.ir := by
    rw [h5]
    refine (sorted_pairwise l).imp fun {a b} hab => ?_
    simp only [key, Prod.Lex.toLex_le_toLex] at hab
    rcases hab with hab | hab
    · exact hab.le
    · exact hab.1.le
  have hrle : r.Pairwise fun a b => a.ir ≤ b.ir := by
    clear h2 hr h5 hc h7
    induction h4 with
    | nil => exact .nil
    | @cons run b L r h0 h1 ih =>
      rw [List.flatten_cons, List.pairwise_append] at hle
      refine .cons ?_ (ih hle.2.1)
      intro c hc
      obtain ⟨run', hrun', hr'⟩ := forall₂_right h1 hc
      obtain ⟨x, xs, rfl⟩ := List.exists_cons_of_ne_nil h0.ne
      obtain ⟨y, ys, rfl⟩ := List.exists_cons_of_ne_nil hr'.ne
      have := hle.2.2 x (by simp) y (List.mem_flatten.2 ⟨_, hrun', by simp⟩)
      rwa [h0.ir x (by simp), hr'.ir y (by simp)] at this
  have hlt : r.IsChain fun a b => a.ir < b.ir := by
    have h6 := hrle.isChain
    clear hrle hle h4 h2 hr h7
    induction r with
    | nil => simp
    | cons a r ih =>
      cases r with
      | nil => simp
      | cons b r =>
        rw [List.isChain_cons_cons] at hc h6 ⊢
        exact ⟨lt_of_le_of_ne h6.1 hc.1, ih hc.2 h6.2⟩
  haveI : IsTrans (Blk T m) fun a b => a.ir < b.ir := ⟨fun _ _ _ => lt_trans⟩
  exact List.isChain_iff_pairwise.1 hlt

end sortSimp

end LieNN.TBasis
