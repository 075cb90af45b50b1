import Verif.Proofs.IrrepsArray
import Verif.Spec.Reduced
import Verif.Proofs.PyMap
import Mathlib.Data.Complex.BigOperators
import Mathlib.Tactic.Ring

/-! # `reduce_basis_product` -/
namespace LieNN.IArr
open LieNN.Spec

variable {n h : ℕ} {T : Table n h} {m : ℕ}

/-! ### Predicates on blocks -/

section pred
variable [DecidableEq T.Ir]

theorem simplify_forall {P : Blk T m → Prop} (hP : ∀ a b e, P a → P b → P (merge a b e))
    (l : List (Blk T m)) : ∀ acc acc', (∀ b ∈ acc, P b) → (∀ b ∈ l, P b) →
      l.foldlM simplifyStep acc = .ok acc' → ∀ b ∈ acc', P b := by
  induction l with
  | nil =>
    intro acc acc' h1 _ h3
    cases h3
    exact h1
  | cons b l ih =>
    intro acc acc' h1 h2 h3
    have hl := fun c hc => h2 c (List.mem_cons_of_mem _ hc)
    have hb := h2 b (by simp)
    rw [List.foldlM_cons] at h3
    match acc with
    | [] => exact ih [b] acc' (by simpa using hb) hl h3
    | a :: r =>
      simp only [simplifyStep] at h3
      split_ifs at h3 with e hs
      · refine ih (merge a b e :: r) acc' ?_ hl h3
        intro c hc
        rcases List.mem_cons.1 hc with rfl | hc
        · exact hP _ _ _ (h1 a (by simp)) hb
        · exact h1 c (by simp [hc])
      · cases h3
      · refine ih (b :: a :: r) acc' ?_ hl h3
        intro c hc
        rcases List.mem_cons.1 hc with rfl | hc
        · exact hb
        · exact h1 c hc

end pred

section sortSimp
variable [LinearOrder T.Ir]

theorem sorted_inv {l r : List (Blk T m)} (h : sorted l = .ok r) : r.Perm l := by
  obtain ⟨rfl, _⟩ := mk_inv h
  exact List.mergeSort_perm _ _

theorem bind_ok_inv {α β : Type} {x : Py α} {f : α → Py β} {b : β} (h : (x >>= f) = .ok b) :
    ∃ a, x = .ok a ∧ f a = .ok b := by
  cases x with
  | error e => cases h
  | ok a => exact ⟨a, rfl, h⟩

theorem sortSimp_forall {P : Blk T m → Prop} (hP : ∀ a b e, P a → P b → P (merge a b e))
    {l r : List (Blk T m)} (h : sortSimp l = .ok r) (hl : ∀ b ∈ l, P b) : ∀ b ∈ r, P b := by
  obtain ⟨l', h1, h2⟩ := bind_ok_inv h
  obtain ⟨acc, h3, h4⟩ := bind_ok_inv h2
  obtain ⟨rfl, _⟩ := mk_inv h4
  intro b hb
  exact simplify_forall hP l' [] acc (by simp)
    (fun b hb => hl b ((sorted_inv h1).mem_iff.1 hb)) h3 b (List.mem_reverse.1 hb)

theorem sortSimp_ok {s : Fin m → ℕ} {l : List (Blk T m)} (hne : l ≠ []) (h : ∀ b ∈ l, b.shape = s) :
    ∃ r, sortSimp l = .ok r ∧ r ≠ [] ∧ ∀ b ∈ r, b.shape = s := by
  have h1 := sorted_ok hne h
  have hs : ∀ b ∈ l.mergeSort (fun a b => decide (key a ≤ key b)), b.shape = s :=
    fun b hb => h b (List.mem_mergeSort.1 hb)
  have hn : l.mergeSort (fun a b => decide (key a ≤ key b)) ≠ [] := by
    intro h0
    have := List.length_mergeSort (le := fun a b => decide (key a ≤ key b)) l
    rw [h0] at this
    exact hne (List.length_eq_zero_iff.1 this.symm)
  obtain ⟨r, L, h2, h3, h4, _, h5⟩ := simplify_spec _ hn hs
  refine ⟨r, ?_, ?_, h3⟩
  · rw [sortSimp, h1]; exact h2
  · rintro rfl
    cases h4
    exact hn h5.symm

theorem copies_append (l l' : List (Blk T m)) : copies (l ++ l') = copies l ++ copies l' :=
  List.flatMap_append

theorem copies_run {run : List (Blk T m)} {b : Blk T m} (h : Run run b) :
    copies run = List.replicate b.mul b.ir := by
  rw [h.mul]
  have h2 := h.ir
  clear h
  induction run with
  | nil => rfl
  | cons c run ih =>
    rw [List.map_cons, List.sum_cons, List.replicate_add,
      ← ih fun c hc => h2 c (List.mem_cons_of_mem _ hc), ← h2 c (by simp)]
    rfl

theorem copies_flatten {L : List (List (Blk T m))} {r : List (Blk T m)} (h : List.Forall₂ Run L r) :
    copies r = copies L.flatten := by
  induction h with
  | nil => rfl
  | cons h1 _ ih =>
    rw [List.flatten_cons, copies_append, ← ih, copies_run h1]
    rfl

theorem sortSimp_copies {l r : List (Blk T m)} (h : sortSimp l = .ok r) :
    (copies r).Perm (copies l) := by
  obtain ⟨l', h1, h2⟩ := bind_ok_inv h
  obtain ⟨rfl, hne, s, hs⟩ := mk_inv h1
  obtain ⟨r', L, h3, _, h4, _, h5⟩ := simplify_spec _ hne hs
  rw [h2] at h3
  cases h3
  rw [copies_flatten h4, h5]
  exact (List.mergeSort_perm _ _).flatMap_right _

end sortSimp

/-! ### Equivariance -/

theorem equi_merge {s : Fin m → ℕ} {Y : LeadRep n h m} (a b : Blk T m) (e : b.ir = a.ir)
    (ha : EquiBlk s Y a) (hb : EquiBlk s Y b) : EquiBlk s Y (merge a b e) := by
  obtain ⟨mu, i, sa, x⟩ := a
  obtain ⟨mu', i', sb, x'⟩ := b
  obtain rfl : i' = i := e
  refine ⟨ha.shape, fun c p hp u l => ?_, fun c p hp u l => ?_⟩
  · refine Fin.addCases (fun u => ?_) (fun u => ?_) u
    · have := ha.X c p hp u l
      simp only [merge, Fin.addCases_left]
      exact this
    · have := hb.X c p hp u l
      simp only [merge, Fin.addCases_right]
      exact this
  · refine Fin.addCases (fun u => ?_) (fun u => ?_) u
    · have := ha.H c p hp u l
      simp only [merge, Fin.addCases_left]
      exact this
    · have := hb.H c p hp u l
      simp only [merge, Fin.addCases_right]
      exact this

theorem clip_eq_part (s p : Fin m → ℕ) : clip s p = part s p := rfl

section disjoint
variable {s t : Fin m → ℕ} (hd : ∀ k, s k = 1 ∨ t k = 1)

theorem memb {s p : Fin m → ℕ} : p ∈ box s ↔ ∀ k, p k < s k := by simp [box]

include hd in
theorem bcast_ok : bcast s t = .ok fun k => s k * t k := by
  have h : ∀ k, bcast1 (s k) (t k) = some (s k * t k) := by
    intro k
    rcases hd k with h | h
    · simp only [bcast1, h]
      split_ifs with h2
      · rw [← h2]
      · simp
    · simp only [bcast1, h]
      split_ifs with h2
      · simp
      · simp
  rw [bcast, if_pos fun k => by rw [h]; rfl]
  congr 1
  funext k
  rw [h]
  rfl

include hd in
theorem part_left {p : Fin m → ℕ} (hp : p ∈ box fun k => s k * t k) : part s p ∈ box s := by
  rw [memb] at hp ⊢
  intro k
  have := hp k
  simp only [part]
  split_ifs with h1
  · omega
  · rw [(hd k).resolve_left h1] at this
    omega

include hd in
theorem part_right {p : Fin m → ℕ} (hp : p ∈ box fun k => s k * t k) : part t p ∈ box t := by
  rw [memb] at hp ⊢
  intro k
  have := hp k
  simp only [part]
  split_ifs with h1
  · omega
  · rw [(hd k).resolve_right h1] at this
    omega

include hd in
/-- A sum over the joint shape is a double sum. -/
theorem sum_box (f : (Fin m → ℕ) → (Fin m → ℕ) → ℂ) :
    ∑ p ∈ box (fun k => s k * t k), f (part s p) (part t p) = ∑ p ∈ box s, ∑ q ∈ box t, f p q := by
  rw [← Finset.sum_product']
  refine Finset.sum_nbij' (fun p => (part s p, part t p))
    (fun pq k => if s k = 1 then pq.2 k else pq.1 k) ?_ ?_ ?_ ?_ ?_
  · intro p hp
    exact Finset.mem_product.2 ⟨part_left hd hp, part_right hd hp⟩
  · rintro ⟨p, q⟩ hpq
    obtain ⟨h1, h2⟩ := Finset.mem_product.1 hpq
    rw [memb] at h1 h2 ⊢
    intro k
    have h1 := h1 k
    have h2 := h2 k
    simp only at h1 h2 ⊢
    split_ifs with h3
    · rw [h3, one_mul]; exact h2
    · rw [(hd k).resolve_left h3, mul_one]; exact h1
  · intro p hp
    rw [memb] at hp
    funext k
    have := hp k
    simp only [part]
    split_ifs with h1 h2
    · rw [h1, h2] at this; omega
    · rfl
    · rfl
  · rintro ⟨p, q⟩ hpq
    obtain ⟨h1, h2⟩ := Finset.mem_product.1 hpq
    rw [memb] at h1 h2
    ext k
    · have h1 := h1 k
      simp only [part]
      split_ifs with h3
      · rw [h3] at h1; exact (Nat.lt_one_iff.1 h1).symm
      · rfl
    · have h2 := h2 k
      simp only [part]
      split_ifs with h3 h4
      · rw [h3] at h2; exact (Nat.lt_one_iff.1 h2).symm
      · rfl
      · exact absurd ((hd k).resolve_left h4) h3
  · intro p _; rfl

end disjoint

theorem sum_split {ι κ : Type} [Fintype ι] [Fintype κ] (A : ι → ℂ) (B : κ → ℂ) (M : ι → ι → ℂ)
    (N : κ → κ → ℂ) (D : ι → κ → ℂ) :
    ∑ i, ∑ j, A i * B j * (∑ i', M i' i * D i' j + ∑ j', N j' j * D i j') =
      ∑ i', ∑ j, (∑ i, A i * M i' i) * B j * D i' j +
      ∑ i, ∑ j', (∑ j, B j * N j' j) * A i * D i j' := by
  simp only [mul_add, Finset.sum_add_distrib, Finset.mul_sum, Finset.sum_mul]
  congr 1
  · calc _ = ∑ i, ∑ i', ∑ j, A i * B j * (M i' i * D i' j) :=
          Finset.sum_congr rfl fun i _ => Finset.sum_comm
      _ = ∑ i', ∑ i, ∑ j, A i * B j * (M i' i * D i' j) := Finset.sum_comm
      _ = ∑ i', ∑ j, ∑ i, A i * B j * (M i' i * D i' j) :=
          Finset.sum_congr rfl fun i' _ => Finset.sum_comm
      _ = _ := by
          refine Finset.sum_congr rfl fun i' _ => Finset.sum_congr rfl fun j _ =>
            Finset.sum_congr rfl fun i _ => ?_
          ring
  · refine Finset.sum_congr rfl fun i _ => ?_
    rw [Finset.sum_comm]
    refine Finset.sum_congr rfl fun j' _ => Finset.sum_congr rfl fun j _ => ?_
    ring

theorem einsum_equi {s t : Fin m → ℕ} (hd : ∀ k, s k = 1 ∨ t k = 1) {Y Z : LeadRep n h m}
    {b1 b2 : Blk T m} (h1 : EquiBlk s Y b1) (h2 : EquiBlk t Z b2) (ir : T.Ir)
    (hcg : ∀ C ∈ T.cg b1.ir b2.ir ir, IsCG (T.rep b1.ir) (T.rep b2.ir) (T.rep ir) C) :
    ∃ b, einsumBlk b1 b2 ir = .ok b ∧ b.mul = (T.cg b1.ir b2.ir ir).length * b1.mul * b2.mul ∧
      b.ir = ir ∧ EquiBlk (fun k => s k * t k) (Y.tensor s t Z) b := by
  have hs : bcast b1.shape b2.shape = .ok fun k => s k * t k := by
    rw [h1.shape, h2.shape]; exact bcast_ok hd
  refine ⟨_, by rw [einsumBlk, hs]; rfl, rfl, rfl, rfl, ?_, ?_⟩
  · intro a p hp τ l
    simp only [clip_eq_part, h1.shape, h2.shape]
    set v := (finProdFinEquiv.symm τ).2
    set u := (finProdFinEquiv.symm (finProdFinEquiv.symm τ).1).2
    set w := (finProdFinEquiv.symm (finProdFinEquiv.symm τ).1).1
    have hC := hcg ((T.cg b1.ir b2.ir ir)[w]) (List.getElem_mem _)
    set C := (T.cg b1.ir b2.ir ir)[w]
    have e1 := h1.X a (part s p) (part_left hd hp) u
    have e2 := h2.X a (part t p) (part_right hd hp) v
    calc ∑ k, (∑ i, ∑ j, b1.x (part s p) u i * b2.x (part t p) v j * C i j k) * (T.rep ir).X a l k
        = ∑ i, ∑ j, b1.x (part s p) u i * b2.x (part t p) v j * ∑ k, C i j k * (T.rep ir).X a l k := by
          simp only [Finset.sum_mul, Finset.mul_sum]
          rw [Finset.sum_comm]
          refine Finset.sum_congr rfl fun i _ => ?_
          rw [Finset.sum_comm]
          refine Finset.sum_congr rfl fun j _ => Finset.sum_congr rfl fun k _ => ?_
          ring
      _ = ∑ i', ∑ j, (∑ i, b1.x (part s p) u i * (T.rep b1.ir).X a i' i) * b2.x (part t p) v j *
            C i' j l +
          ∑ i, ∑ j', (∑ j, b2.x (part t p) v j * (T.rep b2.ir).X a j' j) * b1.x (part s p) u i *
            C i j' l := by
          simp only [hC.1]
          exact sum_split _ _ _ _ _
      _ = ∑ q ∈ box s, ∑ q' ∈ box t, (Y.X a q (part s p) * (if q' = part t p then 1 else 0) +
            (if q = part s p then 1 else 0) * Z.X a q' (part t p)) *
            ∑ i, ∑ j, b1.x q u i * b2.x q' v j * C i j l := by
          simp only [e1, e2, add_mul, Finset.sum_add_distrib]
          congr 1
          · have : ∀ q ∈ box s, ∑ q' ∈ box t, Y.X a q (part s p) * (if q' = part t p then 1 else 0) *
                ∑ i, ∑ j, b1.x q u i * b2.x q' v j * C i j l =
                Y.X a q (part s p) * ∑ i, ∑ j, b1.x q u i * b2.x (part t p) v j * C i j l := by
              intro q _
              rw [Finset.sum_eq_single (part t p)]
              · simp
              · intro q' _ hq'; simp [hq']
              · intro hn; exact absurd (part_right hd hp) hn
            rw [Finset.sum_congr rfl this]
            simp only [Finset.sum_mul, Finset.mul_sum]
            conv_lhs => enter [2, i]; rw [Finset.sum_comm]
            rw [Finset.sum_comm]
            refine Finset.sum_congr rfl fun q _ => Finset.sum_congr rfl fun i _ =>
              Finset.sum_congr rfl fun j _ => ?_
            ring
          · have : ∀ q ∈ box s, q ≠ part s p → ∑ q' ∈ box t,
                (if q = part s p then 1 else 0) * Z.X a q' (part t p) *
                ∑ i, ∑ j, b1.x q u i * b2.x q' v j * C i j l = 0 := by
              intro q _ hq
              apply Finset.sum_eq_zero
              intro q' _
              rw [if_neg hq]; ring
            rw [Finset.sum_eq_single (part s p) this (fun hn => absurd (part_left hd hp) hn)]
            simp only [if_true, one_mul, Finset.sum_mul, Finset.mul_sum]
            conv_lhs => enter [2, i]; rw [Finset.sum_comm]
            rw [Finset.sum_comm]
            refine Finset.sum_congr rfl fun q _ => Finset.sum_congr rfl fun i _ =>
              Finset.sum_congr rfl fun j _ => ?_
            ring
      _ = _ := (sum_box hd fun q q' => (Y.X a q (part s p) * (if q' = part t p then 1 else 0) +
            (if q = part s p then 1 else 0) * Z.X a q' (part t p)) *
            ∑ i, ∑ j, b1.x q u i * b2.x q' v j * C i j l).symm
  · intro a p hp τ l
    simp only [clip_eq_part, h1.shape, h2.shape]
    set v := (finProdFinEquiv.symm τ).2
    set u := (finProdFinEquiv.symm (finProdFinEquiv.symm τ).1).2
    set w := (finProdFinEquiv.symm (finProdFinEquiv.symm τ).1).1
    have hC := hcg ((T.cg b1.ir b2.ir ir)[w]) (List.getElem_mem _)
    set C := (T.cg b1.ir b2.ir ir)[w]
    have e1 := h1.H a (part s p) (part_left hd hp) u
    have e2 := h2.H a (part t p) (part_right hd hp) v
    calc ∑ k, (∑ i, ∑ j, b1.x (part s p) u i * b2.x (part t p) v j * C i j k) * (T.rep ir).H a l k
        = ∑ i, ∑ j, b1.x (part s p) u i * b2.x (part t p) v j * ∑ k, C i j k * (T.rep ir).H a l k := by
          simp only [Finset.sum_mul, Finset.mul_sum]
          rw [Finset.sum_comm]
          refine Finset.sum_congr rfl fun i _ => ?_
          rw [Finset.sum_comm]
          refine Finset.sum_congr rfl fun j _ => Finset.sum_congr rfl fun k _ => ?_
          ring
      _ = ∑ i', ∑ j', (∑ i, b1.x (part s p) u i * (T.rep b1.ir).H a i' i) *
            (∑ j, b2.x (part t p) v j * (T.rep b2.ir).H a j' j) * C i' j' l := by
          simp only [hC.2]
          have : ∀ (A : Fin (T.dim b1.ir) → ℂ) (B : Fin (T.dim b2.ir) → ℂ)
              (M : Fin (T.dim b1.ir) → Fin (T.dim b1.ir) → ℂ)
              (N : Fin (T.dim b2.ir) → Fin (T.dim b2.ir) → ℂ)
              (D : Fin (T.dim b1.ir) → Fin (T.dim b2.ir) → ℂ),
              ∑ i, ∑ j, A i * B j * ∑ i', ∑ j', M i' i * N j' j * D i' j' =
              ∑ i', ∑ j', (∑ i, A i * M i' i) * (∑ j, B j * N j' j) * D i' j' := by
            intro A B M N D
            have e : ∀ i' j', (∑ i, A i * M i' i) * (∑ j, B j * N j' j) * D i' j' =
                ∑ i, ∑ j, A i * B j * (M i' i * N j' j * D i' j') := by
              intro i' j'
              rw [Finset.sum_mul_sum, Finset.sum_mul]
              refine Finset.sum_congr rfl fun i _ => ?_
              rw [Finset.sum_mul]
              refine Finset.sum_congr rfl fun j _ => ?_
              ring
            simp only [e]
            simp only [Finset.mul_sum]
            calc _ = ∑ i, ∑ i', ∑ j, ∑ j', A i * B j * (M i' i * N j' j * D i' j') :=
                  Finset.sum_congr rfl fun i _ => Finset.sum_comm
              _ = ∑ i', ∑ i, ∑ j, ∑ j', A i * B j * (M i' i * N j' j * D i' j') := Finset.sum_comm
              _ = ∑ i', ∑ i, ∑ j', ∑ j, A i * B j * (M i' i * N j' j * D i' j') :=
                  Finset.sum_congr rfl fun i' _ => Finset.sum_congr rfl fun i _ => Finset.sum_comm
              _ = _ := Finset.sum_congr rfl fun i' _ => Finset.sum_comm
          exact this _ _ _ _ _
      _ = ∑ q ∈ box s, ∑ q' ∈ box t, (Y.H a q (part s p) * Z.H a q' (part t p)) *
            ∑ i, ∑ j, b1.x q u i * b2.x q' v j * C i j l := by
          simp only [e1, e2]
          have e : ∀ i' j', (∑ q ∈ box s, Y.H a q (part s p) * b1.x q u i') *
              (∑ q' ∈ box t, Z.H a q' (part t p) * b2.x q' v j') * C i' j' l =
              ∑ q ∈ box s, ∑ q' ∈ box t, (Y.H a q (part s p) * Z.H a q' (part t p)) *
                (b1.x q u i' * b2.x q' v j' * C i' j' l) := by
            intro i' j'
            rw [Finset.sum_mul_sum, Finset.sum_mul]
            refine Finset.sum_congr rfl fun i _ => ?_
            rw [Finset.sum_mul]
            refine Finset.sum_congr rfl fun j _ => ?_
            ring
          simp only [e]
          simp only [Finset.mul_sum]
          calc _ = ∑ i', ∑ q ∈ box s, ∑ j', ∑ q' ∈ box t, (Y.H a q (part s p) * Z.H a q' (part t p)) *
                (b1.x q u i' * b2.x q' v j' * C i' j' l) :=
                Finset.sum_congr rfl fun i' _ => Finset.sum_comm
            _ = ∑ q ∈ box s, ∑ i', ∑ j', ∑ q' ∈ box t, (Y.H a q (part s p) * Z.H a q' (part t p)) *
                (b1.x q u i' * b2.x q' v j' * C i' j' l) := Finset.sum_comm
            _ = ∑ q ∈ box s, ∑ i', ∑ q' ∈ box t, ∑ j', (Y.H a q (part s p) * Z.H a q' (part t p)) *
                (b1.x q u i' * b2.x q' v j' * C i' j' l) :=
                Finset.sum_congr rfl fun q _ => Finset.sum_congr rfl fun i' _ => Finset.sum_comm
            _ = _ := Finset.sum_congr rfl fun q _ => Finset.sum_comm
      _ = _ := (sum_box hd fun q q' => (Y.H a q (part s p) * Z.H a q' (part t p)) *
            ∑ i, ∑ j, b1.x q u i * b2.x q' v j * C i j l).symm

/-! ### The whole function -/

section product
variable [LinearOrder T.Ir]

/-- The irreps kept by `filter_ir_out`. -/
def keep (f : Option (List T.Ir)) (l : List T.Ir) : List T.Ir :=
  l.filter fun ir => match f with
    | none => true
    | some f => decide (ir ∈ f)

/-- The irreps of the product, one entry for each copy. -/
def prodCopies (f : Option (List T.Ir)) (c1 c2 : List T.Ir) : List T.Ir :=
  c1.flatMap fun i => c2.flatMap fun j => (keep f (T.prod i j)).flatMap fun k =>
    List.replicate (T.cg i j k).length k

theorem count_flatMap_sum {α β : Type} [DecidableEq β] (l : List α) (g : α → List β) (k : β) :
    (l.flatMap g).count k = (l.map fun a => (g a).count k).sum := by
  induction l with
  | nil => rfl
  | cons a l ih => simp [List.flatMap_cons, List.count_append, ih]

theorem count_copies_flatMap (l : List (Blk T m)) (g : T.Ir → List T.Ir) (k : T.Ir) :
    ((copies l).flatMap g).count k = (l.map fun b => b.mul * (g b.ir).count k).sum := by
  induction l with
  | nil => rfl
  | cons b l ih =>
    rw [show copies (b :: l) = List.replicate b.mul b.ir ++ copies l from rfl, List.flatMap_append,
      List.count_append, ih, List.map_cons, List.sum_cons, count_flatMap_sum, List.map_replicate,
      List.sum_replicate, smul_eq_mul]

theorem prodCopies_count (f : Option (List T.Ir)) (l1 l2 : List (Blk T m)) (k : T.Ir) :
    (prodCopies f (copies l1) (copies l2)).count k = (l1.map fun b1 => (l2.map fun b2 =>
      ((keep f (T.prod b1.ir b2.ir)).map fun ir =>
        (List.replicate ((T.cg b1.ir b2.ir ir).length * b1.mul * b2.mul) ir).count k).sum).sum).sum := by
  rw [prodCopies, count_copies_flatMap]
  congr 1
  apply List.map_congr_left
  intro b1 _
  rw [count_copies_flatMap, ← List.sum_map_mul_left]
  congr 1
  apply List.map_congr_left
  intro b2 _
  rw [count_flatMap_sum, ← List.sum_map_mul_left, ← List.sum_map_mul_left]
  congr 1
  apply List.map_congr_left
  intro ir _
  rw [List.count_replicate, List.count_replicate]
  split_ifs
  · ring
  · rfl

theorem prodCopies_perm (f : Option (List T.Ir)) {c1 c1' c2 c2' : List T.Ir} (h1 : c1.Perm c1')
    (h2 : c2.Perm c2') : (prodCopies f c1 c2).Perm (prodCopies f c1' c2') := by
  refine (h1.flatMap_right _).trans ?_
  apply List.Perm.flatMap_left
  intro i _
  exact h2.flatMap_right _

/-- The list of new blocks before the last call of the constructor. -/
theorem product_new {s t : Fin m → ℕ} (hd : ∀ k, s k = 1 ∨ t k = 1) {Y Z : LeadRep n h m}
    (hT : Equivariant T) (f : Option (List T.Ir)) (l1 l2 : List (Blk T m))
    (h1 : ∀ b ∈ l1, EquiBlk s Y b) (h2 : ∀ b ∈ l2, EquiBlk t Z b) :
    ∃ N, (l1.mapM fun b1 => l2.mapM fun b2 =>
        (keep f (T.prod b1.ir b2.ir)).mapM fun ir => einsumBlk b1 b2 ir) = .ok N ∧
      (∀ b ∈ N.flatten.flatten, EquiBlk (fun k => s k * t k) (Y.tensor s t Z) b) ∧
      (copies N.flatten.flatten).Perm (prodCopies f (copies l1) (copies l2)) ∧
      (N.flatten.flatten = [] ↔ ∀ b1 ∈ l1, ∀ b2 ∈ l2, keep f (T.prod b1.ir b2.ir) = []) := by
  let P0 : Blk T m → Blk T m → T.Ir → Blk T m → Prop := fun b1 b2 ir b =>
    b.mul = (T.cg b1.ir b2.ir ir).length * b1.mul * b2.mul ∧ b.ir = ir ∧
      EquiBlk (fun k => s k * t k) (Y.tensor s t Z) b
  obtain ⟨N, hN, hF⟩ := mapM_forall₂ (fun b1 => l2.mapM fun b2 =>
        (keep f (T.prod b1.ir b2.ir)).mapM fun ir => einsumBlk b1 b2 ir)
    (fun b1 => List.Forall₂ (fun b2 => List.Forall₂ (P0 b1 b2) (keep f (T.prod b1.ir b2.ir))) l2)
    l1 (by
      intro b1 hb1
      apply mapM_forall₂
      intro b2 hb2
      apply mapM_forall₂
      intro ir hir
      apply einsum_equi hd (h1 b1 hb1) (h2 b2 hb2)
      intro C hC
      exact hT _ _ _ (List.mem_of_mem_filter hir) C hC)
  have key : ∀ (K : List T.Ir) (b1 b2 : Blk T m) (Q : List (Blk T m)),
      List.Forall₂ (P0 b1 b2) K Q →
      (∀ b ∈ Q, EquiBlk (fun k => s k * t k) (Y.tensor s t Z) b) ∧
      (∀ k, (copies Q).count k = (K.map fun ir =>
        (List.replicate ((T.cg b1.ir b2.ir ir).length * b1.mul * b2.mul) ir).count k).sum) ∧
      (Q = [] ↔ K = []) := by
    intro K b1 b2 Q hQ
    induction hQ with
    | nil => exact ⟨by simp, fun _ => rfl, by simp⟩
    | cons h0 _ ih =>
      refine ⟨?_, fun k => ?_, by simp⟩
      · intro b hb
        rcases List.mem_cons.1 hb with rfl | hb
        · exact h0.2.2
        · exact ih.1 b hb
      · rw [show copies (_ :: _) = List.replicate _ _ ++ copies _ from rfl, List.count_append,
          ih.2.1 k, List.map_cons, List.sum_cons, h0.1, h0.2.1]
  have key2 : ∀ (l2 : List (Blk T m)) (b1 : Blk T m) (Q : List (List (Blk T m))),
      List.Forall₂ (fun b2 => List.Forall₂ (P0 b1 b2) (keep f (T.prod b1.ir b2.ir))) l2 Q →
      (∀ b ∈ Q.flatten, EquiBlk (fun k => s k * t k) (Y.tensor s t Z) b) ∧
      (∀ k, (copies Q.flatten).count k = (l2.map fun b2 => ((keep f (T.prod b1.ir b2.ir)).map fun ir =>
        (List.replicate ((T.cg b1.ir b2.ir ir).length * b1.mul * b2.mul) ir).count k).sum).sum) ∧
      (Q.flatten = [] ↔ ∀ b2 ∈ l2, keep f (T.prod b1.ir b2.ir) = []) := by
    intro l2 b1 Q hQ
    induction hQ with
    | nil => exact ⟨by simp, fun _ => rfl, by simp⟩
    | cons h0 _ ih =>
      obtain ⟨g1, g2, g3⟩ := key _ _ _ _ h0
      refine ⟨?_, fun k => ?_, ?_⟩
      · intro b hb
        rw [List.flatten_cons, List.mem_append] at hb
        rcases hb with hb | hb
        · exact g1 b hb
        · exact ih.1 b hb
      · rw [List.flatten_cons, copies_append, List.count_append, g2, ih.2.1 k, List.map_cons,
          List.sum_cons]
      · rw [List.flatten_cons, List.append_eq_nil_iff, g3, ih.2.2, List.forall_mem_cons]
  have key3 : (∀ b ∈ N.flatten.flatten, EquiBlk (fun k => s k * t k) (Y.tensor s t Z) b) ∧
      (∀ k, (copies N.flatten.flatten).count k = (l1.map fun b1 => (l2.map fun b2 =>
        ((keep f (T.prod b1.ir b2.ir)).map fun ir =>
        (List.replicate ((T.cg b1.ir b2.ir ir).length * b1.mul * b2.mul) ir).count k).sum).sum).sum) ∧
      (N.flatten.flatten = [] ↔ ∀ b1 ∈ l1, ∀ b2 ∈ l2, keep f (T.prod b1.ir b2.ir) = []) := by
    clear hN h1
    induction hF with
    | nil => exact ⟨by simp, fun _ => rfl, by simp⟩
    | cons h0 _ ih =>
      obtain ⟨g1, g2, g3⟩ := key2 _ _ _ h0
      refine ⟨?_, fun k => ?_, ?_⟩
      · intro b hb
        rw [List.flatten_cons, List.flatten_append, List.mem_append] at hb
        rcases hb with hb | hb
        · exact g1 b hb
        · exact ih.1 b hb
      · rw [List.flatten_cons, List.flatten_append, copies_append, List.count_append, g2, ih.2.1 k,
          List.map_cons, List.sum_cons]
      · rw [List.flatten_cons, List.flatten_append, List.append_eq_nil_iff, g3, ih.2.2,
          List.forall_mem_cons]
  refine ⟨N, hN, key3.1, ?_, key3.2.2⟩
  rw [List.perm_iff_count]
  intro k
  rw [key3.2.1 k, prodCopies_count]

theorem product_spec {s t : Fin m → ℕ} (hd : ∀ k, s k = 1 ∨ t k = 1) {Y Z : LeadRep n h m}
    (hT : Equivariant T) (f : Option (List T.Ir)) (l1 l2 : List (Blk T m)) (hn1 : l1 ≠ [])
    (hn2 : l2 ≠ []) (h1 : ∀ b ∈ l1, EquiBlk s Y b) (h2 : ∀ b ∈ l2, EquiBlk t Z b) :
    ((∃ b1 ∈ l1, ∃ b2 ∈ l2, keep f (T.prod b1.ir b2.ir) ≠ []) →
      ∃ r, reduceBasisProduct l1 l2 f = .ok r ∧
        (∀ b ∈ r, EquiBlk (fun k => s k * t k) (Y.tensor s t Z) b) ∧
        (copies r).Perm (prodCopies f (copies l1) (copies l2))) ∧
    ((∀ b1 ∈ l1, ∀ b2 ∈ l2, keep f (T.prod b1.ir b2.ir) = []) →
      reduceBasisProduct l1 l2 f = .error .assertionError) := by
  obtain ⟨r1, hr1, hrn1, hs1⟩ := sortSimp_ok hn1 fun b hb => (h1 b hb).shape
  obtain ⟨r2, hr2, hrn2, hs2⟩ := sortSimp_ok hn2 fun b hb => (h2 b hb).shape
  obtain ⟨N, hN, hE, hP, hnil⟩ := product_new hd hT f r1 r2
    (sortSimp_forall (fun a b e => equi_merge a b e) hr1 h1)
    (sortSimp_forall (fun a b e => equi_merge a b e) hr2 h2)
  have hir : ∀ {l r : List (Blk T m)}, sortSimp l = .ok r → (∀ i, (∃ b ∈ r, b.ir = i) ↔ ∃ b ∈ l, b.ir = i) := by
    intro l r hr i
    obtain ⟨l', g1, g2⟩ := bind_ok_inv hr
    obtain ⟨rfl, hne, s, hs⟩ := mk_inv g1
    obtain ⟨r', L, g3, -, g4, -, g5⟩ := simplify_spec _ hne hs
    rw [g2] at g3
    cases g3
    have : (∃ b ∈ r, b.ir = i) ↔ ∃ b ∈ L.flatten, b.ir = i := by
      clear g2 g5 hr
      induction g4 with
      | nil => simp
      | @cons run b L r h0 _ ih =>
        simp only [List.mem_cons, List.flatten_cons, List.mem_append, or_and_right, exists_or, ih]
        apply or_congr_left
        constructor
        · rintro ⟨_, rfl, rfl⟩
          obtain ⟨c, cs, rfl⟩ := List.exists_cons_of_ne_nil h0.ne
          exact ⟨c, by simp, h0.ir c (by simp)⟩
        · rintro ⟨c, hc, rfl⟩
          exact ⟨_, rfl, (h0.ir c hc).symm⟩
    rw [this, g5]
    simp only [List.mem_mergeSort]
  have hcall : reduceBasisProduct l1 l2 f = (mk N.flatten.flatten >>= fun new => sortSimp new) := by
    rw [reduceBasisProduct, hr1]
    show (sortSimp l2 >>= _) = _
    rw [hr2]
    show (r1.mapM (fun b1 => r2.mapM fun b2 =>
        (keep f (T.prod b1.ir b2.ir)).mapM fun ir => einsumBlk b1 b2 ir) >>= _) = _
    rw [hN]
    rfl
  constructor
  · rintro ⟨b1, hb1, b2, hb2, hk⟩
    have hne : N.flatten.flatten ≠ [] := by
      rw [Ne, hnil]
      intro hall
      obtain ⟨c1, hc1, e1⟩ := (hir hr1 b1.ir).2 ⟨b1, hb1, rfl⟩
      obtain ⟨c2, hc2, e2⟩ := (hir hr2 b2.ir).2 ⟨b2, hb2, rfl⟩
      have := hall c1 hc1 c2 hc2
      rw [e1, e2] at this
      exact hk this
    have hmk := mk_ok hne fun b hb => (hE b hb).shape
    obtain ⟨r, hr, _, _⟩ := sortSimp_ok hne fun b hb => (hE b hb).shape
    refine ⟨r, ?_, sortSimp_forall (fun a b e => equi_merge a b e) hr hE, ?_⟩
    · rw [hcall, hmk]; exact hr
    · exact (sortSimp_copies hr).trans (hP.trans
        (prodCopies_perm f (sortSimp_copies hr1) (sortSimp_copies hr2)))
  · intro hall
    have : N.flatten.flatten = [] := by
      rw [hnil]
      intro c1 hc1 c2 hc2
      obtain ⟨b1, hb1, e1⟩ := (hir hr1 c1.ir).1 ⟨c1, hc1, rfl⟩
      obtain ⟨b2, hb2, e2⟩ := (hir hr2 c2.ir).1 ⟨c2, hc2, rfl⟩
      rw [← e1, ← e2]
      exact hall b1 hb1 b2 hb2
    rw [hcall, this, mk_nil]
    rfl

end product

end LieNN.IArr
