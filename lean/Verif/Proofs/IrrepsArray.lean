import Verif.Spec.IrrepsArray
import Verif.Proofs.ReducedTP
import Mathlib.Data.List.Sort
import Mathlib.Data.List.Chain

/-! # `IrrepsArray`: `sorted` and `simplify` -/
namespace LieNN.IArr
open LieNN.Spec

variable {n h : ℕ} {T : Table n h} {m : ℕ}

theorem mk_ok {s : Fin m → ℕ} {l : List (Blk T m)} (hne : l ≠ []) (h : ∀ b ∈ l, b.shape = s) :
    mk l = .ok l := by
  have : (l.map Blk.shape).toFinset = {s} := by
    ext t
    simp only [List.mem_toFinset, List.mem_map, Finset.mem_singleton]
    constructor
    · rintro ⟨b, hb, rfl⟩; exact h b hb
    · rintro rfl
      obtain ⟨b, r, rfl⟩ := List.exists_cons_of_ne_nil hne
      exact ⟨b, by simp, h b (by simp)⟩
  rw [mk, this, Finset.card_singleton, pyAssert, if_pos rfl]
  rfl

theorem mk_inv {l l' : List (Blk T m)} (h : mk l = .ok l') :
    l' = l ∧ l ≠ [] ∧ ∃ s, ∀ b ∈ l, b.shape = s := by
  rw [mk, pyAssert] at h
  split_ifs at h with hc
  · obtain ⟨s, hs⟩ := Finset.card_eq_one.1 hc
    refine ⟨(Except.ok.inj h).symm, ?_, s, fun b hb => ?_⟩
    · rintro rfl; simp at hs
    · have : b.shape ∈ (l.map Blk.shape).toFinset := by
        simp only [List.mem_toFinset, List.mem_map]
        exact ⟨b, hb, rfl⟩
      rw [hs] at this
      simpa using this
  · cases h

theorem mk_nil : mk ([] : List (Blk T m)) = .error .assertionError := rfl

section sorted
variable [LinearOrder T.Ir]

theorem sorted_ok {s : Fin m → ℕ} {l : List (Blk T m)} (hne : l ≠ []) (h : ∀ b ∈ l, b.shape = s) :
    sorted l = .ok (l.mergeSort fun a b => decide (key a ≤ key b)) := by
  apply mk_ok (s := s)
  · intro h0
    have := List.length_mergeSort (le := fun a b => decide (key a ≤ key b)) l
    rw [h0] at this
    exact hne (List.length_eq_zero_iff.1 this.symm)
  · intro b hb
    exact h b (List.mem_mergeSort.1 hb)

theorem sorted_pairwise (l : List (Blk T m)) :
    (l.mergeSort fun a b => decide (key a ≤ key b)).Pairwise fun a b => key a ≤ key b := by
  have := List.pairwise_mergeSort (le := fun a b : Blk T m => decide (key a ≤ key b))
    (fun a b c h1 h2 => by
      simp only [decide_eq_true_eq] at h1 h2 ⊢
      exact h1.trans h2)
    (fun a b => by
      simp only [Bool.or_eq_true, decide_eq_true_eq]
      exact le_total _ _) l
  simpa using this

theorem sorted_stable (l : List (Blk T m)) (k : T.Ir ×ₗ ℕ) :
    (l.mergeSort fun a b => decide (key a ≤ key b)).filter (fun b => key b = k) =
      l.filter fun b => key b = k := by
  have h1 : (l.filter fun b => key b = k).Sublist
      (l.mergeSort fun a b => decide (key a ≤ key b)) := by
    apply List.sublist_mergeSort
    · intro a b c h1 h2
      simp only [decide_eq_true_eq] at h1 h2 ⊢
      exact h1.trans h2
    · intro a b
      simp only [Bool.or_eq_true, decide_eq_true_eq]
      exact le_total _ _
    · rw [List.pairwise_iff_forall_sublist]
      intro a b hab
      have ha := hab.subset (show a ∈ [a, b] by simp)
      have hb := hab.subset (show b ∈ [a, b] by simp)
      simp only [List.mem_filter, decide_eq_true_eq] at ha hb
      simp [ha.2, hb.2]
    · exact List.filter_sublist
  have h2 := h1.filter fun b => decide (key b = k)
  rw [List.filter_filter] at h2
  simp only [Bool.and_self] at h2
  refine (h2.eq_of_length ?_).symm
  exact (((List.mergeSort_perm l _).filter _).length_eq).symm

end sorted

section simplify
variable [DecidableEq T.Ir]

theorem array_append (l l' : List (Blk T m)) (p : Fin m → ℕ) :
    array (l ++ l') p = array l p ++ array l' p := List.flatMap_append

theorem array_merge (a b : Blk T m) (e : b.ir = a.ir) (p : Fin m → ℕ) :
    array [merge a b e] p = array [a, b] p := by
  obtain ⟨mu, i, s, x⟩ := a
  obtain ⟨mu', i', s', x'⟩ := b
  obtain rfl : i' = i := e
  simp only [array, merge, List.flatMap_cons, List.flatMap_nil, List.append_nil]
  have : List.finRange (mu + mu') =
      (List.finRange mu).map (Fin.castAdd mu') ++ (List.finRange mu').map (Fin.natAdd mu) := by
    rw [← List.ofFn_id, List.ofFn_add, ← List.ofFn_eq_map, ← List.ofFn_eq_map]
    rfl
  rw [this]
  simp [List.flatMap_map, List.flatMap_append, Fin.addCases_left, Fin.addCases_right]

/-- The block is the concatenation of a run of blocks of the same irrep. -/
structure Run (run : List (Blk T m)) (b : Blk T m) : Prop where
  ne : run ≠ []
  ir : ∀ c ∈ run, c.ir = b.ir
  mul : b.mul = (run.map Blk.mul).sum
  arr : ∀ p, array [b] p = array run p

theorem simplify_fold {s : Fin m → ℕ} (l : List (Blk T m)) (hl : ∀ b ∈ l, b.shape = s) :
    ∀ (acc : List (Blk T m)) (_ : ∀ b ∈ acc, b.shape = s) (L : List (List (Blk T m)))
      (_ : List.Forall₂ Run L acc) (_ : acc.IsChain fun a b => a.ir ≠ b.ir),
    ∃ acc' L', l.foldlM simplifyStep acc = .ok acc' ∧ (∀ b ∈ acc', b.shape = s) ∧
      List.Forall₂ Run L' acc' ∧ acc'.IsChain (fun a b => a.ir ≠ b.ir) ∧
      L'.reverse.flatten = L.reverse.flatten ++ l := by
  induction l with
  | nil => intro acc h1 L h2 h3; exact ⟨acc, L, rfl, h1, h2, h3, by simp⟩
  | cons b l ih =>
    intro acc h1 L h2 h3
    have hl' := fun c hc => hl c (List.mem_cons_of_mem _ hc)
    have hb := hl b (by simp)
    rw [List.foldlM_cons]
    have hself : Run [b] b := ⟨by simp, by simp, by simp, fun _ => rfl⟩
    match acc, L, h2 with
    | [], [], _ =>
      obtain ⟨acc', L', g1, g2, g3, g4, g5⟩ := ih hl' [b] (by simpa using hb) [[b]]
        (.cons hself .nil) (by simp)
      exact ⟨acc', L', g1, g2, g3, g4, by simpa using g5⟩
    | a :: r, run :: L, .cons hr h2 =>
      simp only [simplifyStep]
      split_ifs with e hs
      · have hrun : Run (run ++ [b]) (merge a b e) := by
          refine ⟨by simp, ?_, ?_, ?_⟩
          · intro c hc
            rcases List.mem_append.1 hc with hc | hc
            · exact hr.ir c hc
            · rw [List.mem_singleton.1 hc]; exact e
          · simp [merge, hr.mul]
          · intro p
            rw [array_merge, array_append, ← hr.arr p]
            exact array_append [a] [b] p
        obtain ⟨acc', L', g1, g2, g3, g4, g5⟩ := ih hl' (merge a b e :: r) (by
          intro c hc
          rcases List.mem_cons.1 hc with rfl | hc
          · exact h1 a (by simp)
          · exact h1 c (by simp [hc])) ((run ++ [b]) :: L) (.cons hrun h2) (by
          cases r with
          | nil => simp
          | cons c r =>
            rw [List.isChain_cons_cons] at h3 ⊢
            exact h3)
        exact ⟨acc', L', g1, g2, g3, g4, by rw [g5]; simp⟩
      · exact absurd ((h1 a (by simp)).trans hb.symm) hs
      · obtain ⟨acc', L', g1, g2, g3, g4, g5⟩ := ih hl' (b :: a :: r) (by
          intro c hc
          rcases List.mem_cons.1 hc with rfl | hc
          · exact hb
          · exact h1 c hc) ([b] :: run :: L) (.cons hself (.cons hr h2)) (by
          rw [List.isChain_cons_cons]
          exact ⟨e, h3⟩)
        exact ⟨acc', L', g1, g2, g3, g4, by rw [g5]; simp⟩

theorem simplify_spec {s : Fin m → ℕ} (l : List (Blk T m)) (hne : l ≠ []) (hl : ∀ b ∈ l, b.shape = s) :
    ∃ r L, simplify l = .ok r ∧ (∀ b ∈ r, b.shape = s) ∧ List.Forall₂ Run L r ∧
      r.IsChain (fun a b => a.ir ≠ b.ir) ∧ L.flatten = l := by
  obtain ⟨acc, L, h1, h2, h3, h4, h5⟩ := simplify_fold l hl [] (by simp) [] .nil (by simp)
  have hacc : acc ≠ [] := by
    rintro rfl
    cases h3
    simp at h5
    exact hne h5
  refine ⟨acc.reverse, L.reverse, ?_, by simpa using h2, List.rel_reverse h3, ?_, by simpa using h5⟩
  · rw [simplify, h1]
    exact mk_ok (s := s) (by simpa using hacc) (by simpa using h2)
  · rw [List.isChain_reverse]
    exact h4.imp fun _ _ h => h.symm

theorem simplify_self_aux (l : List (Blk T m)) :
    ∀ acc, (acc.reverse ++ l).IsChain (fun a b => a.ir ≠ b.ir) →
      l.foldlM simplifyStep acc = .ok (l.reverse ++ acc) := by
  induction l with
  | nil => intro acc _; rfl
  | cons b l ih =>
    intro acc h
    have h' : ((b :: acc).reverse ++ l).IsChain fun a b => a.ir ≠ b.ir := by simpa using h
    have := ih (b :: acc) h'
    rw [List.foldlM_cons]
    cases acc with
    | nil =>
      show l.foldlM simplifyStep [b] = _
      rw [this]; simp
    | cons a r =>
      have hne : ¬ b.ir = a.ir := by
        rw [List.reverse_cons, List.append_assoc, List.isChain_append] at h
        have := h.2.1
        simp only [List.singleton_append, List.isChain_cons_cons] at this
        exact fun e => this.1 e.symm
      simp only [simplifyStep, dif_neg hne]
      show l.foldlM simplifyStep (b :: a :: r) = _
      rw [this]
      simp

theorem simplify_self {s : Fin m → ℕ} (l : List (Blk T m)) (hne : l ≠ []) (hl : ∀ b ∈ l, b.shape = s)
    (hc : l.IsChain fun a b => a.ir ≠ b.ir) : simplify l = .ok l := by
  rw [simplify, simplify_self_aux l [] (by simpa using hc)]
  simp only [List.append_nil]
  show mk l.reverse.reverse = _
  rw [List.reverse_reverse]
  exact mk_ok hne hl

theorem array_flatten {L : List (List (Blk T m))} {r : List (Blk T m)} (h : List.Forall₂ Run L r)
    (p : Fin m → ℕ) : array r p = array L.flatten p := by
  induction h with
  | nil => rfl
  | cons h1 _ ih =>
    rw [List.flatten_cons, array_append, ← ih, ← h1.arr]
    exact array_append [_] _ p

end simplify

end LieNN.IArr
