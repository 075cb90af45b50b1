import Verif.Proofs.BasisProduct

/-!
# Properties of `IrrepsArray` and `reduce_basis_product` (C53, C54)
-/
namespace LieNN.Props
open LieNN.Spec LieNN.IArr

variable {n h : ℕ} {T : Table n h} {m : ℕ}

/-! ### C53 -/

/-- **C53.** The constructor accepts exactly the non-empty lists of blocks with one leading shape. -/
theorem C53_init (l : List (Blk T m)) :
    ((l ≠ [] ∧ ∃ s, ∀ b ∈ l, b.shape = s) → IArr.mk l = .ok l) ∧
    (¬ (l ≠ [] ∧ ∃ s, ∀ b ∈ l, b.shape = s) → IArr.mk l = .error .assertionError) := by
  refine ⟨fun ⟨hne, s, hs⟩ => mk_ok hne hs, fun hn => ?_⟩
  by_contra hc
  have : IArr.mk l = .ok l := by
    unfold IArr.mk at hc ⊢
    unfold pyAssert at hc ⊢
    split_ifs at hc ⊢ with h1
    · rfl
    · exact absurd rfl hc
  obtain ⟨_, h2, h3⟩ := mk_inv this
  exact hn ⟨h2, h3⟩

/-- **C53.** `sorted` returns the same blocks in non-decreasing order of `(irrep, mul)`; blocks with the
same key keep their relative order. -/
theorem C53_sorted [LinearOrder T.Ir] (l : List (Blk T m)) (hne : l ≠ []) (s : Fin m → ℕ)
    (hs : ∀ b ∈ l, b.shape = s) :
    ∃ r, IArr.sorted l = .ok r ∧ r.Perm l ∧
      r.Pairwise (fun a b => a.ir < b.ir ∨ a.ir = b.ir ∧ a.mul ≤ b.mul) ∧
      ∀ i mu, r.filter (fun b => b.ir = i ∧ b.mul = mu) = l.filter fun b => b.ir = i ∧ b.mul = mu := by
  refine ⟨_, sorted_ok hne hs, List.mergeSort_perm _ _, ?_, fun i mu => ?_⟩
  · refine (sorted_pairwise l).imp fun {a b} h => ?_
    simpa [IArr.key, Prod.Lex.toLex_le_toLex] using h
  · have := sorted_stable l (toLex (i, mu))
    simpa [IArr.key] using this

/-- **C53.** `simplify` cuts the list into the maximal runs of equal adjacent irreps and replaces every
run by one block: multiplicities are added and the arrays concatenated. -/
theorem C53_simplify [DecidableEq T.Ir] (l : List (Blk T m)) (hne : l ≠ []) (s : Fin m → ℕ)
    (hs : ∀ b ∈ l, b.shape = s) :
    ∃ (r : List (Blk T m)) (runs : List (List (Blk T m))), IArr.simplify l = .ok r ∧
      runs.flatten = l ∧
      List.Forall₂ (fun run b => run ≠ [] ∧ (∀ c ∈ run, c.ir = b.ir) ∧
        b.mul = (run.map Blk.mul).sum ∧ ∀ p, array [b] p = array run p) runs r ∧
      r.IsChain (fun a b => a.ir ≠ b.ir) ∧ (∀ b ∈ r, b.shape = s) := by
  obtain ⟨r, L, h1, h2, h3, h4, h5⟩ := simplify_spec l hne hs
  exact ⟨r, L, h1, h5, h3.imp fun _ _ h => ⟨h.ne, h.ir, h.mul, h.arr⟩, h4, h2⟩

/-- **C53.** `simplify` leaves the array and the total dimension unchanged and is idempotent. -/
theorem C53_simplify_array [DecidableEq T.Ir] (l r : List (Blk T m)) (h : IArr.simplify l = .ok r)
    (hne : l ≠ []) (s : Fin m → ℕ) (hs : ∀ b ∈ l, b.shape = s) :
    (∀ p, array r p = array l p) ∧
      (r.map fun b => b.mul * T.dim b.ir).sum = (l.map fun b => b.mul * T.dim b.ir).sum ∧
      IArr.simplify r = .ok r := by
  obtain ⟨r', L, h1, h2, h3, h4, h5⟩ := simplify_spec l hne hs
  rw [h] at h1
  cases h1
  have harr : ∀ p, array r p = array l p := fun p => by rw [array_flatten h3 p, h5]
  have hlen : ∀ (k : List (Blk T m)) p,
      (array k p).length = (k.map fun b => b.mul * T.dim b.ir).sum := by
    intro k p
    simp [array, List.length_flatMap]
  refine ⟨harr, ?_, ?_⟩
  · rw [← hlen r fun _ => 0, ← hlen l fun _ => 0, harr]
  · apply simplify_self r _ h2 h4
    rintro rfl
    cases h3
    exact hne h5.symm

/-- A table with two one dimensional irreps (the characters of a group with two elements). -/
def signTable : Table 0 1 where
  Ir := Bool
  dim := fun _ => 1
  rep := fun b => { A := fun i => i.elim0, X := fun i => i.elim0, H := fun _ _ _ => if b then -1 else 1 }
  prod := fun a b => [xor a b]
  cg := fun a b c => if c = xor a b then [fun _ _ _ => 1] else []

/-- The labels of `signTable` are ordered. -/
instance : LinearOrder signTable.Ir := inferInstanceAs (LinearOrder Bool)

/-- Three blocks, the last two of the same irrep. -/
example : let l : List (Blk signTable 1) :=
      [⟨1, true, ![2], fun _ _ _ => 1⟩, ⟨2, false, ![2], fun _ _ _ => 2⟩, ⟨1, false, ![2], fun _ _ _ => 3⟩]
    l ≠ [] ∧ ∀ b ∈ l, b.shape = ![2] := by
  refine ⟨by simp, ?_⟩
  intro b hb
  simp only [List.mem_cons, List.not_mem_nil, or_false] at hb
  rcases hb with rfl | rfl | rfl <;> rfl

/-- The array of two blocks at a position. -/
example : array [(⟨1, true, ![2], fun _ _ _ => 1⟩ : Blk signTable 1), ⟨2, false, ![2], fun _ _ _ => 2⟩]
    ![0] = [1, 2, 2] := by
  simp [array, signTable, List.finRange, List.ofFn_succ]

/-! ### C54 -/

/-- **C54.** The product of two equivariant bases on disjoint axes is computed without an exception as
soon as one product irrep survives the filter; all its blocks are equivariant for the tensor product
action, on the joint shape, and its irreps, with multiplicities, are those of the products. -/
theorem C54_reduce_basis_product [LinearOrder T.Ir] (hT : Equivariant T) (s t : Fin m → ℕ)
    (hd : ∀ k, s k = 1 ∨ t k = 1) (Y Z : LeadRep n h m) (l1 l2 : List (Blk T m))
    (h1 : ∀ b ∈ l1, EquiBlk s Y b) (h2 : ∀ b ∈ l2, EquiBlk t Z b) (f : Option (List T.Ir))
    (hne : ∃ b1 ∈ l1, ∃ b2 ∈ l2, ∃ ir ∈ T.prod b1.ir b2.ir, ∀ fl, f = some fl → ir ∈ fl) :
    ∃ r, reduceBasisProduct l1 l2 f = .ok r ∧
      (∀ b ∈ r, EquiBlk (fun k => s k * t k) (Y.tensor s t Z) b) ∧
      (copies r).Perm ((copies l1).flatMap fun i => (copies l2).flatMap fun j =>
        ((T.prod i j).filter fun ir => ∀ fl, f = some fl → ir ∈ fl).flatMap fun k =>
          List.replicate (T.cg i j k).length k) := by
  have hk : ∀ l : List T.Ir, keep f l = l.filter fun ir => ∀ fl, f = some fl → ir ∈ fl := by
    intro l
    unfold keep
    apply List.filter_congr
    intro ir _
    cases f <;> simp
  obtain ⟨b1, hb1, b2, hb2, ir, hir, hfl⟩ := hne
  obtain ⟨r, g1, g2, g3⟩ := (product_spec hd hT f l1 l2 (List.ne_nil_of_mem hb1)
    (List.ne_nil_of_mem hb2) h1 h2).1 ⟨b1, hb1, b2, hb2, by
      rw [hk]
      apply List.ne_nil_of_mem (a := ir)
      rw [List.mem_filter]
      exact ⟨hir, by simpa using hfl⟩⟩
  refine ⟨r, g1, g2, ?_⟩
  simpa only [prodCopies, hk] using g3

/-- **C54.** When no product irrep survives the filter the constructor of the empty `IrrepsArray`
raises `AssertionError`. -/
theorem C54_empty [LinearOrder T.Ir] (hT : Equivariant T) (s t : Fin m → ℕ)
    (hd : ∀ k, s k = 1 ∨ t k = 1) (Y Z : LeadRep n h m) (l1 l2 : List (Blk T m))
    (hn1 : l1 ≠ []) (hn2 : l2 ≠ [])
    (h1 : ∀ b ∈ l1, EquiBlk s Y b) (h2 : ∀ b ∈ l2, EquiBlk t Z b) (f : List T.Ir)
    (he : ∀ b1 ∈ l1, ∀ b2 ∈ l2, ∀ ir ∈ T.prod b1.ir b2.ir, ir ∉ f) :
    reduceBasisProduct l1 l2 (some f) = .error .assertionError := by
  apply (product_spec hd hT (some f) l1 l2 hn1 hn2 h1 h2).2
  intro b1 hb1 b2 hb2
  rw [keep, List.filter_eq_nil_iff]
  intro ir hir
  simpa using he b1 hb1 b2 hb2 ir hir

/-- The table of signs is equivariant, and a non-zero equivariant block for it: the sign on an axis of
length `2` exchanged by the group element. -/
example : Equivariant signTable ∧
    EquiBlk (![2, 1] : Fin 2 → ℕ)
      ({ X := fun a => a.elim0, H := fun _ q p => if q 0 = p 0 then 0 else 1 } : LeadRep 0 1 2)
      (⟨1, true, ![2, 1], fun p _ _ => if p 0 = 0 then 1 else -1⟩ : Blk signTable 2) := by
  constructor
  · intro i j k hk C hC
    obtain rfl : k = xor i j := List.mem_singleton.1 hk
    obtain rfl : C = fun _ _ _ => 1 := by
      have : signTable.cg i j (xor i j) = [fun _ _ _ => 1] := if_pos rfl
      rw [this] at hC
      exact List.mem_singleton.1 hC
    refine ⟨fun a => a.elim0, fun a x y l => ?_⟩
    cases i <;> cases j <;> simp [signTable] <;>
      (show ((1 : ℕ) : ℂ) = ((1 : ℕ) : ℂ) * ((1 : ℕ) : ℂ)) <;> simp
  · refine ⟨rfl, fun a => a.elim0, fun a p hp u l => ?_⟩
    have hb : box (![2, 1] : Fin 2 → ℕ) = {![0, 0], ![1, 0]} := by decide
    rw [hb] at hp ⊢
    simp only [Finset.mem_insert, Finset.mem_singleton] at hp
    rcases hp with rfl | rfl <;> simp [signTable] <;> rfl

/-- The two shapes `(2, 1)` and `(1, 3)` use disjoint axes. -/
example : ∀ k, (![2, 1] : Fin 2 → ℕ) k = 1 ∨ (![1, 3] : Fin 2 → ℕ) k = 1 := by decide

end LieNN.Props
