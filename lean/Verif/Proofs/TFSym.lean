import Verif.Proofs.TFArray
import Mathlib.Data.Sym.Card
import Mathlib.Data.Fin.Tuple.Sort
import Mathlib.LinearAlgebra.Dimension.Constructions

/-!
# The dimension of the space of symmetric tensors
-/
namespace LieNN.TFront

open LieNN.Spec LieNN.TBasis Module LieNN.IArr

variable {m d : ℕ}

/-- All permutations, without signs. -/
def allPerms (m : ℕ) : Subgroup (SignedPerm m) := (MonoidHom.fst ℤˣ (Equiv.Perm (Fin m))).ker

theorem mem_allPerms {g : SignedPerm m} : g ∈ allPerms m ↔ g.1 = 1 := MonoidHom.mem_ker

theorem exists_perm {x y : Fin m → Fin d} (h : (List.ofFn x).Perm (List.ofFn y)) :
    ∃ σ : Equiv.Perm (Fin m), y = x ∘ σ := by
  have h1 : List.ofFn (x ∘ Tuple.sort x) = List.ofFn (y ∘ Tuple.sort y) :=
    (((Tuple.sort x).ofFn_comp_perm x).trans (h.trans ((Tuple.sort y).ofFn_comp_perm y).symm)).eq_of_pairwise'
      (Tuple.monotone_sort x).sortedLE_ofFn.pairwise (Tuple.monotone_sort y).sortedLE_ofFn.pairwise
  have h2 := List.ofFn_injective h1
  refine ⟨(Tuple.sort y).symm.trans (Tuple.sort x), ?_⟩
  funext k
  have := congrFun h2 ((Tuple.sort y).symm k)
  simpa using this.symm

/-- The entries of a multi-index. -/
def digits (x : Box fun _ : Fin m => d) : Fin m → Fin d :=
  fun k => ⟨x.1 k, by simpa using memb.1 x.2 k⟩

/-- The multiset of the entries. -/
def bag (x : Box fun _ : Fin m => d) : Sym (Fin d) m :=
  ⟨(List.ofFn (digits x) : Multiset (Fin d)), by simp⟩

theorem bag_eq {x y : Box fun _ : Fin m => d} : bag x = bag y ↔ ∃ σ : Equiv.Perm (Fin m), y.1 = x.1 ∘ σ := by
  constructor
  · intro h
    have h1 : (List.ofFn (digits x)).Perm (List.ofFn (digits y)) :=
      Multiset.coe_eq_coe.1 (congrArg Subtype.val h)
    obtain ⟨σ, hσ⟩ := exists_perm h1
    refine ⟨σ, funext fun k => ?_⟩
    have := congrArg Fin.val (congrFun hσ k)
    exact this
  · rintro ⟨σ, hσ⟩
    apply Subtype.ext
    apply Multiset.coe_eq_coe.2
    have : digits y = digits x ∘ σ := by
      funext k
      exact Fin.ext (congrFun hσ k)
    rw [this]
    exact (σ.ofFn_comp_perm _).symm

theorem bag_surjective : Function.Surjective (bag : (Box fun _ : Fin m => d) → Sym (Fin d) m) := by
  rintro ⟨s, hs⟩
  induction s using Quotient.inductionOn with
  | h l =>
    have hl : l.length = m := hs
    subst hl
    refine ⟨⟨fun k => l[k], ?_⟩, ?_⟩
    · show _ ∈ box _
      rw [memb]
      intro k
      exact (l[k]).2
    · apply Subtype.ext
      show ((List.ofFn fun k : Fin l.length => l[k] : List (Fin d)) : Multiset (Fin d)) = (l : Multiset (Fin d))
      congr 1
      simp

/-- Symmetric tensors are the functions of the multiset of the indices. -/
noncomputable def symEquiv :
    symC (allPerms m : Set (SignedPerm m)) (fun _ => d) ≃ₗ[ℂ] (Sym (Fin d) m → ℂ) where
  toFun t s := t.1 (Function.surjInv bag_surjective s)
  map_add' _ _ := rfl
  map_smul' _ _ := rfl
  invFun u := ⟨fun x => u (bag x), by
    intro g hg x y he
    rw [SetLike.mem_coe, mem_allPerms] at hg
    simp only [hg, Units.val_one, Int.cast_one, one_mul]
    congr 1
    exact (bag_eq.2 ⟨g.2, he⟩).symm⟩
  left_inv t := by
    apply Subtype.ext
    funext x
    obtain ⟨σ, hσ⟩ := bag_eq.1 (Function.surjInv_eq bag_surjective (bag x)).symm
    have := t.2 (1, σ) (mem_allPerms.2 rfl) _ _ hσ
    simpa using this
  right_inv u := by
    funext s
    simp [Function.surjInv_eq]

theorem finrank_symmetric :
    finrank ℂ (symC (allPerms m : Set (SignedPerm m)) fun _ => d) = d.multichoose m := by
  rw [LinearEquiv.finrank_eq symEquiv, finrank_fintype_fun_eq_card, Sym.card_sym_eq_multichoose,
    Fintype.card_fin]

theorem finrank_all (δ : Fin m → ℕ) : finrank ℂ (symC {1} δ) = ∏ k, δ k := by
  have : symC ({1} : Set (SignedPerm m)) δ = ⊤ := by
    rw [eq_top_iff]
    rintro t _ g hg ξ η he
    obtain rfl : g = 1 := hg
    have : η = ξ := Subtype.ext (by simpa using he)
    rw [this]; simp
  rw [this, finrank_top, finrank_fintype_fun_eq_card, Fintype.card_coe, Fintype.card_piFinset]
  simp

theorem mem_permutations (order : ℕ) : (((List.range order).permutations.map fun p => ((1 : ℤ), p)).toFinset :
    Set (ℤ × List ℕ)) = stup '' (allPerms order : Set (SignedPerm order)) := by
  ext ⟨s, p⟩
  simp only [Finset.mem_coe, List.mem_toFinset, List.mem_map, List.mem_permutations, Prod.mk.injEq,
    Set.mem_image, SetLike.mem_coe, mem_allPerms]
  constructor
  · rintro ⟨q, hq, rfl, rfl⟩
    have hl : q.length = order := by rw [hq.length_eq]; simp
    have hlt : ∀ k : Fin order, q[k.1]'(by rw [hl]; exact k.2) < order := by
      intro k
      have : q[k.1]'(by rw [hl]; exact k.2) ∈ List.range order := hq.mem_iff.1 (List.getElem_mem _)
      simpa using this
    have hnd : q.Nodup := hq.nodup_iff.2 List.nodup_range
    let f : Fin order → Fin order := fun k => ⟨_, hlt k⟩
    have hf : Function.Injective f := by
      intro a b hab
      have := (List.Nodup.getElem_inj_iff hnd).1 (congrArg Fin.val hab)
      exact Fin.ext this
    refine ⟨(1, Equiv.ofBijective f (Finite.injective_iff_bijective.1 hf)), rfl, ?_⟩
    simp only [stup, Units.val_one, Prod.mk.injEq, true_and]
    rw [tup]
    apply List.ext_getElem
    · simp [hl]
    · intro i h1 h2
      simp [f]
  · rintro ⟨g, hg, he⟩
    simp only [stup, hg, Units.val_one, Prod.mk.injEq] at he
    refine ⟨p, ?_, he.1, rfl⟩
    rw [← he.2]
    have h1 : tup g.2 = List.ofFn ((fun k : Fin order => (k : ℕ)) ∘ g.2) := rfl
    rw [h1]
    refine (g.2.ofFn_comp_perm _).trans ?_
    rw [List.ofFn_eq_map, List.map_coe_finRange_eq_range]

end LieNN.TFront
