import Verif.Proofs.Perm
import Mathlib.GroupTheory.Perm.Cycle.Concrete
import Mathlib.GroupTheory.Perm.Cycle.Type
import Mathlib.GroupTheory.Perm.Fin

namespace LieNN.Perm
open LieNN.Spec Equiv Equiv.Perm

variable {n : ℕ}

/-! ### inversion count -/

theorem sum_map_range (n : ℕ) (f : ℕ → ℕ) : ((List.range n).map f).sum = ∑ i : Fin n, f i := by
  rw [Fin.sum_univ_eq_sum_range, Finset.sum_range]
  rw [← List.sum_ofFn]
  congr 1
  apply List.ext_getElem <;> simp

theorem neg_one_pow_filter {α : Type*} (s : Finset α) (c : α → Prop) [DecidablePred c] :
    (-1 : ℤˣ) ^ (s.filter c).card = ∏ j ∈ s, if c j then -1 else 1 := by
  rw [Finset.prod_ite]
  simp

theorem inner_count (σ : Equiv.Perm (Fin n)) (i : Fin n) :
    ((List.range' (i + 1) (n - (i + 1))).filter fun j => (tup σ).getD i 0 > (tup σ).getD j 0).length
      = ((Finset.Ioi i).filter fun j => ¬ (σ i < σ j)).card := by
  have hnd : ((List.range' (i + 1) (n - (i + 1))).filter
      fun j => (tup σ).getD i 0 > (tup σ).getD j 0).Nodup := List.Nodup.filter _ List.nodup_range'
  rw [← List.toFinset_card_of_nodup hnd]
  symm
  refine Finset.card_bij (fun (j : Fin n) _ => (j : ℕ)) ?_ ?_ ?_
  · intro j hj
    simp only [Finset.mem_filter, Finset.mem_Ioi, not_lt] at hj
    have hne : σ j ≠ σ i := fun h => absurd hj.1 (by rw [σ.injective h]; exact lt_irrefl i)
    have hlt : σ j < σ i := lt_of_le_of_ne hj.2 hne
    simp only [List.mem_toFinset, List.mem_filter, List.mem_range'_1, tup_getD, decide_eq_true_eq]
    refine ⟨⟨?_, ?_⟩, hlt⟩
    · exact hj.1
    · have := j.2; omega
  · intro a _ b _ h; exact Fin.ext h
  · intro j hj
    simp only [List.mem_toFinset, List.mem_filter, List.mem_range'_1, decide_eq_true_eq] at hj
    have hjn : j < n := by have := hj.1.2; omega
    refine ⟨⟨j, hjn⟩, ?_, rfl⟩
    have e : (tup σ).getD j 0 = _ := tup_getD σ ⟨j, hjn⟩ 0
    rw [e, tup_getD] at hj
    simp only [Finset.mem_filter, Finset.mem_Ioi, not_lt]
    exact ⟨hj.1.1, le_of_lt hj.2⟩

theorem permutationSign_tup (σ : Equiv.Perm (Fin n)) : permutationSign (tup σ) = (Equiv.Perm.sign σ : ℤ) := by
  by_cases h1 : n = 1
  · subst h1
    have : σ = 1 := Subsingleton.elim _ _
    subst this
    simp [permutationSign]
  · simp only [permutationSign, length_tup, if_neg h1]
    rw [sum_map_range]
    simp only [inner_count]
    set t := ∑ i : Fin n, ((Finset.Ioi i).filter fun j => ¬ (σ i < σ j)).card with ht
    have hs : Equiv.Perm.sign σ = (-1 : ℤˣ) ^ t := by
      rw [sign_eq_prod_prod_Ioi, ht, ← Finset.prod_pow_eq_pow_sum]
      refine Finset.prod_congr rfl fun i _ => ?_
      rw [neg_one_pow_filter]
      refine Finset.prod_congr rfl fun j _ => ?_
      by_cases h : σ i < σ j <;> simp [h]
    rw [hs]
    rcases Nat.even_or_odd t with h | h
    · rw [if_pos (Nat.even_iff.1 h), h.neg_one_pow]; rfl
    · rw [if_neg (by rw [Nat.odd_iff.1 h]; decide), h.neg_one_pow]; rfl

/-! ### cycles -/

theorem pow_length_toList (σ : Equiv.Perm (Fin n)) (x : Fin n) :
    (σ ^ (cycleOf σ x).support.card) x = x := by
  have := pow_mod_card_support_cycleOf_self_apply σ (cycleOf σ x).support.card x
  rw [Nat.mod_self] at this
  simpa using this.symm

theorem pow_ne_of_lt (σ : Equiv.Perm (Fin n)) (x : Fin n) (k : ℕ) (h0 : 0 < k)
    (hk : k < (cycleOf σ x).support.card) : (σ ^ k) x ≠ x := by
  intro h
  have hnd := nodup_toList σ x
  have hl : k < (toList σ x).length := by simpa using hk
  have e := (hnd.getElem_inj_iff (hi := hl) (hj := (by omega : 0 < (toList σ x).length))).1
    (by rw [getElem_toList, getElem_toList, h]; simp)
  omega

theorem cycleLoop_spec (σ : Equiv.Perm (Fin n)) (x : Fin n) :
    ∀ d k fuel, k + d + 1 = (cycleOf σ x).support.card → d < fuel →
      cycleLoop (tup σ) x fuel ((σ ^ k) x : Fin n) ((List.iterate σ x (k + 1)).map Fin.val)
        = some (.ok ((toList σ x).map Fin.val)) := by
  intro d
  induction d with
  | zero =>
    intro k fuel hk hf
    obtain ⟨fuel, rfl⟩ : ∃ f, fuel = f + 1 := ⟨fuel - 1, by omega⟩
    have hx : σ ((σ ^ k) x) = x := by
      rw [← mul_apply, ← pow_succ']
      have : k + 1 = (cycleOf σ x).support.card := by omega
      rw [this, pow_length_toList]
    simp only [cycleLoop, tup_getElem?, hx, ne_eq, not_true, if_false]
    rw [toList, ← hk]
  | succ d ih =>
    intro k fuel hk hf
    obtain ⟨fuel, rfl⟩ : ∃ f, fuel = f + 1 := ⟨fuel - 1, by omega⟩
    have hx : σ ((σ ^ k) x) ≠ x := by
      rw [← mul_apply, ← pow_succ']
      exact pow_ne_of_lt σ x _ (by omega) (by omega)
    have hx' : ((σ ((σ ^ k) x) : Fin n) : ℕ) ≠ x := fun h => hx (Fin.ext h)
    simp only [cycleLoop, tup_getElem?]
    rw [if_pos hx']
    have := ih (k + 1) fuel (by omega) (by omega)
    rw [← this]
    congr 1
    · rw [pow_succ', mul_apply]
    · apply List.ext_getElem
      · simp
      · intro i h1 h2
        simp only [List.length_map, List.length_iterate] at h2
        simp only [List.getElem_map, List.getElem_iterate]
        rcases Nat.lt_or_ge i (k + 1) with h | h
        · rw [List.getElem_append_left (by simpa using h)]
          simp only [List.getElem_map, List.getElem_iterate]
        · have : i = k + 1 := by omega
          subst this
          rw [List.getElem_append_right (by simp)]
          simp only [List.length_map, List.length_iterate, Nat.sub_self, List.getElem_singleton]
          rw [iterate_eq_pow, pow_succ', mul_apply]

/-- The cycle through `x` that the code computes. -/
def cyc (σ : Equiv.Perm (Fin n)) (x : Fin n) : List ℕ :=
  if σ x = x then [(x : ℕ)] else (toList σ x).map Fin.val

theorem cycleLoop_eq (σ : Equiv.Perm (Fin n)) (x : Fin n) (fuel : ℕ) (hf : n ≤ fuel) :
    cycleLoop (tup σ) x fuel x [(x : ℕ)] = some (.ok (cyc σ x)) := by
  have hn : 0 < n := x.pos
  by_cases h : σ x = x
  · obtain ⟨fuel, rfl⟩ : ∃ f, fuel = f + 1 := ⟨fuel - 1, by omega⟩
    simp only [cycleLoop, tup_getElem?, h, ne_eq, not_true, if_false, cyc, if_true]
  · have hpos : 0 < (cycleOf σ x).support.card := by
      rw [← length_toList]
      exact length_toList_pos_of_mem_support _ _ (mem_support.2 h)
    have hle : (cycleOf σ x).support.card ≤ n := by
      simpa using Finset.card_le_univ (cycleOf σ x).support
    have := cycleLoop_spec σ x ((cycleOf σ x).support.card - 1) 0 fuel (by omega) (by omega)
    simpa [cyc, h] using this

theorem toCyclesLoop_eq (σ : Equiv.Perm (Fin n)) (fuel : ℕ) (hf : n ≤ fuel) :
    ∀ (is : List (Fin n)) (S : Finset (List ℕ)),
      toCyclesLoop (tup σ) fuel (is.map Fin.val) S =
        some (.ok (S ∪ ((is.toFinset.filter fun x => σ x ≠ x).image
          fun x => rotateMin ((toList σ x).map Fin.val)))) := by
  intro is
  induction is with
  | nil => intro S; simp [toCyclesLoop]
  | cons x is ih =>
    intro S
    simp only [List.map_cons, toCyclesLoop, cycleLoop_eq σ x fuel hf, ih]
    congr 2
    by_cases h : σ x = x
    · have : ¬ 2 ≤ (cyc σ x).length := by simp [cyc, h]
      rw [if_neg this]
      simp [Finset.filter_insert, h]
    · have h2 : 2 ≤ (cyc σ x).length := by
        simp only [cyc, if_neg h, List.length_map]
        exact two_le_length_toList_iff_mem_support.2 (mem_support.2 h)
      rw [if_pos h2]
      have hc : cyc σ x = (toList σ x).map Fin.val := by simp [cyc, h]
      rw [hc]
      ext l
      simp [Finset.filter_insert, h]

theorem toCycles_eq (σ : Equiv.Perm (Fin n)) (fuel : ℕ) (hf : n ≤ fuel) :
    toCycles fuel (tup σ) = some (.ok (σ.support.image
      fun x => rotateMin ((toList σ x).map Fin.val))) := by
  have h : List.range n = (List.finRange n).map Fin.val := by
    apply List.ext_getElem <;> simp
  rw [toCycles, length_tup, h, toCyclesLoop_eq σ fuel hf]
  simp only [Finset.empty_union]
  congr 3
  ext x; simp

theorem rotateMin_perm (l : List ℕ) : (rotateMin l).Perm l := by
  unfold rotateMin
  exact (List.perm_append_comm).trans (by rw [List.take_append_drop])

theorem rotateMin_isRotated (l : List ℕ) : rotateMin l ~r l := by
  unfold rotateMin
  refine List.IsRotated.symm ⟨l.idxOf (l.min?.getD 0), ?_⟩
  rw [List.rotate_eq_drop_append_take List.idxOf_le_length]

theorem min?_eq_of_perm {l l' : List ℕ} (h : l.Perm l') : l.min? = l'.min? := by
  cases hl : l.min? with
  | none =>
    have : l = [] := by simpa using hl
    subst this
    rw [h.nil_eq.symm]; rfl
  | some a =>
    symm
    rw [List.min?_eq_some_iff] at hl ⊢
    exact ⟨h.mem_iff.1 hl.1, fun b hb => hl.2 b (h.mem_iff.2 hb)⟩

theorem rotateMin_head (l : List ℕ) (hl : 0 < l.length) :
    (rotateMin l)[0]'(by rw [(rotateMin_perm l).length_eq]; exact hl) = l.min?.getD 0 := by
  obtain ⟨a, ha⟩ : ∃ a, l.min? = some a := by
    cases h : l.min? with
    | none => simp at h; subst h; simp at hl
    | some a => exact ⟨a, rfl⟩
  have hmem : a ∈ l := (List.min?_eq_some_iff.1 ha).1
  have hlt : l.idxOf a < l.length := List.idxOf_lt_length_iff.2 hmem
  simp only [rotateMin, ha, Option.getD_some]
  rw [List.getElem_append_left (by simpa using hlt)]
  simp

theorem rotateMin_eq_of_isRotated {l l' : List ℕ} (hnd : l.Nodup) (h : l ~r l') :
    rotateMin l = rotateMin l' := by
  by_cases hl : 0 < l.length
  swap
  · have : l = [] := List.eq_nil_of_length_eq_zero (by omega)
    subst this
    rw [h.perm.nil_eq.symm]
  have hl' : 0 < l'.length := by rw [← h.perm.length_eq]; exact hl
  have hr : rotateMin l ~r rotateMin l' :=
    ((rotateMin_isRotated l).trans h).trans (rotateMin_isRotated l').symm
  have hnd1 : (rotateMin l).Nodup := (rotateMin_perm l).nodup_iff.2 hnd
  obtain ⟨k, hk, hk2⟩ := List.isRotated_iff_mod.1 hr
  have h1 := rotateMin_head l hl
  have h2 := rotateMin_head l' hl'
  rw [min?_eq_of_perm h.perm, ← h2] at h1
  have hlen : 0 < (rotateMin l).length := by rw [(rotateMin_perm l).length_eq]; exact hl
  have h3 : (rotateMin l)[0] = (rotateMin l)[k % (rotateMin l).length]'(Nat.mod_lt _ hlen) := by
    rw [h1]
    simp only [← hk2, List.getElem_rotate, Nat.zero_add]
  have h4 := (hnd1.getElem_inj_iff).1 h3
  rw [← hk2, ← List.rotate_mod, ← h4, List.rotate_zero]

theorem prod_image_congr {ι α β M : Type*} [CommMonoid M] [DecidableEq α] [DecidableEq β]
    (s : Finset ι) (f : ι → α) (g : ι → β) (F : α → M) (G : β → M)
    (hfib : ∀ i ∈ s, ∀ j ∈ s, f i = f j ↔ g i = g j) (h : ∀ i ∈ s, F (f i) = G (g i)) :
    ∏ a ∈ s.image f, F a = ∏ b ∈ s.image g, G b := by
  classical
  induction s using Finset.induction_on with
  | empty => simp
  | insert i s hi ih =>
    have ih := ih (fun a ha b hb => hfib a (by simp [ha]) b (by simp [hb]))
      (fun a ha => h a (by simp [ha]))
    rw [Finset.image_insert, Finset.image_insert]
    have hm : f i ∈ s.image f ↔ g i ∈ s.image g := by
      simp only [Finset.mem_image]
      constructor
      · rintro ⟨j, hj, e⟩
        exact ⟨j, hj, (hfib j (by simp [hj]) i (by simp)).1 e⟩
      · rintro ⟨j, hj, e⟩
        exact ⟨j, hj, (hfib j (by simp [hj]) i (by simp)).2 e⟩
    by_cases hmem : f i ∈ s.image f
    · rw [Finset.insert_eq_of_mem hmem, Finset.insert_eq_of_mem (hm.1 hmem), ih]
    · rw [Finset.prod_insert hmem, Finset.prod_insert (fun h => hmem (hm.2 h)), ih, h i (by simp)]

theorem foldl_sign (l : List (List ℕ)) : ∀ s : ℤ,
    l.foldl (fun s c => if c.length % 2 = 0 then -s else s) s
      = s * (l.map fun c => if c.length % 2 = 0 then (-1 : ℤ) else 1).prod := by
  induction l with
  | nil => simp
  | cons c l ih =>
    intro s
    rw [List.foldl_cons, ih]
    by_cases h : c.length % 2 = 0 <;> simp [h]

theorem sign_tup (σ : Equiv.Perm (Fin n)) (fuel : ℕ) (hf : n ≤ fuel) :
    Perm.sign fuel (tup σ) = some (.ok (Equiv.Perm.sign σ : ℤ)) := by
  rw [Perm.sign, toCycles_eq σ fuel hf]
  simp only
  congr 2
  rw [foldl_sign, one_mul, Finset.prod_map_toList]
  have himg : σ.support.image (cycleOf σ) = σ.cycleFactorsFinset := by
    ext c
    simp only [Finset.mem_image]
    constructor
    · rintro ⟨x, hx, rfl⟩
      exact cycleOf_mem_cycleFactorsFinset_iff.2 hx
    · intro hc
      obtain ⟨x, hx⟩ := (mem_cycleFactorsFinset_iff.1 hc).1.nonempty_support
      refine ⟨x, mem_cycleFactorsFinset_support_le hc hx, ?_⟩
      exact (cycle_is_cycleOf hx hc).symm
  have hfib : ∀ i ∈ σ.support, ∀ j ∈ σ.support,
      rotateMin ((toList σ i).map Fin.val) = rotateMin ((toList σ j).map Fin.val) ↔
        cycleOf σ i = cycleOf σ j := by
    intro i hi j hj
    constructor
    · intro h
      have hp : ((toList σ i).map Fin.val).Perm ((toList σ j).map Fin.val) :=
        (rotateMin_perm _).symm.trans (h ▸ rotateMin_perm _)
      have hmem : (i : ℕ) ∈ (toList σ j).map Fin.val := by
        rw [← hp.mem_iff]
        exact List.mem_map.2 ⟨i, mem_toList_iff.2 ⟨SameCycle.refl _ _, hi⟩, rfl⟩
      obtain ⟨i', hi', he⟩ := List.mem_map.1 hmem
      have : i' = i := Fin.ext he
      subst this
      exact ((mem_toList_iff.1 hi').1).symm.cycleOf_eq
    · intro h
      have hsc : SameCycle σ i j := by
        by_contra hc
        have hi' : i ∈ (cycleOf σ i).support := by
          rw [mem_support, cycleOf_apply_self]; exact mem_support.1 hi
        rw [h, mem_support_cycleOf_iff] at hi'
        exact hc hi'.1.symm
      refine rotateMin_eq_of_isRotated ?_ (hsc.toList_isRotated.map _)
      exact (nodup_toList σ i).map Fin.val_injective
  rw [prod_image_congr σ.support _ (cycleOf σ)
    (fun c => if c.length % 2 = 0 then (-1 : ℤ) else 1)
    (fun c => if c.support.card % 2 = 0 then (-1 : ℤ) else 1) hfib
    (fun i _ => by simp [(rotateMin_perm _).length_eq])]
  rw [himg, sign_of_cycleType', cycleType_def]
  rw [Multiset.map_map, ← Finset.prod_eq_multiset_prod, Units.coe_prod]
  refine Finset.prod_congr rfl fun c _ => ?_
  simp only [Function.comp]
  rcases Nat.even_or_odd c.support.card with h | h
  · rw [if_pos (Nat.even_iff.1 h), h.neg_one_pow]; rfl
  · rw [if_neg (by rw [Nat.odd_iff.1 h]; decide), h.neg_one_pow]; rfl

end LieNN.Perm
