import Verif.Model.Perm
import Verif.Spec.Perm
import Mathlib.Data.List.FinRange
import Mathlib.Tactic.Ring
import Mathlib.Data.List.NodupEquivFin

namespace LieNN.Perm
open LieNN.Spec

variable {n : ℕ}

@[simp] theorem length_tup (σ : Equiv.Perm (Fin n)) : (tup σ).length = n := by simp [tup]

theorem tup_getElem? (σ : Equiv.Perm (Fin n)) (i : Fin n) : (tup σ)[(i : ℕ)]? = some (σ i : ℕ) := by
  simp [tup]

theorem tup_getElem (σ : Equiv.Perm (Fin n)) (i : ℕ) (h : i < (tup σ).length) :
    (tup σ)[i] = (σ ⟨i, by simpa using h⟩ : ℕ) := by
  simp [tup]

theorem tup_getD (σ : Equiv.Perm (Fin n)) (i : Fin n) (d : ℕ) :
    (tup σ).getD (i : ℕ) d = (σ i : ℕ) := by
  rw [List.getD, tup_getElem?]; rfl

theorem tup_injective : Function.Injective (tup : Equiv.Perm (Fin n) → List ℕ) := by
  intro σ τ h
  ext i
  have := congrArg (fun l => l.getD (i : ℕ) 0) h
  simp only [tup_getD] at this
  exact this

theorem nodup_tup (σ : Equiv.Perm (Fin n)) : (tup σ).Nodup := by
  rw [tup, List.nodup_ofFn]
  intro i j h
  exact σ.injective (Fin.ext h)

theorem mem_tup (σ : Equiv.Perm (Fin n)) (i : ℕ) : i ∈ tup σ ↔ i < n := by
  simp only [tup, List.mem_ofFn]
  constructor
  · rintro ⟨j, rfl⟩; exact (σ j).2
  · intro h; exact ⟨σ.symm ⟨i, h⟩, by simp⟩

theorem tup_perm_range (σ : Equiv.Perm (Fin n)) : (tup σ).Perm (List.range n) := by
  rw [List.perm_ext_iff_of_nodup (nodup_tup σ) List.nodup_range]
  intro a; simp [mem_tup]

theorem exists_tup_of_perm_range {p : List ℕ} (h : p.Perm (List.range n)) :
    ∃ σ : Equiv.Perm (Fin n), tup σ = p := by
  have hl : p.length = n := by simpa using h.length_eq
  subst hl
  have hnd : p.Nodup := h.nodup_iff.2 List.nodup_range
  have hlt : ∀ i : Fin p.length, p[i] < p.length := fun i => by
    have : p[i] ∈ List.range p.length := h.mem_iff.1 (by simp)
    simpa using this
  let f : Fin p.length → Fin p.length := fun i => ⟨p[i], hlt i⟩
  have hf : Function.Injective f := by
    intro i j hij
    have : p[i] = p[j] := congrArg Fin.val hij
    exact Fin.ext ((hnd.getElem_inj_iff).1 this)
  refine ⟨Equiv.ofBijective f (Finite.injective_iff_bijective.1 hf), ?_⟩
  apply List.ext_getElem
  · simp
  · intro i h1 h2
    rw [tup_getElem]
    simp [f]

theorem isPerm_iff_perm_range (p : List ℕ) : isPerm p = true ↔ p.Perm (List.range p.length) := by
  simp only [isPerm, beq_iff_eq]
  constructor
  · intro h
    have hnd : p.Nodup := by
      have h1 : p.toFinset.card = p.length := by
        have := congrArg List.length h
        simpa using this
      exact (Multiset.toFinset_card_eq_card_iff_nodup (m := (p : Multiset ℕ))).1 h1
    rw [List.perm_ext_iff_of_nodup hnd List.nodup_range]
    intro a
    rw [← h]; simp
  · intro h
    apply List.Perm.eq_of_pairwise (le := (· ≤ ·))
    · intro a b _ _ h1 h2; exact le_antisymm h1 h2
    · exact Finset.pairwise_sort _ _
    · have := List.pairwise_lt_range (n := p.length)
      exact this.imp (fun h => le_of_lt h)
    · have hnd : p.Nodup := h.nodup_iff.2 List.nodup_range
      refine (List.perm_ext_iff_of_nodup (Finset.sort_nodup _ _) List.nodup_range).2 ?_
      intro a
      have := h.mem_iff (a := a)
      simpa using this

theorem isPerm_iff (p : List ℕ) : isPerm p = true ↔ ∃ σ : Equiv.Perm (Fin p.length), tup σ = p := by
  rw [isPerm_iff_perm_range]
  constructor
  · exact exists_tup_of_perm_range
  · rintro ⟨σ, h⟩
    have := tup_perm_range σ
    rwa [h] at this

theorem exists_tup_of_isPerm {p : List ℕ} (h : isPerm p = true) (hl : p.length = n) :
    ∃ σ : Equiv.Perm (Fin n), tup σ = p := by
  subst hl
  exact (isPerm_iff p).1 h

theorem isPerm_tup (σ : Equiv.Perm (Fin n)) : isPerm (tup σ) = true := by
  rw [isPerm_iff_perm_range]
  simpa using tup_perm_range σ

theorem identity_eq (n : ℕ) : identity n = tup (1 : Equiv.Perm (Fin n)) := by
  apply List.ext_getElem
  · simp [identity]
  · intro i h1 h2
    rw [tup_getElem]; simp [identity]

theorem compose_tup (σ τ : Equiv.Perm (Fin n)) : compose (tup σ) (tup τ) = .ok (tup (σ * τ)) := by
  have hl : (List.range n).map (fun i => (tup σ).getD ((tup τ).getD i 0) 0) = tup (σ * τ) := by
    apply List.ext_getElem
    · simp
    · intro i h1 h2
      have hi : i < n := by simpa using h1
      rw [tup_getElem]
      have e1 : (tup τ).getD i 0 = (τ ⟨i, hi⟩ : ℕ) := tup_getD τ ⟨i, hi⟩ 0
      simp only [List.getElem_map, List.getElem_range, e1, tup_getD, Equiv.Perm.mul_apply]
  simp only [compose, pyAssert, isPerm_tup, length_tup, and_self, if_true]
  show Except.ok _ = _
  rw [hl]

theorem compose_ok_iff (p1 p2 : List ℕ) :
    (∃ q, compose p1 p2 = .ok q) ↔ (isPerm p1 = true ∧ isPerm p2 = true ∧ p1.length = p2.length) := by
  constructor
  · rintro ⟨q, h⟩
    simp only [compose, pyAssert] at h
    by_cases h1 : isPerm p1 = true ∧ isPerm p2 = true
    · by_cases h2 : p1.length = p2.length
      · exact ⟨h1.1, h1.2, h2⟩
      · simp [h1, h2] at h
        cases h
    · rw [if_neg h1] at h
      cases h
  · rintro ⟨h1, h2, h3⟩
    exact ⟨_, by simp only [compose, pyAssert, h1, h2, h3, and_self, if_true]; rfl⟩

theorem compose_error (p1 p2 : List ℕ)
    (h : ¬ (isPerm p1 = true ∧ isPerm p2 = true ∧ p1.length = p2.length)) :
    compose p1 p2 = .error .assertionError := by
  by_cases h1 : isPerm p1 = true ∧ isPerm p2 = true
  · have h2 : ¬ p1.length = p2.length := fun h2 => h ⟨h1.1, h1.2, h2⟩
    simp only [compose, pyAssert, if_pos h1, if_neg h2]; rfl
  · simp only [compose, pyAssert, if_neg h1]; rfl

theorem mapM_ok {α β : Type} (l : List α) (f : α → Py β) (g : α → β)
    (h : ∀ a ∈ l, f a = .ok (g a)) : l.mapM f = .ok (l.map g) := by
  induction l with
  | nil => rfl
  | cons a l ih =>
    rw [List.mapM_cons, h a (by simp), ih (fun b hb => h b (by simp [hb]))]
    rfl

theorem idxOf_tup (σ : Equiv.Perm (Fin n)) (i : Fin n) :
    (tup σ).idxOf (i : ℕ) = (σ⁻¹ i : Fin n) := by
  have h1 := (nodup_tup σ).idxOf_getElem (σ⁻¹ i : Fin n).1 (by simp)
  rw [tup_getElem] at h1
  simpa using h1

theorem inverse_tup (σ : Equiv.Perm (Fin n)) : inverse (tup σ) = .ok (tup σ⁻¹) := by
  have h : ∀ i ∈ List.range (tup σ).length, index (tup σ) i = .ok ((tup σ).idxOf i) := by
    intro i hi
    have : i ∈ tup σ := by simpa [mem_tup] using hi
    simp [index, this]
  rw [inverse, mapM_ok _ _ _ h]
  congr 1
  apply List.ext_getElem
  · simp
  · intro i h1 h2
    have hi : i < n := by simpa using h1
    rw [tup_getElem]
    simpa using idxOf_tup σ ⟨i, hi⟩

/-! ### numbering -/

theorem fromIntLoop_spec : ∀ (n : ℕ) (pool : List ℕ), pool.length = n → pool.Nodup → ∀ i : ℕ,
    i < n.factorial → ∃ p : List ℕ, p.Perm pool ∧
      (∀ acc, fromIntLoop n n pool i acc = .ok (acc ++ p)) ∧
      (∀ i0 m, toIntLoop p pool i0 m = .ok (i0 + i * m)) := by
  intro n
  induction n with
  | zero =>
    intro pool hl _ i hi
    have : pool = [] := List.length_eq_zero_iff.1 hl
    subst this
    have : i = 0 := by simpa using hi
    subst this
    exact ⟨[], .nil, by simp [fromIntLoop], by simp [toIntLoop]⟩
  | succ n ih =>
    intro pool hl hnd i hi
    have hj : i % (n + 1) < pool.length := by rw [hl]; exact Nat.mod_lt _ (by omega)
    have hi' : i / (n + 1) < n.factorial := by
      rw [Nat.div_lt_iff_lt_mul (by omega)]
      rwa [Nat.factorial_succ, mul_comm] at hi
    obtain ⟨p, hp, h1, h2⟩ := ih (pool.eraseIdx (i % (n + 1)))
      (by rw [List.length_eraseIdx_of_lt hj, hl]; omega)
      (hnd.sublist (List.eraseIdx_sublist _ _)) _ hi'
    refine ⟨pool[i % (n + 1)] :: p, ?_, ?_, ?_⟩
    · refine (hp.cons _).trans ?_
      exact List.getElem_cons_eraseIdx_perm hj
    · intro acc
      simp only [fromIntLoop, Nat.succ_ne_zero, if_false, List.getElem?_eq_getElem hj]
      rw [Nat.add_sub_cancel, h1]
      simp
    · intro i0 m
      simp only [toIntLoop, index, List.getElem_mem, if_true]
      show toIntLoop p (pool.eraseIdx (pool.idxOf pool[i % (n + 1)])) _ _ = _
      rw [hnd.idxOf_getElem, h2, hl]
      congr 1
      have := Nat.mod_add_div i (n + 1)
      calc i0 + i % (n + 1) * m + i / (n + 1) * (m * (n + 1))
          = i0 + (i % (n + 1) + (n + 1) * (i / (n + 1))) * m := by ring
        _ = _ := by rw [this]

theorem toIntLoop_spec : ∀ (n : ℕ) (pool : List ℕ), pool.length = n → pool.Nodup → ∀ p : List ℕ,
    p.Perm pool → ∃ i < n.factorial,
      (∀ acc, fromIntLoop n n pool i acc = .ok (acc ++ p)) ∧
      (∀ i0 m, toIntLoop p pool i0 m = .ok (i0 + i * m)) := by
  intro n
  induction n with
  | zero =>
    intro pool hl _ p hp
    have : pool = [] := List.length_eq_zero_iff.1 hl
    subst this
    have : p = [] := hp.eq_nil
    subst this
    exact ⟨0, by simp, by simp [fromIntLoop], by simp [toIntLoop]⟩
  | succ n ih =>
    intro pool hl hnd p hp
    match p, hp with
    | [], hp => rw [← hp.nil_eq] at hl; simp at hl
    | x :: p, hp =>
      have hx : x ∈ pool := hp.mem_iff.1 (by simp)
      have hj : pool.idxOf x < pool.length := List.idxOf_lt_length_iff.2 hx
      have hjn : pool.idxOf x < n + 1 := hl ▸ hj
      have hget : pool[pool.idxOf x] = x := List.getElem_idxOf hj
      have hp' : p.Perm (pool.eraseIdx (pool.idxOf x)) := by
        have h1 := List.getElem_cons_eraseIdx_perm hj
        rw [hget] at h1
        exact (hp.trans h1.symm).cons_inv
      obtain ⟨i, hi, h1, h2⟩ := ih (pool.eraseIdx (pool.idxOf x))
        (by rw [List.length_eraseIdx_of_lt hj, hl]; omega)
        (hnd.sublist (List.eraseIdx_sublist _ _)) p hp'
      have hmod : (pool.idxOf x + (n + 1) * i) % (n + 1) = pool.idxOf x := by
        rw [Nat.add_mul_mod_self_left, Nat.mod_eq_of_lt hjn]
      have hdiv : (pool.idxOf x + (n + 1) * i) / (n + 1) = i := by
        rw [Nat.add_mul_div_left _ _ (by omega), Nat.div_eq_of_lt hjn, zero_add]
      refine ⟨pool.idxOf x + (n + 1) * i, ?_, ?_, ?_⟩
      · rw [Nat.factorial_succ]
        calc pool.idxOf x + (n + 1) * i < (n + 1) + (n + 1) * i := by omega
          _ = (n + 1) * (i + 1) := by ring
          _ ≤ (n + 1) * n.factorial := Nat.mul_le_mul_left _ hi
      · intro acc
        simp only [fromIntLoop, Nat.succ_ne_zero, if_false, hmod, hdiv,
          List.getElem?_eq_getElem hj, hget]
        rw [Nat.add_sub_cancel, h1]
        simp
      · intro i0 m
        simp only [toIntLoop, index, hx, if_true]
        show toIntLoop p (pool.eraseIdx (pool.idxOf x)) _ _ = _
        rw [h2, hl]
        congr 1
        ring

theorem fromInt_spec {i n : ℕ} (hi : i < n.factorial) :
    ∃ σ : Equiv.Perm (Fin n), fromInt i n = .ok (tup σ) ∧ toInt (tup σ) = .ok i := by
  obtain ⟨p, hp, h1, h2⟩ := fromIntLoop_spec n (List.range n) (by simp) List.nodup_range i hi
  obtain ⟨σ, rfl⟩ := exists_tup_of_perm_range hp
  refine ⟨σ, by simpa [fromInt] using h1 [], ?_⟩
  have := h2 0 1
  simpa [toInt] using this

theorem toInt_spec (σ : Equiv.Perm (Fin n)) :
    ∃ i < n.factorial, toInt (tup σ) = .ok i ∧ fromInt i n = .ok (tup σ) := by
  obtain ⟨i, hi, h1, h2⟩ := toIntLoop_spec n (List.range n) (by simp) List.nodup_range _
    (tup_perm_range σ)
  refine ⟨i, hi, ?_, by simpa [fromInt] using h1 []⟩
  have := h2 0 1
  simpa [toInt] using this

theorem group_spec (n : ℕ) : group n = .ok (Finset.univ.image (tup : Equiv.Perm (Fin n) → _)) := by
  have h : ∀ i ∈ List.range n.factorial, fromInt i n =
      .ok (if h : i < n.factorial then tup (fromInt_spec h).choose else []) := by
    intro i hi
    have hi' : i < n.factorial := by simpa using hi
    rw [dif_pos hi']
    exact (fromInt_spec hi').choose_spec.1
  rw [group, mapM_ok _ _ _ h]
  show Except.ok _ = _
  congr 1
  ext p
  simp only [List.mem_toFinset, List.mem_map, List.mem_range, Finset.mem_image, Finset.mem_univ,
    true_and]
  constructor
  · rintro ⟨i, hi, rfl⟩
    rw [dif_pos hi]
    exact ⟨_, rfl⟩
  · rintro ⟨σ, rfl⟩
    obtain ⟨i, hi, _, h2⟩ := toInt_spec σ
    refine ⟨i, hi, ?_⟩
    rw [dif_pos hi]
    have := (fromInt_spec hi).choose_spec.1
    rw [this] at h2
    exact Except.ok.inj h2

end LieNN.Perm
