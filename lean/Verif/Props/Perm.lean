import Verif.Proofs.PermGroup
import Verif.Proofs.PermSign

/-!
# Properties C01 – C05: permutation tuples

`tup σ` is the tuple of values of the bijection `σ` of `{0,…,n-1}` (`Verif/Spec/Perm.lean`).
All statements are about the model functions of `Verif/Model/Perm.lean`.
-/
namespace LieNN.Props
open LieNN.Spec LieNN.Perm

/-- `is_perm` accepts exactly the tuples of bijections. -/
theorem C01_isPerm_iff (p : List ℕ) :
    isPerm p = true ↔ ∃ σ : Equiv.Perm (Fin p.length), tup σ = p := isPerm_iff p

/-- `from_int(·, n)` and `to_int` are mutually inverse bijections between `{0..n!-1}` and the
permutation tuples of length `n`. -/
theorem C01_numbering (n : ℕ) :
    (∀ i < n.factorial, ∃ σ : Equiv.Perm (Fin n),
        fromInt i n = .ok (tup σ) ∧ toInt (tup σ) = .ok i) ∧
    (∀ σ : Equiv.Perm (Fin n), ∃ i < n.factorial,
        toInt (tup σ) = .ok i ∧ fromInt i n = .ok (tup σ)) :=
  ⟨fun _ hi => fromInt_spec hi, fun σ => toInt_spec σ⟩

/-- Distinct numbers give distinct permutations. -/
theorem C01_fromInt_injective (n i j : ℕ) (hi : i < n.factorial) (hj : j < n.factorial)
    (h : fromInt i n = fromInt j n) : i = j := by
  obtain ⟨σ, h1, h2⟩ := fromInt_spec hi
  obtain ⟨τ, h3, h4⟩ := fromInt_spec hj
  rw [h1, h3] at h
  rw [← Except.ok.inj h, h2] at h4
  exact Except.ok.inj h4

/-- `group(n)` is exactly the set of tuples of all bijections; it has `n!` elements. -/
theorem C01_group (n : ℕ) : ∃ g : Finset (List ℕ), group n = .ok g ∧ g.card = n.factorial ∧
    ∀ p, p ∈ g ↔ ∃ σ : Equiv.Perm (Fin n), tup σ = p := by
  refine ⟨_, group_spec n, ?_, by simp⟩
  rw [Finset.card_image_of_injective _ tup_injective, Finset.card_univ, Fintype.card_perm,
    Fintype.card_fin]

/-- `rand(n)` is uniform: of the `n!` equally likely draws exactly one returns a given permutation, and
every draw returns a permutation. -/
theorem C01_rand_uniform (n : ℕ) : (randOutcomes n).length = n.factorial ∧
    (∀ x ∈ randOutcomes n, ∃ σ : Equiv.Perm (Fin n), x = .ok (tup σ)) ∧
    ∀ σ : Equiv.Perm (Fin n), ∃! k : ℕ, (randOutcomes n)[k]? = some (Except.ok (tup σ)) := by
  have hpos := n.factorial_pos
  have hlen : n.factorial - 1 + 1 - 0 = n.factorial := by omega
  have hget : ∀ k x, (randOutcomes n)[k]? = some x ↔ k < n.factorial ∧ fromInt k n = x := by
    intro k x
    simp only [randOutcomes, hlen, List.getElem?_map, Option.map_eq_some_iff]
    constructor
    · rintro ⟨a, ha, rfl⟩
      obtain ⟨hk, rfl⟩ := List.getElem?_eq_some_iff.1 ha
      simp only [List.length_range'] at hk
      simp [hk]
    · rintro ⟨hk, rfl⟩
      exact ⟨k, by rw [List.getElem?_eq_some_iff]; exact ⟨by simpa using hk, by simp⟩, rfl⟩
  refine ⟨by simp [randOutcomes, hlen], fun x hx => ?_, fun σ => ?_⟩
  · obtain ⟨k, hk⟩ := List.mem_iff_getElem?.1 hx
    obtain ⟨h1, h2⟩ := (hget k x).1 hk
    obtain ⟨σ, h3, -⟩ := fromInt_spec h1
    exact ⟨σ, by rw [← h2, h3]⟩
  · obtain ⟨i, hi, -, h2⟩ := toInt_spec σ
    refine ⟨i, (hget _ _).2 ⟨hi, h2⟩, fun j hj => ?_⟩
    obtain ⟨h3, h4⟩ := (hget _ _).1 hj
    exact C01_fromInt_injective n j i h3 hi (h4.trans h2.symm)

/-- Non-vacuity of `C01_numbering`: a concrete non-trivial number. -/
example : ∃ i < Nat.factorial 4, fromInt i 4 = .ok [3, 1, 0, 2] ∧ toInt [3, 1, 0, 2] = .ok i :=
  ⟨7, by decide, by decide, by decide⟩

/-! ### C02 -/

/-- The group laws of `compose`, `identity`, `inverse` on permutation tuples of length `n`:
the functions never raise there and realise composition of bijections. -/
theorem C02_group_laws (n : ℕ) (σ τ : Equiv.Perm (Fin n)) :
    compose (tup σ) (tup τ) = .ok (tup (σ * τ)) ∧
    identity n = tup (1 : Equiv.Perm (Fin n)) ∧
    inverse (tup σ) = .ok (tup σ⁻¹) :=
  ⟨compose_tup σ τ, identity_eq n, inverse_tup σ⟩

/-- The same laws in terms of tuples only: associativity, neutrality, two-sided inverse, and the
pointwise description of `compose`. -/
theorem C02_laws_on_tuples (p q r : List ℕ) (hp : isPerm p = true) (hq : isPerm q = true)
    (hr : isPerm r = true) (h1 : p.length = q.length) (h2 : q.length = r.length) :
    (∃ pq, compose p q = .ok pq ∧ isPerm pq = true ∧ pq.length = p.length ∧
      (∀ i < p.length, pq[i]? = p[q.getD i 0]?) ∧
      ∃ qr, compose q r = .ok qr ∧ compose pq r = compose p qr) ∧
    compose p (identity p.length) = .ok p ∧ compose (identity p.length) p = .ok p ∧
    (∃ p', inverse p = .ok p' ∧ isPerm p' = true ∧ p'.length = p.length ∧
      compose p p' = .ok (identity p.length) ∧ compose p' p = .ok (identity p.length)) := by
  obtain ⟨σ, hσ⟩ := exists_tup_of_isPerm hp rfl
  obtain ⟨τ, hτ⟩ := exists_tup_of_isPerm hq h1.symm
  obtain ⟨ρ, hρ⟩ := exists_tup_of_isPerm hr (h1.trans h2).symm
  clear hp hq hr h1 h2
  generalize p.length = n at *
  subst hσ; subst hτ; subst hρ
  refine ⟨⟨_, compose_tup σ τ, isPerm_tup _, by simp, ?_, _, compose_tup τ ρ, ?_⟩, ?_, ?_,
    ⟨_, inverse_tup σ, isPerm_tup _, by simp, ?_, ?_⟩⟩
  · intro i hi
    have e1 := tup_getD τ ⟨i, hi⟩ 0
    have e2 := tup_getElem? (σ * τ) ⟨i, hi⟩
    simp only at e1 e2
    rw [e1, e2, tup_getElem?]; rfl
  · rw [compose_tup, compose_tup, mul_assoc]
  · rw [identity_eq, compose_tup, mul_one]
  · rw [identity_eq, compose_tup, one_mul]
  · rw [identity_eq, compose_tup, mul_inv_cancel]
  · rw [identity_eq, compose_tup, inv_mul_cancel]

/-- `compose` raises (an `AssertionError`) exactly when an argument is not a permutation or the
lengths differ. -/
theorem C02_compose_rejects (p1 p2 : List ℕ) :
    compose p1 p2 = .error .assertionError ↔
      ¬ (isPerm p1 = true ∧ isPerm p2 = true ∧ p1.length = p2.length) := by
  constructor
  · intro h hok
    obtain ⟨q, hq⟩ := (compose_ok_iff p1 p2).2 hok
    rw [h] at hq; cases hq
  · exact compose_error p1 p2

example : isPerm [2, 0, 1] = true ∧ isPerm [1, 0, 2] = true ∧ isPerm [0, 0, 1] = false ∧
    (∃ q, compose [2, 0, 1] [1, 0, 2] = .ok q) ∧
    compose [2, 0, 1] [1, 0] = .error .assertionError := by
  have h : ∀ p : List ℕ, isPerm p = decide (p.Perm (List.range p.length)) := fun p => by
    have := isPerm_iff_perm_range p
    by_cases hp : p.Perm (List.range p.length)
    · simp [hp, this.2 hp]
    · have hf : ¬ isPerm p = true := fun h => hp (this.1 h)
      simpa [hp] using hf
  simp only [compose_ok_iff, C02_compose_rejects, h]
  decide

/-! ### C03 -/

/-- `germinate` halts on every non-empty set of permutation tuples of one length and returns the
subgroup generated by it. -/
theorem C03_germinate (n : ℕ) (S : Finset (Equiv.Perm (Fin n))) (hS : S.Nonempty) :
    ∃ (N : ℕ) (R : Finset (List ℕ)),
      (∀ fuel ≥ N, germinate fuel (S.image tup) = some (.ok R)) ∧
      (R : Set (List ℕ)) =
        tup '' (Subgroup.closure (S : Set (Equiv.Perm (Fin n))) : Set (Equiv.Perm (Fin n))) := by
  obtain ⟨R, h1, h2⟩ := germinate_spec S hS (Fintype.card (Equiv.Perm (Fin n)) + 1) (by omega)
  refine ⟨Fintype.card (Equiv.Perm (Fin n)) + 1, R.image tup, ?_, ?_⟩
  · intro fuel hf
    obtain ⟨R', h1', h2'⟩ := germinate_spec S hS fuel (by omega)
    have : R' = R := by
      apply Finset.coe_injective
      rw [h2, h2']
    rw [h1', this]
  · rw [Finset.coe_image, h2]

/-- The result passes `is_group` and contains the identity. -/
theorem C03_germinate_is_group (n : ℕ) (S : Finset (Equiv.Perm (Fin n))) (hS : S.Nonempty)
    (fuel : ℕ) (R : Finset (List ℕ)) (h : germinate fuel (S.image tup) = some (.ok R)) :
    isGroup R = .ok true ∧ identity n ∈ R := by
  have mono : ∀ fuel T R, germinate fuel T = some (.ok R) → ∀ k, germinate (fuel + k) T = some (.ok R) := by
    intro fuel
    induction fuel with
    | zero => intro T R h; simp [germinate] at h
    | succ fuel ih =>
      intro T R h k
      rw [Nat.succ_add]
      simp only [germinate] at h ⊢
      cases hs : germinateStep T with
      | error e => rw [hs] at h; simp at h
      | ok T' =>
        rw [hs] at h
        simp only at h ⊢
        split_ifs at h ⊢ with hc
        · exact h
        · exact ih _ _ h k
  obtain ⟨N, R', h1, h2⟩ := C03_germinate n S hS
  have e1 := mono _ _ _ h N
  rw [h1 _ (by omega)] at e1
  have : R' = R := by simpa using e1
  subst this
  refine ⟨(isGroup_true_iff R').2 ⟨n, _, h2⟩, ?_⟩
  rw [← Finset.mem_coe, h2, identity_eq]
  exact ⟨1, Subgroup.one_mem _, rfl⟩

/-- `germinate` of the empty set is the empty set (so it is not a group). -/
theorem C03_germinate_empty (fuel : ℕ) : germinate (fuel + 1) ∅ = some (.ok ∅) := by
  have := germinateStep_tup (n := 0) ∅
  simp only [Finset.image_empty, stepSet, Finset.union_empty, Finset.empty_product] at this
  simp [germinate, this]

/-- Non-vacuity: a generating set of a non-trivial group. -/
example : ({Equiv.swap 0 1, finRotate 3} : Finset (Equiv.Perm (Fin 3))).Nonempty := by simp

/-! ### C04 -/

/-- `is_group` returns `True` exactly for (the tuples of) subgroups — on every finite set of integer
tuples whatsoever. -/
theorem C04_is_group (g : Finset (List ℕ)) : isGroup g = .ok true ↔
    ∃ (n : ℕ) (H : Subgroup (Equiv.Perm (Fin n))),
      (g : Set (List ℕ)) = tup '' (H : Set (Equiv.Perm (Fin n))) := isGroup_true_iff g

/-- On permutation tuples of one length it never raises, so it returns `False` on all other sets. -/
theorem C04_is_group_decides (n : ℕ) (S : Finset (Equiv.Perm (Fin n))) :
    (isGroup (S.image tup) = .ok true ∧
      ∃ H : Subgroup (Equiv.Perm (Fin n)), (S : Set (Equiv.Perm (Fin n))) = H) ∨
    (isGroup (S.image tup) = .ok false ∧
      ¬ ∃ H : Subgroup (Equiv.Perm (Fin n)), (S : Set (Equiv.Perm (Fin n))) = H) := by
  have key : isGroup (S.image tup) = .ok true ↔
      ∃ H : Subgroup (Equiv.Perm (Fin n)), (S : Set (Equiv.Perm (Fin n))) = H := by
    rw [isGroup_true_iff]
    constructor
    · rintro ⟨m, H, h⟩
      have hne : tup (1 : Equiv.Perm (Fin m)) ∈ ((S.image tup : Finset (List ℕ)) : Set (List ℕ)) := by
        rw [h]; exact ⟨1, H.one_mem, rfl⟩
      have hm : m = n := by
        obtain ⟨σ, _, hσ⟩ := Finset.mem_image.1 (Finset.mem_coe.1 hne)
        have := congrArg List.length hσ
        simpa using this.symm
      subst hm
      refine ⟨H, ?_⟩
      rw [Finset.coe_image] at h
      exact tup_injective.image_injective h
    · rintro ⟨H, h⟩
      exact ⟨n, H, by rw [Finset.coe_image, h]⟩
  obtain ⟨b, hb⟩ := isGroup_no_error S
  cases b with
  | true => exact .inl ⟨hb, key.1 hb⟩
  | false =>
    refine .inr ⟨hb, fun h => ?_⟩
    rw [key.2 h] at hb
    cases hb

theorem C04_empty : isGroup ∅ = .ok false := by simp [isGroup]

/-! ### C05 -/

/-- Both sign functions return the signature of the permutation; `to_cycles` terminates
(`n` tests of the inner loop condition always suffice). -/
theorem C05_signs (n : ℕ) (σ : Equiv.Perm (Fin n)) :
    (∀ fuel ≥ n, Perm.sign fuel (tup σ) = some (.ok (Equiv.Perm.sign σ : ℤ))) ∧
    permutationSign (tup σ) = (Equiv.Perm.sign σ : ℤ) :=
  ⟨fun fuel hf => sign_tup σ fuel hf, permutationSign_tup σ⟩

/-- Multiplicativity, stated on tuples. -/
theorem C05_multiplicative (n : ℕ) (σ τ : Equiv.Perm (Fin n)) :
    ∃ q, compose (tup σ) (tup τ) = .ok q ∧
      permutationSign q = permutationSign (tup σ) * permutationSign (tup τ) ∧
      ∃ a b c : ℤ, Perm.sign n (tup σ) = some (.ok a) ∧ Perm.sign n (tup τ) = some (.ok b) ∧
        Perm.sign n q = some (.ok c) ∧ c = a * b ∧ (c = 1 ∨ c = -1) := by
  refine ⟨_, compose_tup σ τ, ?_, _, _, _, sign_tup σ n le_rfl, sign_tup τ n le_rfl,
    sign_tup (σ * τ) n le_rfl, ?_, ?_⟩
  · rw [permutationSign_tup, permutationSign_tup, permutationSign_tup, Equiv.Perm.sign_mul]; rfl
  · rw [Equiv.Perm.sign_mul]; rfl
  · rcases Int.units_eq_one_or (Equiv.Perm.sign (σ * τ)) with h | h <;> simp [h]

/-- Non-vacuity: an odd permutation with a fixed point. -/
example : permutationSign [0, 2, 1] = -1 ∧ permutationSign [2, 0, 1] = 1 := by decide

end LieNN.Props
