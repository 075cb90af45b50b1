import Verif.Proofs.PermRepr

/-! # Restriction of a signed permutation group: `subrepr_permutation` -/
namespace LieNN.PermRepr
open LieNN.Spec LieNN.Perm

variable {n : ℕ}

theorem tup_eq_map (σ : Equiv.Perm (Fin n)) :
    tup σ = (List.finRange n).map fun k => ((σ k : Fin n) : ℕ) := by
  rw [tup, List.ofFn_eq_map]

theorem filter_finRange (sub : Finset (Fin n)) :
    (List.finRange n).filter (· ∈ sub) = List.ofFn (sub.orderEmbOfFin rfl) := by
  apply List.Perm.eq_of_sortedLE
  · exact List.Pairwise.sortedLE ((List.pairwise_le_finRange n).filter _)
  · exact (sub.orderEmbOfFin rfl).strictMono.monotone.sortedLE_ofFn
  · rw [List.perm_ext_iff_of_nodup ((List.nodup_finRange n).filter _)
      (List.nodup_ofFn.2 (sub.orderEmbOfFin rfl).injective)]
    intro k
    have := congrArg (k ∈ ·) (Finset.range_orderEmbOfFin sub rfl)
    simp only [Set.mem_range, Finset.mem_coe, eq_iff_iff] at this
    simp [List.mem_ofFn, this]

theorem sort_image_val (sub : Finset (Fin n)) :
    (sub.image Fin.val).sort (· ≤ ·) = List.ofFn fun j => ((sub.orderEmbOfFin rfl j : Fin n) : ℕ) := by
  apply List.Perm.eq_of_sortedLE
  · exact List.Pairwise.sortedLE (Finset.pairwise_sort _ _)
  · exact Monotone.sortedLE_ofFn (fun a b h => (sub.orderEmbOfFin rfl).monotone h)
  · rw [List.perm_ext_iff_of_nodup (Finset.sort_nodup _ _)
      (List.nodup_ofFn.2 (fun a b h => (sub.orderEmbOfFin rfl).injective (Fin.ext h)))]
    intro k
    simp only [Finset.mem_sort, Finset.mem_image, List.mem_ofFn]
    constructor
    · rintro ⟨a, ha, rfl⟩
      have : a ∈ Set.range (sub.orderEmbOfFin rfl) := by
        rw [Finset.range_orderEmbOfFin]; exact ha
      obtain ⟨j, rfl⟩ := this
      exact ⟨j, rfl⟩
    · rintro ⟨j, rfl⟩
      exact ⟨_, Finset.orderEmbOfFin_mem sub rfl j, rfl⟩

/-- The permutation of the positions. -/
theorem exists_restrict (sub : Finset (Fin n)) (σ : Equiv.Perm (Fin n))
    (h : ∀ k, k ∉ sub → σ k = k) :
    ∃ τ : Equiv.Perm (Fin sub.card),
      ∀ j, σ (sub.orderEmbOfFin rfl j) = sub.orderEmbOfFin rfl (τ j) := by
  have hm : ∀ k, σ k ∈ sub ↔ k ∈ sub := by
    intro k
    constructor
    · intro hk
      by_contra hn
      rw [h k hn] at hk; exact hn hk
    · intro hk
      by_contra hn
      have := h _ hn
      have := σ.injective this
      rw [this] at hn; exact hn hk
  have hex : ∀ j, ∃ i, σ (sub.orderEmbOfFin rfl j) = sub.orderEmbOfFin rfl i := by
    intro j
    have : σ (sub.orderEmbOfFin rfl j) ∈ Set.range (sub.orderEmbOfFin rfl) := by
      rw [Finset.range_orderEmbOfFin]
      exact (hm _).2 (Finset.orderEmbOfFin_mem sub rfl j)
    obtain ⟨i, hi⟩ := this
    exact ⟨i, hi.symm⟩
  choose f hf using hex
  have hinj : Function.Injective f := fun a b hab => by
    have := (hf a).trans ((congrArg _ hab).trans (hf b).symm)
    exact (sub.orderEmbOfFin rfl).injective (σ.injective this)
  exact ⟨Equiv.ofBijective f (Finite.injective_iff_bijective.1 hinj), hf⟩

theorem keep_iff (sub : Finset (Fin n)) (σ : Equiv.Perm (Fin n)) :
    (∀ ji ∈ (tup σ).zipIdx, ji.1 ∈ sub.image Fin.val ∨ ji.1 = ji.2) ↔ ∀ k, k ∉ sub → σ k = k := by
  have hval : ∀ k : Fin n, (k : ℕ) ∈ sub.image Fin.val ↔ k ∈ sub := by
    intro k
    simp only [Finset.mem_image]
    exact ⟨fun ⟨a, ha, hak⟩ => Fin.ext hak ▸ ha, fun h => ⟨k, h, rfl⟩⟩
  have h1 : (∀ ji ∈ (tup σ).zipIdx, ji.1 ∈ sub.image Fin.val ∨ ji.1 = ji.2) ↔
      ∀ k : Fin n, σ k ∈ sub ∨ σ k = k := by
    constructor
    · intro h k
      have := h ((σ k : Fin n), (k : ℕ)) (by
        rw [List.mem_zipIdx_iff_getElem?]
        exact tup_getElem? σ k)
      rwa [hval, Fin.val_inj] at this
    · rintro h ⟨j, i⟩ hji
      rw [List.mem_zipIdx_iff_getElem?] at hji
      simp only at hji
      have hi : i < n := by
        by_contra hge
        rw [List.getElem?_eq_none (by simp [tup]; omega)] at hji
        cases hji
      have := tup_getElem? σ ⟨i, hi⟩
      simp only at this
      rw [this] at hji
      cases hji
      have := h ⟨i, hi⟩
      rw [← hval, ← Fin.val_inj] at this
      exact this
  rw [h1]
  constructor
  · intro h k hk
    rcases h (σ⁻¹ k) with h2 | h2
    · simp at h2; exact absurd h2 hk
    · simp at h2
      nth_rw 1 [h2]
      simp
  · intro h k
    by_cases hk : k ∈ sub
    · left
      by_contra hn
      have := σ.injective (h _ hn)
      rw [this] at hn; exact hn hk
    · exact Or.inr (h k hk)

theorem restrict_tup (sub : Finset (Fin n)) (σ : Equiv.Perm (Fin n)) (τ : Equiv.Perm (Fin sub.card))
    (h : ∀ k, k ∉ sub → σ k = k)
    (hτ : ∀ j, σ (sub.orderEmbOfFin rfl j) = sub.orderEmbOfFin rfl (τ j)) :
    (((tup σ).filter (· ∈ sub.image Fin.val)).map fun i =>
      ((sub.image Fin.val).sort (· ≤ ·)).idxOf i) = tup τ := by
  have hval : ∀ k : Fin n, (k : ℕ) ∈ sub.image Fin.val ↔ k ∈ sub := by
    intro k
    simp only [Finset.mem_image]
    exact ⟨fun ⟨a, ha, hak⟩ => Fin.ext hak ▸ ha, fun h => ⟨k, h, rfl⟩⟩
  have hm : ∀ k, σ k ∈ sub ↔ k ∈ sub := by
    intro k
    constructor
    · intro hk
      by_contra hn
      rw [h k hn] at hk; exact hn hk
    · intro hk
      by_contra hn
      have := σ.injective (h _ hn)
      rw [this] at hn; exact hn hk
  rw [tup_eq_map, List.filter_map]
  have : ((fun x => decide (x ∈ sub.image Fin.val)) ∘ fun k => ((σ k : Fin n) : ℕ)) =
      fun k => decide (k ∈ sub) := by
    funext k
    simp only [Function.comp, decide_eq_decide]
    rw [hval, hm]
  rw [this, filter_finRange, sort_image_val, tup, List.map_map, List.map_ofFn]
  congr 1
  funext j
  simp only [Function.comp, hτ]
  have hnd : (List.ofFn fun j => ((sub.orderEmbOfFin rfl j : Fin n) : ℕ)).Nodup :=
    List.nodup_ofFn.2 (fun a b h => (sub.orderEmbOfFin rfl).injective (Fin.ext h))
  have := List.Nodup.idxOf_getElem hnd (τ j) (by simp)
  simpa using this

theorem subrepr_stup (sub : Finset (Fin n)) (G : Finset (SignedPerm n)) :
    (subrepr (sub.image Fin.val) (G.image stup) : Set SP) = stup '' restrictPerms sub (G : Set _) := by
  ext x
  rw [subrepr, Finset.mem_coe, Finset.mem_image]
  constructor
  · rintro ⟨y, hy, rfl⟩
    obtain ⟨hy, hk⟩ := Finset.mem_filter.1 hy
    obtain ⟨g, hg, rfl⟩ := Finset.mem_image.1 hy
    have hk' := (keep_iff sub g.2).1 hk
    obtain ⟨τ, hτ⟩ := exists_restrict sub g.2 hk'
    refine ⟨(g.1, τ), ⟨g, hg, hk', rfl, hτ⟩, ?_⟩
    simp only [stup, Prod.mk.injEq, true_and]
    exact (restrict_tup sub g.2 τ hk' hτ).symm
  · rintro ⟨⟨u, τ⟩, ⟨g, hg, hk, h1, hτ⟩, rfl⟩
    refine ⟨stup g, Finset.mem_filter.2 ⟨Finset.mem_image.2 ⟨g, hg, rfl⟩,
      (keep_iff sub g.2).2 hk⟩, ?_⟩
    simp only at h1
    subst h1
    simp only [stup, Prod.mk.injEq, true_and]
    exact restrict_tup sub g.2 τ hk hτ

/-- The restriction of a group is a group. -/
theorem restrictPerms_subgroup (sub : Finset (Fin n)) (G : Subgroup (SignedPerm n)) :
    ∃ H : Subgroup (SignedPerm sub.card), (H : Set _) = restrictPerms sub (G : Set _) := by
  refine ⟨{
    carrier := restrictPerms sub (G : Set _)
    mul_mem' := ?_
    one_mem' := ?_
    inv_mem' := ?_ }, rfl⟩
  · rintro ⟨u, σ⟩ ⟨v, τ⟩ ⟨g, hg, hk, h1, h2⟩ ⟨g', hg', hk', h1', h2'⟩
    refine ⟨g * g', mul_mem hg hg', fun k hk0 => ?_, ?_, fun j => ?_⟩
    · simp [Prod.snd_mul, hk' k hk0, hk k hk0]
    · simp only at h1 h1'
      simp [h1, h1']
    · simp only at h2 h2'
      simp [h2', h2]
  · exact ⟨1, one_mem _, fun _ _ => rfl, rfl, fun _ => rfl⟩
  · rintro ⟨u, σ⟩ ⟨g, hg, hk, h1, h2⟩
    refine ⟨g⁻¹, inv_mem hg, fun k hk0 => ?_, ?_, fun j => ?_⟩
    · have := hk k hk0
      simp only [Prod.snd_inv]
      rw [Equiv.Perm.inv_eq_iff_eq, this]
    · simp only at h1
      simp [h1]
    · simp only at h2
      simp only [Prod.snd_inv]
      rw [Equiv.Perm.inv_eq_iff_eq, h2]
      simp

end LieNN.PermRepr
