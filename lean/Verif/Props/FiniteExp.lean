import Verif.Proofs.FiniteExp
import Verif.Props.Finite
/-!
# `exp_map` and equivariant maps of the symmetric group
-/
namespace LieNN.Props

open Matrix Spec LieNN.Finite Semi Module

variable {n h h' : ℕ}

/-- C95: for `n ≥ 3`, `exp_map` of `Sn_natural(n)` never raises and returns the matrix of a power of the transposition times a power of
the cycle; each such product is returned for some parameters. -/
theorem C95_exp_map {r : Rep 0 h n} (hn : 3 ≤ n) (hr : naturalGens n = .ok (List.ofFn fun a => ⟨n, n, r.H a⟩)) :
    (∀ c k, ∃ i j : ℤ, r.expMap c k = .ok (PMat (Equiv.swap ⟨0, by omega⟩ ⟨1, by omega⟩ ^ i * finRotate n ^ j))) ∧
    ∀ i j : ℤ, ∃ c k, r.expMap c k = .ok (PMat (Equiv.swap ⟨0, by omega⟩ ⟨1, by omega⟩ ^ i * finRotate n ^ j)) := by
  obtain ⟨g, h1, h2⟩ := natural_H hn hr
  obtain ⟨h3, h4⟩ := prod_two h2
  refine ⟨fun c k => ?_, fun i j => ?_⟩
  · obtain ⟨i, j, h5⟩ := h3 k
    exact ⟨i, j, by rw [expMap_hom (PHom n) r g h1, h5]; rfl⟩
  · obtain ⟨k, h5⟩ := h4 i j
    exact ⟨0, k, by rw [expMap_hom (PHom n) r g h1, h5]; rfl⟩

/-- C95: the same for `Sn_standard(n)`, with the same parameters. -/
theorem C95_exp_map_standard {r : Rep 0 h n} {s : Rep 0 h (n - 1)} (hn : 3 ≤ n)
    (hr : naturalGens n = .ok (List.ofFn fun a => ⟨n, n, r.H a⟩)) (hs : standardGens n = .ok (List.ofFn s.H)) :
    ∃ φ : Equiv.Perm (Fin n) →* Matrix (Fin (n - 1)) (Fin (n - 1)) ℂ, Function.Injective φ ∧
      ∀ c k, ∃ σ, r.expMap c k = .ok (PMat σ) ∧ s.expMap c k = .ok (φ σ) ∧ PMat σ * stdEmbed n = stdEmbed n * φ σ := by
  obtain ⟨g, h1, h2⟩ := natural_H hn hr
  obtain ⟨g', h1', h2'⟩ := standard_H hn hs
  obtain rfl : g = g' := List.ofFn_injective (h2.trans h2'.symm)
  let φ : Equiv.Perm (Fin n) →* Matrix (Fin (n - 1)) (Fin (n - 1)) ℂ := ⟨⟨phi, phi_one (by omega)⟩, phi_mul (by omega)⟩
  refine ⟨φ, phi_injective (by omega), fun c k => ⟨_, expMap_hom (PHom n) r g h1 c k, expMap_hom φ s g h1' c k, ?_⟩⟩
  exact (embed_phi (by omega) _).symm

/-- C95: for `n ≥ 3`, `exp_map` of `Sn_natural(n)` returns exactly `2 n` different matrices. -/
theorem C95_count {r : Rep 0 h n} (hn : 3 ≤ n) (hr : naturalGens n = .ok (List.ofFn fun a => ⟨n, n, r.H a⟩)) :
    {M | ∃ c k, r.expMap c k = .ok M}.ncard = 2 * n := by
  obtain ⟨h1, h2⟩ := C95_exp_map hn hr
  have : {M | ∃ c k, r.expMap c k = .ok M} = PMat '' {σ : Equiv.Perm (Fin n) | ∃ i j : ℤ, σ = tr hn ^ i * finRotate n ^ j} := by
    ext M
    constructor
    · rintro ⟨c, k, hM⟩
      obtain ⟨i, j, h3⟩ := h1 c k
      rw [hM] at h3
      exact ⟨_, ⟨i, j, rfl⟩, (Except.ok.inj h3).symm⟩
    · rintro ⟨_, ⟨i, j, rfl⟩, rfl⟩
      exact h2 i j
  rw [this, Set.ncard_image_of_injective _ PMat_injective, ncard_products]

/-- C95: `exp_map` of `Sn_natural(n)` reaches all permutations exactly for `n ≤ 3`. -/
theorem C95_reaches {r : Rep 0 h n} (hn : 1 ≤ n) (hr : naturalGens n = .ok (List.ofFn fun a => ⟨n, n, r.H a⟩)) :
    (∀ σ : Equiv.Perm (Fin n), ∃ c k, r.expMap c k = .ok (PMat σ)) ↔ n ≤ 3 := by
  rcases (by omega : n = 1 ∨ n = 2 ∨ 3 ≤ n) with rfl | rfl | h3
  · refine ⟨fun _ => by norm_num, fun _ σ => ⟨0, 0, ?_⟩⟩
    obtain rfl : h = 0 := by
      have := congrArg List.length (Except.ok.inj (show (Except.ok [] : Py _) = _ from hr))
      simpa using this.symm
    rw [expMap_hom (PHom 1) r (fun a => a.elim0) (fun a => a.elim0), Subsingleton.elim σ 1]
    rfl
  · refine ⟨fun _ => by norm_num, fun _ σ => ?_⟩
    rw [naturalGens_two] at hr
    have hr := Except.ok.inj hr
    obtain rfl : h = 1 := by
      have := congrArg List.length hr
      simpa using this.symm
    rw [List.ofFn_succ, List.ofFn_zero] at hr
    injection hr with h1 _
    injection h1 with _ _ h1
    have h2 := expMap_hom (PHom 2) r (fun _ => Equiv.swap 0 1) (fun a => by rw [Subsingleton.elim a 0]; exact h1.symm) 0
    have h3 : σ = 1 ∨ σ = Equiv.swap 0 1 := by
      revert σ
      decide
    rcases h3 with rfl | rfl
    · exact ⟨0, 0, by rw [h2]; simp [PHom]⟩
    · exact ⟨0, fun _ => 1, by rw [h2]; simp [PHom, List.finRange_succ]⟩
  · have h1 : {M | ∃ c k, r.expMap c k = .ok M} ⊆ Set.range (PMat (n := n)) := by
      rintro M ⟨c, k, hM⟩
      obtain ⟨i, j, h3⟩ := (C95_exp_map h3 hr).1 c k
      rw [hM] at h3
      exact ⟨_, (Except.ok.inj h3).symm⟩
    have h4 : (Set.range (PMat (n := n))).ncard = n.factorial := by
      rw [← Set.image_univ, Set.ncard_image_of_injective _ PMat_injective, Set.ncard_univ, Nat.card_eq_fintype_card, Fintype.card_perm,
        Fintype.card_fin]
    have hfin : (Set.range (PMat (n := n))).Finite := Set.finite_range _
    constructor
    · intro hall
      by_contra hlt
      have h5 := two_mul_lt_factorial (show 4 ≤ n by omega)
      have h6 : Set.range (PMat (n := n)) ⊆ {M | ∃ c k, r.expMap c k = .ok M} := by
        rintro _ ⟨σ, rfl⟩
        exact hall σ
      have h7 := Set.ncard_le_ncard h6 (hfin.subset h1)
      rw [h4, C95_count h3 hr] at h7
      omega
    · intro hle σ
      obtain rfl : n = 3 := by omega
      have h5 : {M | ∃ c k, r.expMap c k = .ok M} = Set.range PMat :=
        Set.eq_of_subset_of_ncard_le h1 (by rw [h4, C95_count h3 hr]; decide) hfin
      have : PMat σ ∈ Set.range (PMat (n := 3)) := ⟨σ, rfl⟩
      rw [← h5] at this
      exact this

/-- C95: from four elements on, the product of two matrices returned by `exp_map` need not be returned for any parameters. -/
theorem C95_not_closed {r : Rep 0 h n} (hn : 4 ≤ n) (hr : naturalGens n = .ok (List.ofFn fun a => ⟨n, n, r.H a⟩)) :
    ∃ M M' c k c' k', r.expMap c k = .ok M ∧ r.expMap c' k' = .ok M' ∧ ∀ c k, r.expMap c k ≠ .ok (M * M') := by
  by_contra hcon
  push Not at hcon
  have hcon' : ∀ M M', (∃ c k, r.expMap c k = .ok M) → (∃ c k, r.expMap c k = .ok M') → ∃ c k, r.expMap c k = .ok (M * M') := by
    rintro M M' ⟨c, k, h1⟩ ⟨c', k', h2⟩
    exact hcon M M' c k c' k' h1 h2
  have h1 : ¬ n ≤ 3 := by omega
  apply h1
  rw [← C95_reaches (by omega) hr]
  intro σ
  obtain ⟨L, hL, h2⟩ := C57_natural_generates n (by omega)
  obtain ⟨e1, e2⟩ := C95_exp_map (show 3 ≤ n by omega) hr
  have h3 := h2 σ
  rw [naturalGens_eq (by omega)] at hL
  obtain rfl := Except.ok.inj hL
  generalize PMat σ = M at h3
  induction h3 using Submonoid.closure_induction with
  | mem M hM =>
    rcases List.mem_cons.1 hM with hM | hM
    · injection hM with _ _ hM
      obtain ⟨c, k, h4⟩ := e2 1 0
      rw [hM]
      exact ⟨c, k, by rw [h4]; simp⟩
    · rw [List.mem_singleton] at hM
      injection hM with _ _ hM
      obtain ⟨c, k, h4⟩ := e2 0 1
      rw [hM]
      exact ⟨c, k, by rw [h4]; simp⟩
  | one =>
    obtain ⟨c, k, h4⟩ := e2 0 0
    exact ⟨c, k, by rw [h4]; simp [PMat_one]⟩
  | mul M M' _ _ h4 h5 => exact hcon' M M' h4 h5

/-! ## Equivariant maps -/

/-- C95: equivariance for the generators of `Sn_natural(n)` is equivariance for all permutations. -/
theorem C95_equivariant {r : Rep 0 h n} (hn : 3 ≤ n) (hr : naturalGens n = .ok (List.ofFn fun a => ⟨n, n, r.H a⟩))
    (S : Matrix (Fin n) (Fin n) ℂ) :
    S ∈ intertwiners r.H r.H ↔ ∀ (σ : Equiv.Perm (Fin n)) i j, S (σ i) (σ j) = S i j := by
  obtain ⟨g, h1, h2⟩ := natural_H hn hr
  have key : ∀ σ : Equiv.Perm (Fin n), PMat σ * S = S * PMat σ ↔ ∀ i j, S (σ i) (σ j) = S i j := by
    intro σ
    have e : ∀ i j, (PMat σ * S) (σ i) j = S i j := fun i j => by rw [PMat_mul_apply, Equiv.symm_apply_apply]
    have e' : ∀ i j, (S * PMat σ) i j = S i (σ j) := fun i j => by simp [PMat, Matrix.mul_apply]
    constructor
    · intro H i j
      rw [← e', ← H, e]
    · intro H
      ext i j
      obtain ⟨i, rfl⟩ := σ.surjective i
      rw [e, e', H]
  constructor
  · intro hS σ
    have hσ : σ ∈ Subgroup.closure {finRotate n, Equiv.swap (⟨0, by omega⟩ : Fin n) ⟨1, by omega⟩} := by
      rw [closure_gens (by omega)]
      trivial
    induction hσ using Subgroup.closure_induction with
    | mem x hx =>
      have : x ∈ List.ofFn g := by
        rw [h2]
        rcases hx with rfl | rfl
        · simp
        · exact List.mem_cons_self
      obtain ⟨a, rfl⟩ := List.mem_ofFn.1 this
      rw [← key]
      have := hS a
      rw [h1] at this
      exact this
    | one => exact fun i j => rfl
    | mul x y _ _ hx hy => exact fun i j => by rw [Equiv.Perm.mul_apply, Equiv.Perm.mul_apply, hx, hy]
    | inv x _ hx => exact fun i j => by rw [← hx]; simp
  · intro H a
    rw [h1]
    exact (key _).2 (H _)

/-- C95: the equivariant maps from `Sn_natural(n)` to itself are the combinations of the identity and the matrix of ones. -/
theorem C95_natural_maps {r : Rep 0 h n} (hn : 3 ≤ n) (hr : naturalGens n = .ok (List.ofFn fun a => ⟨n, n, r.H a⟩)) :
    (∀ S : Matrix (Fin n) (Fin n) ℂ, S ∈ intertwiners r.H r.H ↔ ∃ a b : ℂ, S = a • 1 + b • Matrix.of fun _ _ => 1) ∧
    finrank ℂ (intertwiners r.H r.H) = 2 := by
  have key : ∀ S : Matrix (Fin n) (Fin n) ℂ, S ∈ intertwiners r.H r.H ↔ ∃ a b : ℂ, S = a • 1 + b • Matrix.of fun _ _ => 1 := by
    intro S
    rw [C95_equivariant hn hr]
    constructor
    · intro H
      refine ⟨S ⟨0, by omega⟩ ⟨0, by omega⟩ - S ⟨0, by omega⟩ ⟨1, by omega⟩, S ⟨0, by omega⟩ ⟨1, by omega⟩, ?_⟩
      ext i j
      by_cases hij : i = j
      · subst hij
        have := H (Equiv.swap ⟨0, by omega⟩ i) ⟨0, by omega⟩ ⟨0, by omega⟩
        rw [Equiv.swap_apply_left] at this
        simp [this]
      · obtain ⟨σ, h1, h2⟩ := exists_perm (a := (⟨0, by omega⟩ : Fin n)) (b := ⟨1, by omega⟩) (by simp) hij
        have := H σ ⟨0, by omega⟩ ⟨1, by omega⟩
        rw [h1, h2] at this
        simp [this, hij]
    · rintro ⟨a, b, rfl⟩ σ i j
      simp [Matrix.one_apply]
  refine ⟨key, ?_⟩
  have h2 : intertwiners r.H r.H = Submodule.span ℂ (Set.range ![(1 : Matrix (Fin n) (Fin n) ℂ), Matrix.of fun _ _ => 1]) := by
    ext S
    rw [key, Submodule.mem_span_range_iff_exists_fun]
    constructor
    · rintro ⟨a, b, rfl⟩
      exact ⟨![a, b], by simp [Fin.sum_univ_two]⟩
    · rintro ⟨c, rfl⟩
      exact ⟨c 0, c 1, by simp [Fin.sum_univ_two]⟩
  rw [h2, finrank_span_eq_card, Fintype.card_fin]
  rw [Fintype.linearIndependent_iff]
  intro c hc
  rw [Fin.sum_univ_two] at hc
  have e1 := congrFun (congrFun hc ⟨0, by omega⟩) ⟨1, by omega⟩
  have e2 := congrFun (congrFun hc ⟨0, by omega⟩) ⟨0, by omega⟩
  simp at e1 e2
  intro i
  fin_cases i
  · simpa [e1] using e2
  · exact e1

/-- C95: `Sn_natural(n)` is the direct sum of `Sn_trivial(n)` and `Sn_standard(n)`. -/
theorem C95_natural_sum {r : Rep 0 h n} {s : Rep 0 h (n - 1)} (hn : 3 ≤ n) (hr : naturalGens n = .ok (List.ofFn fun a => ⟨n, n, r.H a⟩))
    (hs : standardGens n = .ok (List.ofFn s.H)) {t : Rep 0 h 1} (ht : trivialGens n = .ok (List.ofFn t.H)) :
    Equivalent r.H (blockSum [⟨1, t.H⟩, ⟨n - 1, s.H⟩]) := by
  obtain ⟨g, h1, h2⟩ := natural_H hn hr
  obtain ⟨g', h1', h2'⟩ := standard_H hn hs
  obtain rfl : g = g' := List.ofFn_injective (h2.trans h2'.symm)
  have ht1 : ∀ a, t.H a = 1 := by
    intro a
    unfold trivialGens at ht
    rw [if_neg (by omega), if_neg (by omega), if_pos hn] at ht
    have h3 : t.H a ∈ List.ofFn t.H := List.mem_ofFn.2 ⟨a, rfl⟩
    rw [← Except.ok.inj ht] at h3
    have h4 : t.H a = Matrix.of fun _ _ => 1 := by simpa using h3
    rw [h4]
    ext i j
    rw [Subsingleton.elim i j]
    simp
  let l : List (Bk h n) := [⟨⟨1, t.H⟩, Matrix.of fun _ _ => 1⟩, ⟨⟨n - 1, s.H⟩, stdEmbed n⟩]
  refine blockSum_equivalent (l := l) ?_ ?_ ?_
  · intro p hp a
    rcases List.mem_cons.1 hp with rfl | hp
    · change r.H a * _ = _ * t.H a
      rw [h1, ht1, Matrix.mul_one]
      have e : PHom n (g a) = PMat (g a) := rfl
      rw [e]
      ext i j
      exact PMat_mul_apply (g a) (Matrix.of fun _ _ => 1) i j
    · rw [List.mem_singleton] at hp
      subst hp
      change r.H a * _ = _ * s.H a
      rw [h1, h1', embed_phi (by omega)]
      rfl
  · change 1 + (n - 1 + 0) = n
    omega
  · rw [eq_top_iff]
    intro x _
    set K := Submodule.span ℂ {x : Fin n → ℂ | ∃ p ∈ l, ∃ j, x = fun i => p.2 i j} with hK
    have k1 : (fun _ => 1 : Fin n → ℂ) ∈ K := Submodule.subset_span ⟨⟨⟨1, t.H⟩, Matrix.of fun _ _ => 1⟩, by simp [l], 0, rfl⟩
    have k2 : ∀ j, (fun i => stdEmbed n i j) ∈ K := fun j =>
      Submodule.subset_span ⟨⟨⟨n - 1, s.H⟩, stdEmbed n⟩, by simp [l], j, rfl⟩
    have hn0 : (n : ℂ) ≠ 0 := by
      rw [Nat.cast_ne_zero]
      omega
    set m := (∑ i, x i) / n with hm
    have e1 := embed_mul (show 1 ≤ n by omega) (Matrix.of fun (i : Fin n) (_ : Fin 1) => x i - m) (fun _ => by
      simp only [Matrix.of_apply]
      rw [Finset.sum_sub_distrib, Finset.sum_const, Finset.card_univ, Fintype.card_fin, nsmul_eq_mul, hm, mul_div_cancel₀ _ hn0, sub_self])
    have e2 : x = m • (fun _ => 1) + ∑ j : Fin (n - 1), (x ⟨j.1 + 1, by omega⟩ - m) • fun i => stdEmbed n i j := by
      funext i
      have := congrFun (congrFun e1 i) 0
      rw [Matrix.mul_apply] at this
      simp only [Matrix.of_apply] at this
      rw [Pi.add_apply, Finset.sum_apply, Pi.smul_apply, smul_eq_mul, mul_one]
      have e3 : ∑ j : Fin (n - 1), ((x ⟨j.1 + 1, by omega⟩ - m) • fun i => stdEmbed n i j) i = x i - m := by
        rw [← this]
        exact Finset.sum_congr rfl fun j _ => mul_comm _ _
      rw [e3]
      ring
    rw [e2]
    exact K.add_mem (K.smul_mem _ k1) (Submodule.sum_mem _ fun j _ => K.smul_mem _ (k2 j))

/-! ### Cases -/

/-- `Sn_natural(4)` exists, and `exp_map` misses sixteen of its elements. -/
example : ∃ r : Rep 0 2 4, naturalGens 4 = .ok (List.ofFn fun a => ⟨4, 4, r.H a⟩) ∧ {M | ∃ c k, r.expMap c k = .ok M}.ncard = 8 := by
  have h1 : naturalGens 4 = .ok (List.ofFn fun a : Fin 2 => ⟨4, 4, (![PMat (Equiv.swap 0 1), PMat (finRotate 4)] : Fin 2 → _) a⟩) :=
    naturalGens_eq (by norm_num)
  exact ⟨⟨fun a => a.elim0, fun a => a.elim0, ![PMat (Equiv.swap 0 1), PMat (finRotate 4)]⟩, h1, C95_count (by norm_num) h1⟩

end LieNN.Props
