import Verif.Proofs.Finite
import Verif.Proofs.DecomposeSum
import Mathlib.GroupTheory.Perm.Cycle.Basic
/-!
# `exp_map` of the representations of the symmetric group
-/
namespace LieNN.Finite

open Matrix LieNN LieNN.Spec NormedSpace

variable {n h d : ℕ}

theorem matrixPower_hom {G : Type*} [Group G] (ρ : G →* Matrix (Fin d) (Fin d) ℂ) (g : G) (k : ℤ) :
    matrixPower (ρ g) k = .ok (ρ (g ^ k)) := by
  have h1 : ρ g * ρ g⁻¹ = 1 := by rw [← map_mul, mul_inv_cancel, map_one]
  have h2 : ρ g⁻¹ * ρ g = 1 := by rw [← map_mul, inv_mul_cancel, map_one]
  unfold matrixPower
  split_ifs with h0 hu
  · obtain ⟨m, rfl⟩ := Int.eq_ofNat_of_zero_le h0
    rw [Int.toNat_natCast, zpow_natCast, map_pow]
  · obtain ⟨m, hm⟩ := Int.eq_ofNat_of_zero_le (show 0 ≤ -k by omega)
    obtain rfl : k = -(m : ℤ) := by omega
    rw [neg_neg, Int.toNat_natCast, _root_.zpow_neg, zpow_natCast, ← inv_pow, map_pow, Matrix.inv_eq_left_inv h2]
  · exact absurd ⟨⟨ρ g, ρ g⁻¹, h1, h2⟩, rfl⟩ hu

/-- `exp_map` of images of group elements. -/
theorem expMap_hom {G : Type*} [Group G] (ρ : G →* Matrix (Fin d) (Fin d) ℂ) (r : Rep 0 h d) (g : Fin h → G) (hg : ∀ a, r.H a = ρ (g a))
    (c : Fin 0 → ℂ) (k : Fin h → ℤ) : r.expMap c k = .ok (ρ ((List.finRange h).map fun i => g i ^ k i).prod) := by
  unfold Rep.expMap
  have : ∀ l : List (Fin h), l.foldr (fun i out => do
      let o ← out
      let p ← matrixPower (r.H i) (k i)
      pure (p * o)) (.ok (exp (∑ a, c a • r.X a)) : Py _) = .ok (ρ (l.map fun i => g i ^ k i).prod) := by
    intro l
    induction l with
    | nil =>
      simp
    | cons i l ih =>
      rw [List.foldr_cons, ih, hg, matrixPower_hom, List.map_cons, List.prod_cons, map_mul]
      rfl
  exact this _

/-- Matrices of permutations as a homomorphism. -/
noncomputable def PHom (n : ℕ) : Equiv.Perm (Fin n) →* Matrix (Fin n) (Fin n) ℂ := ⟨⟨PMat, PMat_one⟩, fun σ τ => (PMat_mul σ τ).symm⟩

theorem PMat_injective : Function.Injective (PMat (n := n)) := by
  intro σ τ h
  ext i
  have := congrFun (congrFun h (σ i)) i
  simp only [PMat, Matrix.of_apply] at this
  by_contra hne
  rw [if_pos trivial, if_neg (fun h => hne (congrArg Fin.val h.symm))] at this
  exact one_ne_zero this

/-- The transposition of the generators. -/
def tr (hn : 3 ≤ n) : Equiv.Perm (Fin n) := Equiv.swap ⟨0, by omega⟩ ⟨1, by omega⟩

theorem natural_H {r : Rep 0 h n} (hn : 3 ≤ n) (hr : naturalGens n = .ok (List.ofFn fun a => ⟨n, n, r.H a⟩)) :
    ∃ g : Fin h → Equiv.Perm (Fin n), (∀ a, r.H a = PHom n (g a)) ∧ List.ofFn g = [tr hn, finRotate n] := by
  rw [naturalGens_eq hn] at hr
  have hr := Except.ok.inj hr
  obtain rfl : h = 2 := by
    have := congrArg List.length hr
    simpa using this.symm
  rw [List.ofFn_succ, List.ofFn_succ, List.ofFn_zero] at hr
  injection hr with h1 h2
  injection h2 with h2 _
  injection h1 with _ _ h1
  injection h2 with _ _ h2
  refine ⟨![tr hn, finRotate n], fun a => ?_, rfl⟩
  fin_cases a
  · exact h1.symm
  · exact h2.symm

theorem standard_H {r : Rep 0 h (n - 1)} (hn : 3 ≤ n) (hr : standardGens n = .ok (List.ofFn r.H)) :
    ∃ g : Fin h → Equiv.Perm (Fin n), (∀ a, r.H a = phi (g a)) ∧ List.ofFn g = [tr hn, finRotate n] := by
  rw [standardGens_eq hn] at hr
  have hr := Except.ok.inj hr
  obtain rfl : h = 2 := by
    have := congrArg List.length hr
    simpa using this.symm
  rw [List.ofFn_succ, List.ofFn_succ, List.ofFn_zero] at hr
  injection hr with h1 h2
  injection h2 with h2 _
  refine ⟨![tr hn, finRotate n], fun a => ?_, rfl⟩
  fin_cases a
  · exact h1.symm
  · exact h2.symm

theorem prod_two {h : ℕ} {G : Type*} [Group G] {g : Fin h → G} {a b : G} (hg : List.ofFn g = [a, b]) :
    (∀ k : Fin h → ℤ, ∃ i j : ℤ, ((List.finRange h).map fun i => g i ^ k i).prod = a ^ i * b ^ j) ∧
    (∀ i j : ℤ, ∃ k : Fin h → ℤ, ((List.finRange h).map fun i => g i ^ k i).prod = a ^ i * b ^ j) := by
  obtain rfl : h = 2 := by
    have := congrArg List.length hg
    simpa using this
  rw [List.ofFn_succ, List.ofFn_succ, List.ofFn_zero] at hg
  injection hg with h1 h2
  injection h2 with h2 _
  have key : ∀ k : Fin 2 → ℤ, ((List.finRange 2).map fun i => g i ^ k i).prod = a ^ k 0 * b ^ k 1 := by
    intro k
    simp only [List.finRange_succ, List.finRange_zero, List.map_cons, List.map_nil, List.prod_cons, List.prod_nil, mul_one]
    rw [← h1, ← h2]
    rfl
  exact ⟨fun k => ⟨k 0, k 1, key k⟩, fun i j => ⟨![i, j], key _⟩⟩

theorem disjoint_gens (hn : 3 ≤ n) : Disjoint (Subgroup.zpowers (tr hn)) (Subgroup.zpowers (finRotate n)) := by
  rw [Subgroup.disjoint_def]
  rintro x ⟨i, rfl⟩ ⟨j, hj⟩
  have hj : finRotate n ^ j = tr hn ^ i := hj
  have h1 : (tr hn) ⟨2, by omega⟩ = ⟨2, by omega⟩ := by
    apply Equiv.swap_apply_of_ne_of_ne <;> simp
  have h2 : (finRotate n ^ j) ⟨2, by omega⟩ = ⟨2, by omega⟩ := by
    rw [hj]
    exact Equiv.Perm.zpow_apply_eq_self_of_apply_eq_self h1 i
  have h3 : finRotate n ^ j = 1 := by
    have hc := isCycle_finRotate_of_le (show 2 ≤ n by omega)
    have hs : ∀ y, finRotate n y ≠ y := by
      intro y
      have : y ∈ (finRotate n).support := by
        rw [support_finRotate_of_le (by omega)]
        exact Finset.mem_univ _
      exact Equiv.Perm.mem_support.1 this
    refine Equiv.ext fun y => ?_
    obtain ⟨m, rfl⟩ := hc.sameCycle (hs ⟨2, by omega⟩) (hs y)
    rw [← Equiv.Perm.mul_apply, ← _root_.zpow_add, add_comm, _root_.zpow_add, Equiv.Perm.mul_apply, h2]
    rfl
  change tr hn ^ i = 1
  rw [← hj, h3]

theorem orderOf_tr (hn : 3 ≤ n) : orderOf (tr hn) = 2 := by
  refine orderOf_eq_prime ?_ ?_
  · rw [sq]; exact Equiv.swap_mul_self _ _
  · intro h
    have := congrFun (congrArg DFunLike.coe h) (⟨0, by omega⟩ : Fin n)
    rw [tr, Equiv.swap_apply_left] at this
    simp at this

theorem orderOf_rot (hn : 2 ≤ n) : orderOf (finRotate n) = n := by
  rw [(isCycle_finRotate_of_le hn).orderOf, support_finRotate_of_le hn, Finset.card_univ, Fintype.card_fin]

/-- The products of powers of the two generators. -/
theorem ncard_products (hn : 3 ≤ n) : {σ : Equiv.Perm (Fin n) | ∃ i j : ℤ, σ = tr hn ^ i * finRotate n ^ j}.ncard = 2 * n := by
  have h1 := Subgroup.mul_injective_of_disjoint (disjoint_gens hn)
  have h2 : {σ : Equiv.Perm (Fin n) | ∃ i j : ℤ, σ = tr hn ^ i * finRotate n ^ j} =
      Set.range fun g : Subgroup.zpowers (tr hn) × Subgroup.zpowers (finRotate n) => (g.1 * g.2 : Equiv.Perm (Fin n)) := by
    ext σ
    constructor
    · rintro ⟨i, j, rfl⟩
      exact ⟨(⟨_, i, rfl⟩, ⟨_, j, rfl⟩), rfl⟩
    · rintro ⟨⟨⟨_, i, rfl⟩, ⟨_, j, rfl⟩⟩, rfl⟩
      exact ⟨i, j, rfl⟩
  rw [h2, ← Set.image_univ, Set.ncard_image_of_injective _ h1, Set.ncard_univ, Nat.card_prod, Nat.card_zpowers, Nat.card_zpowers,
    orderOf_tr, orderOf_rot (by omega)]

theorem two_mul_lt_factorial : ∀ {n : ℕ}, 4 ≤ n → 2 * n < n.factorial := by
  intro n hn
  obtain ⟨m, rfl⟩ : ∃ m, n = m + 1 := ⟨n - 1, by omega⟩
  rw [Nat.factorial_succ]
  have : (3 : ℕ).factorial ≤ m.factorial := Nat.factorial_le (by omega)
  have h6 : (3 : ℕ).factorial = 6 := rfl
  nlinarith

end LieNN.Finite
