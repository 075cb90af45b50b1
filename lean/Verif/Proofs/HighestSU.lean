import Verif.Proofs.Highest
import Verif.Proofs.SUNIrr
import Verif.Proofs.SUNAlg
import Verif.Proofs.SUNFaith
import Mathlib.LinearAlgebra.Matrix.ToLin
import Mathlib.Algebra.Algebra.Prod
/-!
# Highest weights for the special unitary groups
-/
namespace LieNN.Highest

open Module Matrix LieNN LieNN.Spec LieNN.SUN

variable {n : ℕ}

/-- A linear map that respects commutators. -/
structure GLHom {R : Type*} [Ring R] [Algebra ℂ R] (f : Matrix (Fin n) (Fin n) ℂ →ₗ[ℂ] R) : Prop where
  lie : ∀ x y, f (x * y - y * x) = f x * f y - f y * f x

/-- The Cartan matrix. -/
def cartanA (n : ℕ) (i j : Fin (n - 1)) : ℂ :=
  (if (i : ℕ) = j then 2 else 0) - (if (i : ℕ) = j + 1 then 1 else 0) - (if (i : ℕ) + 1 = j then 1 else 0)

theorem cartanA_diag (n : ℕ) (i : Fin (n - 1)) : cartanA n i i = 2 := by
  simp [cartanA]

/-- The coefficients of the weight that counts. -/
noncomputable def rhoA (n : ℕ) (i : Fin (n - 1)) : ℂ := ((i : ℕ) + 1) * (n - 1 - (i : ℕ)) / 2

theorem rhoA_cartan (n : ℕ) (j : Fin (n - 1)) : ∑ i, rhoA n i * cartanA n i j = 1 := by
  have hj := j.2
  set g : ℕ → ℂ := fun i => (i + 1) * (n - 1 - i) / 2 with hg
  have e : ∀ i : Fin (n - 1), rhoA n i * cartanA n i j = (if (i : ℕ) = j then 2 * g i else 0) - (if (i : ℕ) = j + 1 then g i else 0) -
      (if (i : ℕ) + 1 = j then g i else 0) := by
    intro i
    simp only [rhoA, cartanA, hg]
    split_ifs <;> ring
  rw [Finset.sum_congr rfl fun i _ => e i, Fin.sum_univ_eq_sum_range (fun i => (if i = j then 2 * g i else 0) - (if i = j + 1 then g i else 0) -
      (if i + 1 = j then g i else 0)) (n - 1), Finset.sum_sub_distrib, Finset.sum_sub_distrib, Finset.sum_ite_eq', Finset.sum_ite_eq',
      if_pos (Finset.mem_range.2 hj)]
  have h1 : (if (j : ℕ) + 1 ∈ Finset.range (n - 1) then g (j + 1) else 0) = g (j + 1) := by
    split_ifs with h
    · rfl
    · have : (n : ℂ) = (j : ℕ) + 2 := by
        rw [Finset.mem_range] at h
        have : n = j + 2 := by omega
        exact_mod_cast this
      simp only [hg, this]
      push_cast
      ring
  have h2 : (∑ i ∈ Finset.range (n - 1), if i + 1 = (j : ℕ) then g i else 0) = ((j : ℕ) * (n - (j : ℕ)) / 2 : ℂ) := by
    rcases hj0 : (j : ℕ) with - | k
    · simp
    · simp only [add_left_inj]
      rw [Finset.sum_ite_eq', if_pos (Finset.mem_range.2 (by omega))]
      simp only [hg]
      push_cast
      ring
  rw [h1, h2]
  simp only [hg]
  push_cast
  ring

section
variable {V : Type*} [AddCommGroup V] [Module ℂ V]

/-- Raising. -/
def opE {R : Type*} [Ring R] [Algebra ℂ R] (f : Matrix (Fin n) (Fin n) ℂ →ₗ[ℂ] R) (i : Fin (n - 1)) : R := f (unit n i (i + 1))
/-- Lowering. -/
def opF {R : Type*} [Ring R] [Algebra ℂ R] (f : Matrix (Fin n) (Fin n) ℂ →ₗ[ℂ] R) (i : Fin (n - 1)) : R := f (unit n (i + 1) i)
/-- Weights. -/
def opH {R : Type*} [Ring R] [Algebra ℂ R] (f : Matrix (Fin n) (Fin n) ℂ →ₗ[ℂ] R) (i : Fin (n - 1)) : R :=
  f (unit n i i - unit n (i + 1) (i + 1))

theorem GLHom.sys {f : Matrix (Fin n) (Fin n) ℂ →ₗ[ℂ] End ℂ V} (h : GLHom f) : Sys (cartanA n) (opE f) (opF f) (opH f) := by
  have hn : ∀ i : Fin (n - 1), (i : ℕ) < n ∧ (i : ℕ) + 1 < n := fun i => by have := i.2; omega
  constructor
  · intro i j
    rw [opE, opF, ← h.lie, unit_rel n (hn i).1 (hn i).2 (hn j).2 (hn j).1]
    by_cases hij : i = j
    · subst hij
      simp [opH]
    · have : (i : ℕ) ≠ j := fun e => hij (Fin.ext e)
      rw [if_neg hij, if_neg (by omega), if_neg (by omega), sub_zero, map_zero]
  · intro i j
    rw [opE, opH, ← h.lie, ← map_smul]
    congr 1
    have e : (unit n i i - unit n (i + 1) (i + 1)) * unit n j (j + 1) - unit n j (j + 1) * (unit n i i - unit n (i + 1) (i + 1)) =
        (unit n i i * unit n j (j + 1) - unit n j (j + 1) * unit n i i) -
        (unit n (i + 1) (i + 1) * unit n j (j + 1) - unit n j (j + 1) * unit n (i + 1) (i + 1)) := by
      simp only [Matrix.sub_mul, Matrix.mul_sub]; abel
    rw [e, unit_rel n (hn i).1 (hn i).1 (hn j).1 (hn j).2, unit_rel n (hn i).2 (hn i).2 (hn j).1 (hn j).2, cartanA]
    generalize (i : ℕ) = a
    generalize (j : ℕ) = b
    by_cases h1 : a = b
    · subst h1
      simp
      module
    · by_cases h2 : a = b + 1
      · subst h2
        simp [show ¬ b + 1 + 1 = b by omega, show ¬ b = b + 1 + 1 by omega]
      · by_cases h3 : a + 1 = b
        · subst h3
          simp [show ¬ a + 1 + 1 = a by omega, show ¬ a = a + 1 + 1 by omega]
        · rw [if_neg (by omega), if_neg (by omega), if_neg (by omega), if_neg (by omega), if_neg (by omega), if_neg (by omega),
            if_neg (by omega)]
          simp
  · intro i j
    rw [opF, opH, ← h.lie, ← map_smul, ← map_neg]
    congr 1
    have e : (unit n i i - unit n (i + 1) (i + 1)) * unit n (j + 1) j - unit n (j + 1) j * (unit n i i - unit n (i + 1) (i + 1)) =
        (unit n i i * unit n (j + 1) j - unit n (j + 1) j * unit n i i) -
        (unit n (i + 1) (i + 1) * unit n (j + 1) j - unit n (j + 1) j * unit n (i + 1) (i + 1)) := by
      simp only [Matrix.sub_mul, Matrix.mul_sub]; abel
    rw [e, unit_rel n (hn i).1 (hn i).1 (hn j).2 (hn j).1, unit_rel n (hn i).2 (hn i).2 (hn j).2 (hn j).1, cartanA]
    generalize (i : ℕ) = a
    generalize (j : ℕ) = b
    by_cases h1 : a = b
    · subst h1
      simp
      module
    · by_cases h2 : a = b + 1
      · subst h2
        simp [show ¬ b + 1 + 1 = b by omega, show ¬ b = b + 1 + 1 by omega]
      · by_cases h3 : a + 1 = b
        · subst h3
          simp [show ¬ a + 1 + 1 = a by omega, show ¬ a = a + 1 + 1 by omega]
        · rw [if_neg (by omega), if_neg (by omega), if_neg (by omega), if_neg (by omega), if_neg (by omega), if_neg (by omega),
            if_neg (by omega)]
          simp
  · intro i j
    rw [opH, opH, ← sub_eq_zero, ← h.lie]
    have : (unit n i i - unit n (i + 1) (i + 1)) * (unit n j j - unit n (j + 1) (j + 1)) -
        (unit n j j - unit n (j + 1) (j + 1)) * (unit n i i - unit n (i + 1) (i + 1)) = 0 := by
      have hd : ∀ k, unit n k k = diagonal fun a : Fin n => if (a : ℕ) = k then 1 else 0 := by
        intro k
        ext a b
        simp only [unit, of_apply, diagonal_apply]
        by_cases hab : a = b
        · subst hab; simp
        · have : (a : ℕ) ≠ b := fun e => hab (Fin.ext e)
          rw [if_neg hab, if_neg (by omega)]
      simp only [hd, diagonal_sub, diagonal_mul_diagonal]
      rw [← diagonal_zero]
      congr 1
      funext a
      ring
    rw [this, map_zero]

/-- The simple raising and lowering operators generate. -/
theorem GLHom.generate {R : Type*} [Ring R] [Algebra ℂ R] {f : Matrix (Fin n) (Fin n) ℂ →ₗ[ℂ] R} (h : GLHom f) (A : Subalgebra ℂ R)
    (hE : ∀ i, opE f i ∈ A) (hF : ∀ i, opF f i ∈ A) {x : Matrix (Fin n) (Fin n) ℂ} (hx : x ∈ suBasis n) : f x ∈ A := by
  have hE' : ∀ k, k + 1 < n → f (unit n k (k + 1)) ∈ A := fun k hk => hE ⟨k, by omega⟩
  have hF' : ∀ k, k + 1 < n → f (unit n (k + 1) k) ∈ A := fun k hk => hF ⟨k, by omega⟩
  have up : ∀ m k, k + m + 1 < n → f (unit n k (k + m + 1)) ∈ A ∧ f (unit n (k + m + 1) k) ∈ A := by
    intro m
    induction m with
    | zero => exact fun k hk => ⟨hE' k hk, hF' k hk⟩
    | succ m ih =>
      intro k hk
      obtain ⟨h1, h2⟩ := ih k (by omega)
      have h3 := hE' (k + m + 1) (by omega)
      have h4 := hF' (k + m + 1) (by omega)
      have e1 := unit_rel n (i := k) (j := k + m + 1) (k := k + m + 1) (l := k + m + 2) (by omega) (by omega) (by omega) (by omega)
      rw [if_pos rfl, if_neg (by omega), sub_zero] at e1
      have e2 := unit_rel n (i := k + m + 2) (j := k + m + 1) (k := k + m + 1) (l := k) (by omega) (by omega) (by omega) (by omega)
      rw [if_pos rfl, if_neg (by omega), sub_zero] at e2
      constructor
      · rw [show k + (m + 1) + 1 = k + m + 2 by omega, ← e1, h.lie]
        exact A.sub_mem (A.mul_mem h1 h3) (A.mul_mem h3 h1)
      · rw [show k + (m + 1) + 1 = k + m + 2 by omega, ← e2, h.lie]
        exact A.sub_mem (A.mul_mem h4 h2) (A.mul_mem h2 h4)
  have pair : ∀ p ∈ pairsLT n, f (unit n p.1 p.2) ∈ A ∧ f (unit n p.2 p.1) ∈ A := by
    intro p hp
    obtain ⟨h1, h2⟩ := mem_pairsLT.1 hp
    have := up (p.2 - p.1 - 1) p.1 (by omega)
    rwa [show p.1 + (p.2 - p.1 - 1) + 1 = p.2 by omega] at this
  rw [suBasis, List.mem_append, List.mem_append, List.mem_map, List.mem_map, List.mem_map] at hx
  rcases hx with (⟨p, hp, rfl⟩ | ⟨p, hp, rfl⟩) | ⟨t, ht, rfl⟩
  · rw [map_smul, map_add]
    exact A.smul_mem (A.add_mem (pair p hp).1 (pair p hp).2) _
  · rw [map_sub]
    exact A.sub_mem (pair p hp).1 (pair p hp).2
  · have ht : t + 1 < n := by
      have := List.mem_range.1 ht
      omega
    have e1 := unit_rel n (i := t) (j := t + 1) (k := t + 1) (l := t) (by omega) (by omega) (by omega) (by omega)
    rw [if_pos rfl, if_pos rfl] at e1
    rw [map_smul, ← e1, h.lie]
    exact A.smul_mem (A.sub_mem (A.mul_mem (hE' t ht) (hF' t ht)) (A.mul_mem (hF' t ht) (hE' t ht))) _

/-- The operators that leave a subspace invariant. -/
def stab (U : Submodule ℂ V) : Subalgebra ℂ (End ℂ V) where
  carrier := {A | ∀ x ∈ U, A x ∈ U}
  mul_mem' hA hB x hx := hA _ (hB x hx)
  add_mem' hA hB x hx := U.add_mem (hA x hx) (hB x hx)
  algebraMap_mem' c x hx := by
    rw [Module.algebraMap_end_apply]
    exact U.smul_mem c hx

/-- The pairs of operators that a linear map intertwines. -/
def inter {W : Type*} [AddCommGroup W] [Module ℂ W] (φ : V →ₗ[ℂ] W) : Subalgebra ℂ (End ℂ V × End ℂ W) where
  carrier := {p | ∀ x, φ (p.1 x) = p.2 (φ x)}
  mul_mem' {p q} hp hq x := by
    change φ (p.1 (q.1 x)) = p.2 (q.2 (φ x))
    rw [hp, hq]
  add_mem' {p q} hp hq x := by
    change φ (p.1 x + q.1 x) = p.2 (φ x) + q.2 (φ x)
    rw [map_add, hp, hq]
  algebraMap_mem' c x := by
    change φ (algebraMap ℂ (End ℂ V) c x) = algebraMap ℂ (End ℂ W) c (φ x)
    rw [Module.algebraMap_end_apply, Module.algebraMap_end_apply, map_smul]

/-- Two representations without invariant subspaces and with the same highest weights. -/
theorem GLHom.unique {W : Type*} [AddCommGroup W] [Module ℂ W] {f : Matrix (Fin n) (Fin n) ℂ →ₗ[ℂ] End ℂ V}
    {f' : Matrix (Fin n) (Fin n) ℂ →ₗ[ℂ] End ℂ W} (h : GLHom f) (h' : GLHom f')
    (hs : ∀ U : Submodule ℂ V, (∀ b ∈ suBasis n, ∀ x ∈ U, f b x ∈ U) → U = ⊥ ∨ U = ⊤)
    (hs' : ∀ U : Submodule ℂ W, (∀ b ∈ suBasis n, ∀ x ∈ U, f' b x ∈ U) → U = ⊥ ∨ U = ⊤) {lam : Fin (n - 1) → ℂ} {v : V} {w : W}
    (hv : IsTop (opE f) (opH f) lam v) (hw : IsTop (opE f') (opH f') lam w) :
    ∃ φ : V ≃ₗ[ℂ] W, ∀ b ∈ suBasis n, ∀ x, φ (f b x) = f' b (φ x) := by
  obtain ⟨φ, h1, h2, -⟩ := Highest.unique h.sys h'.sys (rhoA_cartan n)
    (fun U hE hF _ => hs U fun b hb => h.generate (stab U) hE hF hb)
    (fun U hE hF _ => hs' U fun b hb => h'.generate (stab U) hE hF hb) hv hw
  have hp : GLHom (f.prod f') := ⟨fun x y => Prod.ext (h.lie x y) (h'.lie x y)⟩
  exact ⟨φ, fun b hb => hp.generate (inter φ.toLinearMap) h1 h2 hb⟩
end

/-- The representation of the matrices of trace zero that belongs to matrices with the commutation relations. -/
theorem exists_hom {R : Type*} [Ring R] [Algebra ℂ R] (hn : n ≠ 0) {A : Fin (n ^ 2 - 1) → Fin (n ^ 2 - 1) → Fin (n ^ 2 - 1) → ℂ}
    (hA : ∀ i j : Fin (n ^ 2 - 1), (suBasis n).getD i 0 * (suBasis n).getD j 0 - (suBasis n).getD j 0 * (suBasis n).getD i 0 =
      ∑ k : Fin (n ^ 2 - 1), A i j k • (suBasis n).getD k 0)
    {X : Fin (n ^ 2 - 1) → R} (hX : ∀ i j, X i * X j - X j * X i = ∑ k, A i j k • X k) :
    ∃ f : Matrix (Fin n) (Fin n) ℂ →ₗ[ℂ] R, GLHom f ∧ ∀ k : Fin (n ^ 2 - 1), f ((suBasis n).getD k 0) = X k := by
  have hl := length_suBasis' n
  set b : Fin (n ^ 2 - 1) → Matrix (Fin n) (Fin n) ℂ := fun k => (suBasis n).getD k 0 with hb
  have hli : LinearIndependent ℂ b := by
    have := suBasis_indep n
    exact (linearIndependent_equiv' (finCongr hl) (by funext k; rfl)).1 this
  have hspan : ∀ x : Matrix (Fin n) (Fin n) ℂ, x.trace = 0 → x ∈ Submodule.span ℂ (Set.range b) := by
    intro x hx
    have := suBasis_span n x hx
    refine Submodule.span_mono ?_ this
    rintro _ ⟨k, rfl⟩
    exact ⟨finCongr hl k, rfl⟩
  have htr : ∀ k, (b k).trace = 0 := fun k => suBasis_trace (getD_mem (by rw [hl]; exact k.2))
  obtain ⟨g, hg⟩ := LinearMap.exists_extend ((Basis.span hli).constr ℂ X)
  have hgb : ∀ k, g (b k) = X k := by
    intro k
    have := congrArg (· ((Basis.span hli) k)) hg
    simp only [LinearMap.comp_apply, Basis.constr_basis] at this
    rw [← this]
    congr 1
    exact (congrArg Subtype.val (Basis.span_apply hli k)).symm
  have glie : ∀ x ∈ Submodule.span ℂ (Set.range b), ∀ y ∈ Submodule.span ℂ (Set.range b), g (x * y - y * x) = g x * g y - g y * g x := by
    intro x hx y hy
    induction hx, hy using Submodule.span_induction₂ with
    | mem_mem x y hx hy =>
      obtain ⟨i, rfl⟩ := hx
      obtain ⟨j, rfl⟩ := hy
      rw [hA, map_sum]
      simp only [map_smul]
      change ∑ k, A i j k • g (b k) = _
      simp only [hgb, hX]
    | zero_left y hy => simp
    | zero_right x hx => simp
    | add_left x y z _ _ _ h1 h2 =>
      rw [show (x + y) * z - z * (x + y) = (x * z - z * x) + (y * z - z * y) by noncomm_ring, map_add, h1, h2, map_add]
      noncomm_ring
    | add_right x y z _ _ _ h1 h2 =>
      rw [show x * (y + z) - (y + z) * x = (x * y - y * x) + (x * z - z * x) by noncomm_ring, map_add, h1, h2, map_add]
      noncomm_ring
    | smul_left r x y _ _ h1 =>
      rw [smul_mul_assoc, mul_smul_comm, ← smul_sub, map_smul, h1, map_smul, smul_mul_assoc, mul_smul_comm, smul_sub]
    | smul_right r x y _ _ h1 =>
      rw [smul_mul_assoc, mul_smul_comm, ← smul_sub, map_smul, h1, map_smul, smul_mul_assoc, mul_smul_comm, smul_sub]
  let π : Matrix (Fin n) (Fin n) ℂ →ₗ[ℂ] Matrix (Fin n) (Fin n) ℂ :=
    LinearMap.id - (traceLinearMap (Fin n) ℂ ℂ).smulRight ((n : ℂ)⁻¹ • (1 : Matrix (Fin n) (Fin n) ℂ))
  have hπ : ∀ x, π x = x - x.trace • (n : ℂ)⁻¹ • 1 := fun x => rfl
  have hπ0 : ∀ x, (π x).trace = 0 := by
    intro x
    rw [hπ, trace_sub, trace_smul, trace_smul, trace_one, Fintype.card_fin, smul_eq_mul, smul_eq_mul,
      inv_mul_cancel₀ (by exact_mod_cast hn), mul_one, sub_self]
  have hπt : ∀ x, x.trace = 0 → π x = x := by
    intro x hx
    rw [hπ, hx, zero_smul, sub_zero]
  refine ⟨g ∘ₗ π, ⟨fun x y => ?_⟩, fun k => ?_⟩
  · have e : π (x * y - y * x) = π x * π y - π y * π x := by
      rw [hπt _ (by rw [trace_sub, trace_mul_comm, sub_self]), hπ, hπ]
      simp only [Matrix.sub_mul, Matrix.mul_sub, Matrix.smul_mul, Matrix.mul_smul, Matrix.one_mul, Matrix.mul_one]
      module
    rw [LinearMap.comp_apply, e, glie _ (hspan _ (hπ0 x)) _ (hspan _ (hπ0 y))]
    rfl
  · rw [LinearMap.comp_apply, hπt _ (htr k)]
    exact hgb k

end LieNN.Highest
