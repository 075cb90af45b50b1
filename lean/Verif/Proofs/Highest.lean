import Mathlib.Algebra.Lie.Sl2
import Mathlib.Algebra.Lie.OfAssociative
import Mathlib.LinearAlgebra.Eigenspace.Triangularizable
import Mathlib.Analysis.Complex.Polynomial.Basic
import Mathlib.LinearAlgebra.Prod
import Mathlib.LinearAlgebra.Eigenspace.Minpoly
/-!
# Highest weight vectors without a scalar product

A finite-dimensional space with raising and lowering operators has a vector that is killed by the raising operators; its
weights are natural numbers, and they determine an irreducible space up to isomorphism.
-/
namespace LieNN.Highest

open Module

attribute [local instance 100] LieRing.ofAssociativeRing

variable {V W : Type*} [AddCommGroup V] [Module ℂ V] [AddCommGroup W] [Module ℂ W]

/-- Raising operators `E`, lowering operators `F`, weights `H` with the integers `c`. -/
structure Sys {r : ℕ} (c : Fin r → Fin r → ℂ) (E F H : Fin r → End ℂ V) : Prop where
  EF : ∀ i j, E i * F j - F j * E i = if i = j then H i else 0
  HE : ∀ i j, H i * E j - E j * H i = c i j • E j
  HF : ∀ i j, H i * F j - F j * H i = -(c i j • F j)
  HH : ∀ i j, H i * H j = H j * H i

variable {r : ℕ} {c : Fin r → Fin r → ℂ} {E F H : Fin r → End ℂ V} {E' F' H' : Fin r → End ℂ W}

/-- A nonzero vector that is killed by the raising operators, with weights `lam`. -/
structure IsTop (E H : Fin r → End ℂ V) (lam : Fin r → ℂ) (v : V) : Prop where
  ne : v ≠ 0
  killed : ∀ i, E i v = 0
  weight : ∀ i, H i v = lam i • v

/-- Commuting operators have a common eigenvector in every invariant subspace. -/
theorem common [FiniteDimensional ℂ V] (hH : ∀ i j, H i * H j = H j * H i) (U : Submodule ℂ V) (hU : U ≠ ⊥)
    (inv : ∀ i, ∀ x ∈ U, H i x ∈ U) : ∃ v ∈ U, v ≠ 0 ∧ ∃ lam : Fin r → ℂ, ∀ i, H i v = lam i • v := by
  have key : ∀ s : Finset (Fin r), ∃ U' ≤ U, U' ≠ ⊥ ∧ (∀ i, ∀ x ∈ U', H i x ∈ U') ∧ ∀ i ∈ s, ∃ μ : ℂ, ∀ x ∈ U', H i x = μ • x := by
    intro s
    induction s using Finset.induction_on with
    | empty => exact ⟨U, le_rfl, hU, inv, by simp⟩
    | insert i s hi ih =>
      obtain ⟨U', h1, h2, h3, h4⟩ := ih
      have : Nontrivial U' := Submodule.nontrivial_iff_ne_bot.2 h2
      obtain ⟨μ, hμ⟩ := End.exists_eigenvalue ((H i).restrict (h3 i))
      obtain ⟨x, hx⟩ := hμ.exists_hasEigenvector
      refine ⟨U' ⊓ End.eigenspace (H i) μ, inf_le_left.trans h1, ?_, ?_, ?_⟩
      · refine (Submodule.ne_bot_iff _).2 ⟨x, ⟨x.2, End.mem_eigenspace_iff.2 ?_⟩, fun h => hx.2 (Subtype.ext h)⟩
        exact congrArg Subtype.val hx.apply_eq_smul
      · rintro j x ⟨hx, hx'⟩
        refine ⟨h3 j x hx, End.mem_eigenspace_iff.2 ?_⟩
        rw [← End.mul_apply, hH, End.mul_apply, End.mem_eigenspace_iff.1 hx', map_smul]
      · intro j hj
        rcases Finset.mem_insert.1 hj with rfl | hj
        · exact ⟨μ, fun x hx => End.mem_eigenspace_iff.1 hx.2⟩
        · obtain ⟨ν, hν⟩ := h4 j hj
          exact ⟨ν, fun x hx => hν x hx.1⟩
  obtain ⟨U', h1, h2, -, h4⟩ := key Finset.univ
  obtain ⟨v, hv, hv0⟩ := (Submodule.ne_bot_iff _).1 h2
  choose lam hlam using fun i => h4 i (Finset.mem_univ i)
  exact ⟨v, h1 hv, hv0, lam, fun i => hlam i v hv⟩

/-- The combination of the weights that counts the raising operators. -/
noncomputable def rho (a : Fin r → ℂ) (H : Fin r → End ℂ V) : End ℂ V := ∑ i, a i • H i

variable {a : Fin r → ℂ}

theorem rho_E (s : Sys c E F H) (ha : ∀ j, ∑ i, a i * c i j = 1) (j : Fin r) : rho a H * E j - E j * rho a H = E j := by
  unfold rho
  rw [Finset.sum_mul, Finset.mul_sum, ← Finset.sum_sub_distrib]
  simp only [smul_mul_assoc, mul_smul_comm, ← smul_sub, s.HE, smul_smul]
  rw [← Finset.sum_smul, ha, one_smul]

theorem rho_F (s : Sys c E F H) (ha : ∀ j, ∑ i, a i * c i j = 1) (j : Fin r) : rho a H * F j - F j * rho a H = -F j := by
  unfold rho
  rw [Finset.sum_mul, Finset.mul_sum, ← Finset.sum_sub_distrib]
  simp only [smul_mul_assoc, mul_smul_comm, ← smul_sub, s.HF, smul_neg, smul_smul]
  rw [Finset.sum_neg_distrib, ← Finset.sum_smul, ha, one_smul]

theorem rho_H (s : Sys c E F H) (j : Fin r) : rho a H * H j = H j * rho a H := by
  unfold rho
  rw [Finset.sum_mul, Finset.mul_sum]
  simp only [smul_mul_assoc, mul_smul_comm, s.HH _ j]

/-- There is a vector killed by the raising operators, in every invariant subspace. -/
theorem exists_top [FiniteDimensional ℂ V] [Nontrivial V] (s : Sys c E F H) (ha : ∀ j, ∑ i, a i * c i j = 1) :
    ∃ v lam, IsTop E H lam v := by
  obtain ⟨μ₀, hμ₀⟩ := End.exists_eigenvalue (rho a H)
  have hfin : (Set.Finite {μ | (rho a H).HasEigenvalue μ}) := End.finite_hasEigenvalue _
  obtain ⟨μ, hμ, hmax⟩ := Set.exists_max_image _ Complex.re hfin ⟨μ₀, hμ₀⟩
  obtain ⟨v, hv, hv0, lam, hlam⟩ := common s.HH (End.eigenspace (rho a H) μ) hμ (fun i x hx => by
    rw [End.mem_eigenspace_iff] at hx ⊢
    rw [← End.mul_apply, rho_H s, End.mul_apply, hx, map_smul])
  refine ⟨v, lam, hv0, fun i => ?_, hlam⟩
  by_contra hne
  have h1 : (rho a H) (E i v) = (μ + 1) • E i v := by
    have := congrArg (· v) (rho_E s ha i)
    simp only [LinearMap.sub_apply, End.mul_apply] at this
    rw [End.mem_eigenspace_iff.1 hv, map_smul, sub_eq_iff_eq_add] at this
    rw [this, add_smul, one_smul, add_comm]
  have h2 := hmax (μ + 1) (End.hasEigenvalue_of_hasEigenvector (x := E i v) ⟨End.mem_eigenspace_iff.2 h1, hne⟩)
  simp at h2
  linarith

/-- The weights of such a vector are natural numbers. -/
theorem weight_nat [FiniteDimensional ℂ V] (s : Sys c E F H) (hc : ∀ i, c i i = 2) {lam : Fin r → ℂ} {v : V} (hv : IsTop E H lam v)
    (i : Fin r) : ∃ n : ℕ, lam i = n := by
  by_cases h0 : H i = 0
  · have := hv.weight i
    rw [h0, LinearMap.zero_apply] at this
    exact ⟨0, by simpa using (smul_eq_zero.1 this.symm).resolve_right hv.ne⟩
  have t : IsSl2Triple (H i) (E i) (F i) :=
    { h_ne_zero := h0
      lie_e_f := by rw [Ring.lie_def, s.EF, if_pos rfl]
      lie_h_e_nsmul := by rw [Ring.lie_def, s.HE, hc, ofNat_smul_eq_nsmul]
      lie_h_f_nsmul := by rw [Ring.lie_def, s.HF, hc, ofNat_smul_eq_nsmul] }
  have P : t.HasPrimitiveVectorWith v (lam i) :=
    { ne_zero := hv.ne
      lie_h := hv.weight i
      lie_e := hv.killed i }
  exact P.exists_nat

/-! ### Uniqueness -/

/-- Words of lowering operators applied to `u`. -/
inductive Word (F : Fin r → End ℂ V) (u : V) : ℕ → V → Prop
  | base : Word F u 0 u
  | step (n : ℕ) (j : Fin r) (x : V) : Word F u n x → Word F u (n + 1) (F j x)

theorem word_rho (s : Sys c E F H) (ha : ∀ j, ∑ i, a i * c i j = 1) {u : V} {μ : ℂ} (hu : rho a H u = μ • u) {n : ℕ} {x : V}
    (hx : Word F u n x) : rho a H x = (μ - n) • x := by
  induction hx with
  | base => simpa using hu
  | step n j x hx ih =>
    have := congrArg (· x) (rho_F s ha j)
    simp only [LinearMap.sub_apply, End.mul_apply, LinearMap.neg_apply] at this
    rw [ih, map_smul, sub_eq_iff_eq_add] at this
    rw [this]
    push_cast
    module

theorem word_H (s : Sys c E F H) {u : V} (hu : ∀ i, ∃ μ : ℂ, H i u = μ • u) {n : ℕ} {x : V} (hx : Word F u n x) (i : Fin r) :
    ∃ μ : ℂ, H i x = μ • x := by
  induction hx with
  | base => exact hu i
  | step n j x hx ih =>
    obtain ⟨μ, hμ⟩ := ih
    refine ⟨μ - c i j, ?_⟩
    have := congrArg (· x) (s.HF i j)
    simp only [LinearMap.sub_apply, End.mul_apply, LinearMap.neg_apply, LinearMap.smul_apply] at this
    rw [hμ, map_smul, sub_eq_iff_eq_add] at this
    rw [this]
    module

/-- The space generated by lowering. -/
def cyc (F : Fin r → End ℂ V) (u : V) : Submodule ℂ V := Submodule.span ℂ {x | ∃ n, Word F u n x}

theorem cyc_F (u : V) (j : Fin r) {x : V} (hx : x ∈ cyc F u) : F j x ∈ cyc F u := by
  have : cyc F u ≤ (cyc F u).comap (F j) := Submodule.span_le.2 fun y ⟨n, hy⟩ => Submodule.subset_span ⟨n + 1, .step n j y hy⟩
  exact this hx

theorem cyc_H (s : Sys c E F H) {u : V} (hu : ∀ i, ∃ μ : ℂ, H i u = μ • u) (i : Fin r) {x : V} (hx : x ∈ cyc F u) : H i x ∈ cyc F u := by
  have : cyc F u ≤ (cyc F u).comap (H i) := Submodule.span_le.2 fun y ⟨n, hy⟩ => by
    obtain ⟨μ, hμ⟩ := word_H s hu hy i
    change H i y ∈ cyc F u
    rw [hμ]
    exact Submodule.smul_mem _ _ (Submodule.subset_span ⟨n, hy⟩)
  exact this hx

theorem cyc_E (s : Sys c E F H) {u : V} (hu : ∀ i, ∃ μ : ℂ, H i u = μ • u) (hk : ∀ i, E i u = 0) (i : Fin r) {x : V} (hx : x ∈ cyc F u) :
    E i x ∈ cyc F u := by
  have : cyc F u ≤ (cyc F u).comap (E i) := Submodule.span_le.2 fun y hy => by
    obtain ⟨n, hy⟩ := hy
    change E i y ∈ cyc F u
    induction hy with
    | base => rw [hk]; exact Submodule.zero_mem _
    | step n j x hx ih =>
      have := congrArg (· x) (s.EF i j)
      simp only [LinearMap.sub_apply, End.mul_apply] at this
      rw [sub_eq_iff_eq_add] at this
      rw [this]
      refine Submodule.add_mem _ ?_ (cyc_F u j ih)
      split_ifs
      · exact cyc_H s hu i (Submodule.subset_span ⟨n, hx⟩)
      · exact Submodule.zero_mem _
  exact this hx

/-- The only vectors of the weight of `u` are its multiples. -/
theorem cyc_top (s : Sys c E F H) (ha : ∀ j, ∑ i, a i * c i j = 1) {u : V} {μ : ℂ} (hu : rho a H u = μ • u) {x : V} (hx : x ∈ cyc F u)
    (hxr : rho a H x = μ • x) : ∃ b : ℂ, x = b • u := by
  have h1 : ∀ x ∈ cyc F u, ∃ b : ℂ, ∃ y ∈ ⨆ ν, ⨆ _ : ν ≠ μ, End.eigenspace (rho a H) ν, x = b • u + y := by
    intro x hx
    induction hx using Submodule.span_induction with
    | mem x hx =>
      obtain ⟨n, hx⟩ := hx
      cases hx with
      | base => exact ⟨1, 0, Submodule.zero_mem _, by simp⟩
      | step n j x hx =>
        refine ⟨0, F j x, ?_, by simp⟩
        refine Submodule.mem_iSup_of_mem (μ - (n + 1 : ℕ)) (Submodule.mem_iSup_of_mem ?_ (End.mem_eigenspace_iff.2 (word_rho s ha hu (.step n j x hx))))
        intro h
        have : ((n + 1 : ℕ) : ℂ) = 0 := by linear_combination -h
        exact absurd this (by exact_mod_cast Nat.succ_ne_zero n)
    | zero => exact ⟨0, 0, Submodule.zero_mem _, by simp⟩
    | add x y _ _ hx hy =>
      obtain ⟨b, z, hz, rfl⟩ := hx
      obtain ⟨b', z', hz', rfl⟩ := hy
      exact ⟨b + b', z + z', Submodule.add_mem _ hz hz', by module⟩
    | smul t x _ hx =>
      obtain ⟨b, z, hz, rfl⟩ := hx
      exact ⟨t * b, t • z, Submodule.smul_mem _ _ hz, by module⟩
  obtain ⟨b, y, hy, rfl⟩ := h1 x hx
  have h2 : y ∈ End.eigenspace (rho a H) μ := by
    rw [End.mem_eigenspace_iff]
    rw [map_add, map_smul, hu, smul_add, smul_comm] at hxr
    exact add_left_cancel hxr
  have h3 := Submodule.disjoint_def.1 (End.eigenspaces_iSupIndep (rho a H) μ) y h2 hy
  exact ⟨b, by rw [h3, add_zero]⟩

/-- No invariant subspaces. -/
def Simple (E F H : Fin r → End ℂ V) : Prop :=
  ∀ U : Submodule ℂ V, (∀ i, ∀ x ∈ U, E i x ∈ U) → (∀ i, ∀ x ∈ U, F i x ∈ U) → (∀ i, ∀ x ∈ U, H i x ∈ U) → U = ⊥ ∨ U = ⊤

theorem Sys.prod (s : Sys c E F H) (s' : Sys c E' F' H') :
    Sys c (fun i => (E i).prodMap (E' i)) (fun i => (F i).prodMap (F' i)) (fun i => (H i).prodMap (H' i)) := by
  have hm : ∀ (A B : End ℂ V) (A' B' : End ℂ W), (A.prodMap A' : End ℂ (V × W)) * B.prodMap B' = (A * B).prodMap (A' * B') :=
    fun _ _ _ _ => rfl
  have hs : ∀ (A B : End ℂ V) (A' B' : End ℂ W), (A.prodMap A' : End ℂ (V × W)) - B.prodMap B' = (A - B).prodMap (A' - B') :=
    fun _ _ _ _ => rfl
  constructor
  · intro i j
    rw [hm, hm, hs, s.EF, s'.EF]
    split_ifs
    · rfl
    · rfl
  · intro i j
    rw [hm, hm, hs, s.HE, s'.HE]
    rfl
  · intro i j
    rw [hm, hm, hs, s.HF, s'.HF]
    rfl
  · intro i j
    rw [hm, hm, s.HH, s'.HH]

/-- Two simple spaces with the same highest weights are isomorphic. -/
theorem unique (s : Sys c E F H) (s' : Sys c E' F' H') (ha : ∀ j, ∑ i, a i * c i j = 1) (hs : Simple E F H) (hs' : Simple E' F' H')
    {lam : Fin r → ℂ} {v : V} {w : W} (hv : IsTop E H lam v) (hw : IsTop E' H' lam w) :
    ∃ φ : V ≃ₗ[ℂ] W, (∀ i x, φ (E i x) = E' i (φ x)) ∧ (∀ i x, φ (F i x) = F' i (φ x)) ∧ ∀ i x, φ (H i x) = H' i (φ x) := by
  set Fp : Fin r → End ℂ (V × W) := fun i => (F i).prodMap (F' i) with hFp
  set Hp : Fin r → End ℂ (V × W) := fun i => (H i).prodMap (H' i) with hHp
  have sp := s.prod s'
  set U := cyc Fp (v, w) with hU
  have hHu : ∀ i, Hp i (v, w) = lam i • (v, w) := fun i => Prod.ext (hv.weight i) (hw.weight i)
  have hEu : ∀ i, (E i).prodMap (E' i) (v, w) = 0 := fun i => Prod.ext (hv.killed i) (hw.killed i)
  have iE : ∀ i x, x ∈ U → (E i x.1, E' i x.2) ∈ U := fun i x hx => cyc_E sp (fun i => ⟨_, hHu i⟩) hEu i hx
  have iH : ∀ i x, x ∈ U → (H i x.1, H' i x.2) ∈ U := fun i x hx => cyc_H sp (fun i => ⟨_, hHu i⟩) i hx
  have iF : ∀ i x, x ∈ U → (F i x.1, F' i x.2) ∈ U := fun i x hx => cyc_F (F := Fp) _ i hx
  have hu : (v, w) ∈ U := Submodule.subset_span ⟨0, .base⟩
  have hr : ∀ x : V × W, (∀ i, Hp i x = lam i • x) → rho a Hp x = (∑ i, a i * lam i) • x := by
    intro x hx
    simp only [rho, LinearMap.sum_apply, LinearMap.smul_apply, hx, smul_smul, Finset.sum_smul]
  have top : ∀ x ∈ U, (∀ i, Hp i x = lam i • x) → ∃ b : ℂ, x = b • (v, w) := fun x hx hxr =>
    cyc_top sp ha (hr _ hHu) hx (hr _ hxr)
  -- the kernels
  have k2 : ∀ y, ((0 : V), y) ∈ U → y = 0 := by
    have hK := hs' (U.comap (LinearMap.inr ℂ V W)) (fun i x hx => by simpa using iE i _ hx) (fun i x hx => by simpa using iF i _ hx)
      (fun i x hx => by simpa using iH i _ hx)
    rcases hK with hK | hK
    · intro y hy
      have : y ∈ U.comap (LinearMap.inr ℂ V W) := hy
      rwa [hK] at this
    · exfalso
      have : w ∈ U.comap (LinearMap.inr ℂ V W) := hK ▸ Submodule.mem_top
      obtain ⟨b, hb⟩ := top (0, w) this fun i => Prod.ext (by simp [hHp]) (hw.weight i)
      have h1 : (0 : V) = b • v := congrArg Prod.fst hb
      have h2 : w = b • w := congrArg Prod.snd hb
      have : b = 0 := (smul_eq_zero.1 h1.symm).resolve_right hv.ne
      rw [this, zero_smul] at h2
      exact hw.ne h2
  have k1 : ∀ x, (x, (0 : W)) ∈ U → x = 0 := by
    have hK := hs (U.comap (LinearMap.inl ℂ V W)) (fun i x hx => by simpa using iE i _ hx) (fun i x hx => by simpa using iF i _ hx)
      (fun i x hx => by simpa using iH i _ hx)
    rcases hK with hK | hK
    · intro y hy
      have : y ∈ U.comap (LinearMap.inl ℂ V W) := hy
      rwa [hK] at this
    · exfalso
      have : v ∈ U.comap (LinearMap.inl ℂ V W) := hK ▸ Submodule.mem_top
      obtain ⟨b, hb⟩ := top (v, 0) this fun i => Prod.ext (hv.weight i) (by simp [hHp])
      have h1 : v = b • v := congrArg Prod.fst hb
      have h2 : (0 : W) = b • w := congrArg Prod.snd hb
      have : b = 0 := (smul_eq_zero.1 h2.symm).resolve_right hw.ne
      rw [this, zero_smul] at h1
      exact hv.ne h1
  -- the images
  have i1 : U.map (LinearMap.fst ℂ V W) = ⊤ := by
    refine (hs _ ?_ ?_ ?_).resolve_left fun h => ?_
    · rintro i _ ⟨x, hx, rfl⟩
      exact ⟨_, iE i x hx, rfl⟩
    · rintro i _ ⟨x, hx, rfl⟩
      exact ⟨_, iF i x hx, rfl⟩
    · rintro i _ ⟨x, hx, rfl⟩
      exact ⟨_, iH i x hx, rfl⟩
    · have : v ∈ U.map (LinearMap.fst ℂ V W) := ⟨_, hu, rfl⟩
      rw [h] at this
      exact hv.ne this
  have i2 : U.map (LinearMap.snd ℂ V W) = ⊤ := by
    refine (hs' _ ?_ ?_ ?_).resolve_left fun h => ?_
    · rintro i _ ⟨x, hx, rfl⟩
      exact ⟨_, iE i x hx, rfl⟩
    · rintro i _ ⟨x, hx, rfl⟩
      exact ⟨_, iF i x hx, rfl⟩
    · rintro i _ ⟨x, hx, rfl⟩
      exact ⟨_, iH i x hx, rfl⟩
    · have : w ∈ U.map (LinearMap.snd ℂ V W) := ⟨_, hu, rfl⟩
      rw [h] at this
      exact hw.ne this
  let e1 : U ≃ₗ[ℂ] V := LinearEquiv.ofBijective ((LinearMap.fst ℂ V W).comp U.subtype) ⟨by
    rw [← LinearMap.ker_eq_bot, LinearMap.ker_eq_bot']
    rintro ⟨⟨x, y⟩, hx⟩ h
    obtain rfl : x = 0 := h
    obtain rfl := k2 y hx
    rfl, by
    intro x
    have : x ∈ U.map (LinearMap.fst ℂ V W) := i1 ▸ Submodule.mem_top
    obtain ⟨y, hy, rfl⟩ := this
    exact ⟨⟨y, hy⟩, rfl⟩⟩
  let e2 : U ≃ₗ[ℂ] W := LinearEquiv.ofBijective ((LinearMap.snd ℂ V W).comp U.subtype) ⟨by
    rw [← LinearMap.ker_eq_bot, LinearMap.ker_eq_bot']
    rintro ⟨⟨x, y⟩, hx⟩ h
    obtain rfl : y = 0 := h
    obtain rfl := k1 x hx
    rfl, by
    intro x
    have : x ∈ U.map (LinearMap.snd ℂ V W) := i2 ▸ Submodule.mem_top
    obtain ⟨y, hy, rfl⟩ := this
    exact ⟨⟨y, hy⟩, rfl⟩⟩
  have hφ : ∀ p : V × W, p ∈ U → (e1.symm.trans e2) p.1 = p.2 := by
    intro p hp
    have : e1.symm p.1 = ⟨p, hp⟩ := by
      rw [LinearEquiv.symm_apply_eq]
      rfl
    rw [LinearEquiv.trans_apply, this]
    rfl
  have hmem : ∀ x, (x, (e1.symm.trans e2) x) ∈ U := by
    intro x
    have h1 : (e1.symm x).1.1 = x := e1.apply_symm_apply x
    have h2 := hφ _ (e1.symm x).2
    rw [h1] at h2
    rw [h2]
    convert (e1.symm x).2
    exact h1.symm
  exact ⟨e1.symm.trans e2, fun i x => hφ _ (iE i _ (hmem x)), fun i x => hφ _ (iF i _ (hmem x)), fun i x => hφ _ (iH i _ (hmem x))⟩

end LieNN.Highest
