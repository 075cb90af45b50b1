import Verif.Proofs.HighestSUN
import Verif.Proofs.SO13Gap
import Verif.Proofs.RecomputeGap
import Verif.Proofs.LorentzSL2C
import Verif.Props.SL2C
import Verif.Props.SU2
/-!
# Highest weights for commuting copies of `su(2)`
-/
namespace LieNN.Highest

open Module Matrix LieNN LieNN.Spec LieNN.CGSpace

variable {r : ℕ} {V W : Type*} [AddCommGroup V] [Module ℂ V] [AddCommGroup W] [Module ℂ W]

/-- Commuting operators, each triple with the brackets of `su(2)`. -/
structure Pack (F : Fin r → Fin 3 → End ℂ V) : Prop where
  h01 : ∀ i, F i 0 * F i 1 - F i 1 * F i 0 = F i 2
  h12 : ∀ i, F i 1 * F i 2 - F i 2 * F i 1 = F i 0
  h20 : ∀ i, F i 2 * F i 0 - F i 0 * F i 2 = F i 1
  comm : ∀ i j, i ≠ j → ∀ a b, F i a * F j b = F j b * F i a

/-- Raising. -/
noncomputable def pE (F : Fin r → Fin 3 → End ℂ V) (i : Fin r) : End ℂ V := F i 0 + Complex.I • F i 2
/-- Lowering. -/
noncomputable def pF (F : Fin r → Fin 3 → End ℂ V) (i : Fin r) : End ℂ V := Complex.I • F i 2 - F i 0
/-- Weights. -/
noncomputable def pH (F : Fin r → Fin 3 → End ℂ V) (i : Fin r) : End ℂ V := (-2 * Complex.I) • F i 1

/-- The Cartan matrix. -/
def pc (i j : Fin r) : ℂ := if i = j then 2 else 0

theorem pc_diag (i : Fin r) : pc i i = 2 := by simp [pc]

theorem pc_half (j : Fin r) : ∑ i, (1 / 2 : ℂ) * pc i j = 1 := by
  simp [pc]

variable {F : Fin r → Fin 3 → End ℂ V} {G : Fin r → Fin 3 → End ℂ W}

theorem Pack.sys (h : Pack F) : Sys pc (pE F) (pF F) (pH F) := by
  have II : Complex.I * Complex.I = -1 := Complex.I_mul_I
  constructor
  · intro i j
    by_cases hij : i = j
    · subst hij
      rw [if_pos rfl]
      have e : pE F i * pF F i - pF F i * pE F i = (-2 * Complex.I) • (F i 2 * F i 0 - F i 0 * F i 2) := by
        simp only [pE, pF, add_mul, mul_sub, sub_mul, mul_add, smul_mul_assoc, mul_smul_comm]
        module
      rw [e, h.h20]
      rfl
    · rw [if_neg hij]
      simp only [pE, pF, add_mul, mul_sub, sub_mul, mul_add, smul_mul_assoc, mul_smul_comm, h.comm i j hij]
      module
  · intro i j
    by_cases hij : i = j
    · subst hij
      have e : pH F i * pE F i - pE F i * pH F i = (2 * Complex.I) • (F i 0 * F i 1 - F i 1 * F i 0) +
          (-2 * (Complex.I * Complex.I)) • (F i 1 * F i 2 - F i 2 * F i 1) := by
        simp only [pE, pH, add_mul, mul_add, smul_mul_assoc, mul_smul_comm]
        module
      rw [e, h.h01, h.h12, II, pc_diag, pE]
      module
    · rw [pc, if_neg hij]
      simp only [pE, pH, add_mul, mul_add, smul_mul_assoc, mul_smul_comm, h.comm i j hij]
      module
  · intro i j
    by_cases hij : i = j
    · subst hij
      have e : pH F i * pF F i - pF F i * pH F i = -(2 * Complex.I) • (F i 0 * F i 1 - F i 1 * F i 0) +
          (-2 * (Complex.I * Complex.I)) • (F i 1 * F i 2 - F i 2 * F i 1) := by
        simp only [pF, pH, sub_mul, mul_sub, smul_mul_assoc, mul_smul_comm]
        module
      rw [e, h.h01, h.h12, II, pc_diag, pF]
      module
    · rw [pc, if_neg hij]
      simp only [pF, pH, sub_mul, mul_sub, smul_mul_assoc, mul_smul_comm, h.comm i j hij]
      module
  · intro i j
    by_cases hij : i = j
    · subst hij; rfl
    · simp only [pH, smul_mul_assoc, mul_smul_comm, h.comm i j hij]

theorem F0_eq (F : Fin r → Fin 3 → End ℂ V) (i : Fin r) : F i 0 = (1 / 2 : ℂ) • (pE F i - pF F i) := by
  simp only [pE, pF]; module

theorem F2_eq (F : Fin r → Fin 3 → End ℂ V) (i : Fin r) : F i 2 = (-(Complex.I / 2)) • (pE F i + pF F i) := by
  simp only [pE, pF]
  have : (-(Complex.I / 2)) • (F i 0 + Complex.I • F i 2 + (Complex.I • F i 2 - F i 0)) = (-(Complex.I * Complex.I)) • F i 2 := by module
  rw [this, Complex.I_mul_I]
  module

theorem F1_eq (F : Fin r → Fin 3 → End ℂ V) (i : Fin r) : F i 1 = (Complex.I / 2) • pH F i := by
  rw [pH, smul_smul, show Complex.I / 2 * (-2 * Complex.I) = 1 by linear_combination -Complex.I_mul_I, one_smul]

theorem Pack.mem (A : Subalgebra ℂ (End ℂ V)) (hE : ∀ i, pE F i ∈ A) (hF : ∀ i, pF F i ∈ A) (hH : ∀ i, pH F i ∈ A) (i : Fin r) (a : Fin 3) :
    F i a ∈ A := by
  fin_cases a
  · change F i 0 ∈ A
    rw [F0_eq F]; exact A.smul_mem (A.sub_mem (hE i) (hF i)) _
  · change F i 1 ∈ A
    rw [F1_eq F]; exact A.smul_mem (hH i) _
  · change F i 2 ∈ A
    rw [F2_eq F]; exact A.smul_mem (A.add_mem (hE i) (hF i)) _

theorem Pack.simple (hs : ∀ U : Submodule ℂ V, (∀ i a, ∀ x ∈ U, F i a x ∈ U) → U = ⊥ ∨ U = ⊤) : Simple (pE F) (pF F) (pH F) :=
  fun U hE hF hH => hs U fun i a => Pack.mem (stab U) hE hF hH i a

/-- Packs without invariant subspaces and with the same highest weights. -/
theorem Pack.unique (h : Pack F) (h' : Pack G) (hs : ∀ U : Submodule ℂ V, (∀ i a, ∀ x ∈ U, F i a x ∈ U) → U = ⊥ ∨ U = ⊤)
    (hs' : ∀ U : Submodule ℂ W, (∀ i a, ∀ x ∈ U, G i a x ∈ U) → U = ⊥ ∨ U = ⊤) {lam : Fin r → ℂ} {v : V} {w : W}
    (hv : IsTop (pE F) (pH F) lam v) (hw : IsTop (pE G) (pH G) lam w) :
    ∃ φ : V ≃ₗ[ℂ] W, ∀ i a x, φ (F i a x) = G i a (φ x) := by
  obtain ⟨φ, h1, h2, h3⟩ := Highest.unique h.sys h'.sys pc_half (Pack.simple hs) (Pack.simple hs') hv hw
  refine ⟨φ, fun i a x => ?_⟩
  fin_cases a
  · change φ (F i 0 x) = G i 0 (φ x)
    rw [F0_eq F, F0_eq G]
    simp only [LinearMap.smul_apply, LinearMap.sub_apply, map_smul, map_sub, h1, h2]
  · change φ (F i 1 x) = G i 1 (φ x)
    rw [F1_eq F, F1_eq G]
    simp only [LinearMap.smul_apply, map_smul, h3]
  · change φ (F i 2 x) = G i 2 (φ x)
    rw [F2_eq F, F2_eq G]
    simp only [LinearMap.smul_apply, LinearMap.add_apply, map_smul, map_add, h1, h2]

/-! ## Matrices -/

variable {ι κ : Type*} [Fintype ι] [DecidableEq ι] [Fintype κ] [DecidableEq κ]

/-- The operators of matrices. -/
noncomputable def ops (M : Fin r → Fin 3 → Matrix ι ι ℂ) (i : Fin r) (a : Fin 3) : End ℂ (ι → ℂ) := Matrix.toLinAlgEquiv' (M i a)

theorem ops_apply (M : Fin r → Fin 3 → Matrix ι ι ℂ) (i : Fin r) (a : Fin 3) (x : ι → ℂ) : ops M i a x = M i a *ᵥ x := rfl

theorem ops_pack {M : Fin r → Fin 3 → Matrix ι ι ℂ} (h : ∀ i, Su2Mats (M i)) (hc : ∀ i j, i ≠ j → ∀ a b, M i a * M j b = M j b * M i a) :
    Pack (ops M) := by
  constructor
  · intro i
    unfold ops
    rw [← map_mul, ← map_mul, ← map_sub, (h i).h01]
  · intro i
    unfold ops
    rw [← map_mul, ← map_mul, ← map_sub, (h i).h12]
  · intro i
    unfold ops
    rw [← map_mul, ← map_mul, ← map_sub, (h i).h20]
  · intro i j hij a b
    unfold ops
    rw [← map_mul, ← map_mul, hc i j hij]

theorem raising_eq (j : ℕ) : SU2.gens j 0 + Complex.I • SU2.gens j 2 = SU2.raising j := by
  change (0.5 : ℂ) • (SU2.raising j + SU2.lowering j) + Complex.I • ((-0.5 * Complex.I) • (SU2.raising j - SU2.lowering j)) = _
  rw [smul_smul, show Complex.I * (-0.5 * Complex.I) = 0.5 by linear_combination (-0.5) * Complex.I_mul_I]
  module

/-- The last basis vector of `SU2(j)` has the highest weight. -/
theorem gens_top (j : ℕ) : (SU2.gens j 0 + Complex.I • SU2.gens j 2) *ᵥ Pi.single (Fin.last j) 1 = 0 ∧
    ((-2 * Complex.I) • SU2.gens j 1) *ᵥ Pi.single (Fin.last j) 1 = (j : ℂ) • (Pi.single (Fin.last j) 1 : Fin (j + 1) → ℂ) := by
  constructor
  · rw [raising_eq]
    funext a
    rw [mulVec_single_one]
    change SU2.raising j a (Fin.last j) = 0
    rw [SU2.raising, if_neg]
    have := a.2
    rw [Fin.val_last]
    omega
  · change ((-2 * Complex.I) • SU2.zGen j) *ᵥ _ = _
    funext a
    rw [SU2.zGen, ← diagonal_smul, mulVec_diagonal]
    by_cases h : a = Fin.last j
    · subst h
      simp
      linear_combination (-(j : ℂ)) * Complex.I_mul_I
    · simp [Pi.single_eq_of_ne h]

theorem map_star_smul (c : ℂ) {m : ℕ} (M : Matrix (Fin m) (Fin m) ℂ) : (c • M).map star = star c • M.map star := by
  ext i j
  simp [Matrix.map_apply]

/-- The first basis vector has the highest weight for the conjugate matrices. -/
theorem gens_top_star (j : ℕ) : ((SU2.gens j 0).map star + Complex.I • (SU2.gens j 2).map star) *ᵥ Pi.single 0 1 = 0 ∧
    ((-2 * Complex.I) • (SU2.gens j 1).map star) *ᵥ Pi.single 0 1 = (j : ℂ) • (Pi.single 0 1 : Fin (j + 1) → ℂ) := by
  constructor
  · have e : (SU2.gens j 0).map star + Complex.I • (SU2.gens j 2).map star = SU2.lowering j := by
      have e1 : (SU2.raising j).map star = SU2.raising j := by
        ext a b; simp only [SU2.raising, Matrix.map_apply]; split_ifs <;> simp
      have e2 : (SU2.lowering j).map star = SU2.lowering j := by
        ext a b; simp only [SU2.lowering, Matrix.map_apply]; split_ifs <;> simp
      change ((0.5 : ℂ) • (SU2.raising j + SU2.lowering j)).map star +
        Complex.I • ((-0.5 * Complex.I) • (SU2.raising j - SU2.lowering j)).map star = _
      rw [map_star_smul, map_star_smul, Matrix.map_add _ (fun x y => star_add x y), Matrix.map_sub _ (fun x y => star_sub x y), e1, e2]
      have e3 : star (0.5 : ℂ) = 0.5 := by
        rw [show (0.5 : ℂ) = ((0.5 : ℝ) : ℂ) by push_cast; rfl]
        exact Complex.conj_ofReal _
      rw [star_mul', star_neg, e3, smul_smul, show (star Complex.I : ℂ) = -Complex.I from Complex.conj_I,
        show Complex.I * (-0.5 * -Complex.I) = -0.5 by linear_combination (0.5) * Complex.I_mul_I]
      module
    rw [e]
    funext a
    rw [mulVec_single_one]
    change SU2.lowering j a 0 = 0
    rw [SU2.lowering, if_neg]
    simp
  · change ((-2 * Complex.I) • (SU2.zGen j).map star) *ᵥ _ = _
    funext a
    have : (SU2.zGen j).map star = Matrix.diagonal fun r : Fin (j + 1) => -Complex.I * (((-(j / 2) + (r : ℕ) : ℝ)) : ℂ) := by
      rw [SU2.zGen, Matrix.diagonal_map (star_zero _)]
      congr 1
      funext r
      rw [star_mul', show (star Complex.I : ℂ) = -Complex.I from Complex.conj_I]
      congr 1
      exact Complex.conj_ofReal _
    rw [this, ← diagonal_smul, mulVec_diagonal]
    by_cases h : a = 0
    · subst h
      simp
      linear_combination (-(j : ℂ)) * Complex.I_mul_I
    · simp [Pi.single_eq_of_ne h]

/-! ## `SU2` -/

theorem su2_top (j : ℕ) : IsTop (pE (ops fun _ : Fin 1 => SU2.gens j)) (pH (ops fun _ : Fin 1 => SU2.gens j)) (fun _ => (j : ℂ))
    (Pi.single (Fin.last j) 1) := by
  obtain ⟨h1, h2⟩ := gens_top j
  refine ⟨fun h => ?_, fun _ => ?_, fun _ => ?_⟩
  · have := congrFun h (Fin.last j)
    simp at this
  · rw [add_mulVec, smul_mulVec] at h1
    exact h1
  · rw [smul_mulVec] at h2
    exact h2

/-- Every irreducible triple with the brackets of `su(2)` is that of a label. -/
theorem su2_complete {d : ℕ} {X : Fin 3 → Matrix (Fin d) (Fin d) ℂ} (h : Su2Mats X) (hirr : IrreducibleFamily X) :
    ∃ j, Equivalent X (SU2.gens j) := by
  have hp : Pack (ops fun _ : Fin 1 => X) := ops_pack (fun _ => h) fun i j hij => absurd (Subsingleton.elim i j) hij
  have : Nonempty (Fin d) := ⟨⟨0, hirr.1⟩⟩
  obtain ⟨v, lam, hv⟩ := exists_top hp.sys pc_half
  obtain ⟨j, hj⟩ := weight_nat hp.sys pc_diag hv 0
  have hl : lam = fun _ => (j : ℂ) := by
    funext i
    rw [Subsingleton.elim i 0, hj]
  subst hl
  have hp' : Pack (ops fun _ : Fin 1 => SU2.gens j) :=
    ops_pack (fun _ => SO13.su2Mats_gens j) fun i j hij => absurd (Subsingleton.elim i j) hij
  obtain ⟨φ, hφ⟩ := Pack.unique hp hp' (fun U hU => hirr.2 U fun a => hU 0 a)
    (fun U hU => (Props.C36_irreducible j).2.2 U fun a => hU 0 a) hv (su2_top j)
  exact ⟨j, equivalent_of_linear φ fun a x => hφ 0 a x⟩

/-! ## `SL2C` -/

/-- The two copies of `su(2)`. -/
noncomputable def two {ι : Type*} (L R : Fin 3 → Matrix ι ι ℂ) : Fin 2 → Fin 3 → Matrix ι ι ℂ := ![L, R]

theorem two_pack {L R : Fin 3 → Matrix ι ι ℂ} (hL : Su2Mats L) (hR : Su2Mats R) (hc : ∀ a b, L a * R b = R b * L a) : Pack (ops (two L R)) := by
  refine ops_pack (fun i => ?_) fun i j hij a b => ?_
  · fin_cases i
    · exact hL
    · exact hR
  · fin_cases i <;> fin_cases j
    · exact absurd rfl hij
    · exact hc a b
    · exact (hc b a).symm
    · exact absurd rfl hij

/-- A product vector. -/
def pv {l k : ℕ} (x : Fin (l + 1) → ℂ) (y : Fin (k + 1) → ℂ) : Fin (l + 1) × Fin (k + 1) → ℂ := fun p => x p.1 * y p.2

theorem kron_left {l k : ℕ} (A : Matrix (Fin (l + 1)) (Fin (l + 1)) ℂ) (x : Fin (l + 1) → ℂ) (y : Fin (k + 1) → ℂ) :
    kroneckerMap (· * ·) A (1 : Matrix (Fin (k + 1)) (Fin (k + 1)) ℂ) *ᵥ pv x y = pv (A *ᵥ x) y := by
  funext p
  simp only [mulVec, dotProduct, pv, Fintype.sum_prod_type, kroneckerMap_apply, one_apply, mul_ite, mul_one, mul_zero, ite_mul, zero_mul,
    Finset.sum_ite_eq, Finset.mem_univ, if_true, Finset.sum_mul, mul_assoc]

theorem kron_right {l k : ℕ} (A : Matrix (Fin (k + 1)) (Fin (k + 1)) ℂ) (x : Fin (l + 1) → ℂ) (y : Fin (k + 1) → ℂ) :
    kroneckerMap (· * ·) (1 : Matrix (Fin (l + 1)) (Fin (l + 1)) ℂ) A *ᵥ pv x y = pv x (A *ᵥ y) := by
  funext p
  simp only [mulVec, dotProduct, pv, Fintype.sum_prod_type, kroneckerMap_apply, one_apply]
  rw [Finset.sum_eq_single p.1 _ (by simp)]
  · simp only [if_pos, one_mul, Finset.mul_sum]
    exact Finset.sum_congr rfl fun a _ => by ring
  · intro b _ hb
    exact Finset.sum_eq_zero fun a _ => by rw [if_neg (Ne.symm hb), zero_mul, zero_mul]

/-- The top vector of a label of `SL2C`. -/
noncomputable def topVec (r : SL2C) : Fin r.dim → ℂ := (SL2C.B r.l r.k)ᵀ *ᵥ pv (Pi.single (Fin.last r.l) 1) (Pi.single 0 1)

theorem conjB_vec {r : SL2C} (M : Matrix (Fin (r.l + 1) × Fin (r.k + 1)) (Fin (r.l + 1) × Fin (r.k + 1)) ℂ)
    (w : Fin (r.l + 1) × Fin (r.k + 1) → ℂ) :
    ((SL2C.B r.l r.k)ᵀ * M * SL2C.B r.l r.k) *ᵥ ((SL2C.B r.l r.k)ᵀ *ᵥ w) = (SL2C.B r.l r.k)ᵀ *ᵥ (M *ᵥ w) := by
  rw [mulVec_mulVec, Matrix.mul_assoc, SL2C.B_mul, Matrix.mul_one, mulVec_mulVec]

theorem sl2c_top (r : SL2C) : IsTop (pE (ops (two (SO13.lm r) (SO13.rm r)))) (pH (ops (two (SO13.lm r) (SO13.rm r))))
    (fun i => ((![r.l, r.k] i : ℕ) : ℂ)) (topVec r) := by
  obtain ⟨h1, h2⟩ := gens_top r.l
  obtain ⟨h3, h4⟩ := gens_top_star r.k
  rw [add_mulVec, smul_mulVec] at h1 h3
  rw [smul_mulVec] at h2 h4
  have hpa : ∀ {l k : ℕ} (x x' : Fin (l + 1) → ℂ) (y : Fin (k + 1) → ℂ), pv x y + pv x' y = pv (x + x') y := by
    intro l k x x' y; funext p; simp [pv]; ring
  have hpa' : ∀ {l k : ℕ} (x : Fin (l + 1) → ℂ) (y y' : Fin (k + 1) → ℂ), pv x y + pv x y' = pv x (y + y') := by
    intro l k x y y'; funext p; simp [pv]; ring
  have hps : ∀ {l k : ℕ} (c : ℂ) (x : Fin (l + 1) → ℂ) (y : Fin (k + 1) → ℂ), c • pv x y = pv (c • x) y := by
    intro l k c x y; funext p; simp [pv]; ring
  have hps' : ∀ {l k : ℕ} (c : ℂ) (x : Fin (l + 1) → ℂ) (y : Fin (k + 1) → ℂ), c • pv x y = pv x (c • y) := by
    intro l k c x y; funext p; simp [pv]; ring
  have z1 : ∀ {l k : ℕ} (y : Fin (k + 1) → ℂ), pv (0 : Fin (l + 1) → ℂ) y = 0 := by
    intro l k y; funext p; simp [pv]
  have z2 : ∀ {l k : ℕ} (x : Fin (l + 1) → ℂ), pv x (0 : Fin (k + 1) → ℂ) = 0 := by
    intro l k y; funext p; simp [pv]
  refine ⟨fun h => ?_, fun i => ?_, fun i => ?_⟩
  · have : SL2C.B r.l r.k *ᵥ topVec r = pv (Pi.single (Fin.last r.l) 1) (Pi.single 0 1) := by
      rw [topVec, mulVec_mulVec, SL2C.B_mul, one_mulVec]
    rw [h, mulVec_zero] at this
    have := congrFun this (Fin.last r.l, 0)
    simp [pv] at this
  · fin_cases i
    · change SO13.lm r 0 *ᵥ topVec r + Complex.I • (SO13.lm r 2 *ᵥ topVec r) = 0
      unfold SO13.lm topVec SL2C.Zl
      rw [conjB_vec, conjB_vec, kron_left, kron_left, ← mulVec_smul, ← mulVec_add, hps, hpa, h1, z1, mulVec_zero]
    · change SO13.rm r 0 *ᵥ topVec r + Complex.I • (SO13.rm r 2 *ᵥ topVec r) = 0
      unfold SO13.rm topVec SL2C.Zr
      rw [conjB_vec, conjB_vec, kron_right, kron_right, ← mulVec_smul, ← mulVec_add, hps', hpa', h3, z2, mulVec_zero]
  · fin_cases i
    · change (-2 * Complex.I) • (SO13.lm r 1 *ᵥ topVec r) = (r.l : ℂ) • topVec r
      unfold SO13.lm topVec SL2C.Zl
      rw [conjB_vec, kron_left, ← mulVec_smul, hps, h2, ← hps, mulVec_smul]
    · change (-2 * Complex.I) • (SO13.rm r 1 *ᵥ topVec r) = (r.k : ℂ) • topVec r
      unfold SO13.rm topVec SL2C.Zr
      rw [conjB_vec, kron_right, ← mulVec_smul, hps', h4, ← hps', mulVec_smul]

/-- Every irreducible family with the brackets of `SL2C` is that of a label. -/
theorem sl2c_complete {d : ℕ} {r : Rep 6 0 d} (hA : r.A = SL2C.algebra) (hr : IsRep r) (hirr : IrreducibleFamily r.X) :
    ∃ s : SL2C, Equivalent r.X (SL2C.rep s).X := by
  obtain ⟨hl, hR, hc⟩ := sl2c_brackets hA hr
  have hp := two_pack hl hR hc
  have e1 : ∀ {d : ℕ} (r : Rep 6 0 d) (a : Fin 3), r.X (Fin.castAdd 3 a) = lh r a + rh r a := by
    intro d r a; simp only [lh, rh]; module
  have e2 : ∀ {d : ℕ} (r : Rep 6 0 d) (a : Fin 3), r.X (Fin.natAdd 3 a) = lh r a - rh r a := by
    intro d r a; simp only [lh, rh]; module
  have simp6 : ∀ {d : ℕ} {r : Rep 6 0 d} {L R : Fin 3 → Matrix (Fin d) (Fin d) ℂ}, (∀ a, r.X (Fin.castAdd 3 a) = L a + R a) →
      (∀ a, r.X (Fin.natAdd 3 a) = L a - R a) → IrreducibleFamily r.X → ∀ U : Submodule ℂ (Fin d → ℂ),
      (∀ i a, ∀ x ∈ U, ops (two L R) i a x ∈ U) → U = ⊥ ∨ U = ⊤ := by
    intro d r L R h1 h2 hirr U hU
    refine hirr.2 U fun a w hw => ?_
    refine Fin.addCases (m := 3) (n := 3) (fun b => ?_) (fun b => ?_) a
    · rw [h1, add_mulVec]
      exact U.add_mem (hU 0 b w hw) (hU 1 b w hw)
    · rw [h2, sub_mulVec]
      exact U.sub_mem (hU 0 b w hw) (hU 1 b w hw)
  have : Nonempty (Fin d) := ⟨⟨0, hirr.1⟩⟩
  obtain ⟨v, lam, hv⟩ := exists_top hp.sys pc_half
  choose m hm using weight_nat hp.sys pc_diag hv
  have hlam : lam = fun i => ((![(⟨m 0, m 1⟩ : SL2C).l, (⟨m 0, m 1⟩ : SL2C).k] i : ℕ) : ℂ) := by
    funext i
    rw [hm]
    fin_cases i <;> rfl
  rw [hlam] at hv
  have hp' := two_pack (SO13.su2Mats_lm ⟨m 0, m 1⟩) (SO13.su2Mats_rm _) (SO13.lm_rm _)
  obtain ⟨φ, hφ⟩ := Pack.unique hp hp' (simp6 (e1 r) (e2 r) hirr)
    (simp6 (SL2C.X_castAdd _) (SL2C.X_natAdd _) (Props.C64_irreducible _)) hv (sl2c_top ⟨m 0, m 1⟩)
  refine ⟨⟨m 0, m 1⟩, equivalent_of_linear φ fun a x => ?_⟩
  have h0 := hφ 0
  have h1 := hφ 1
  simp only [ops_apply] at h0 h1
  refine Fin.addCases (m := 3) (n := 3) (fun b => ?_) (fun b => ?_) a
  · rw [e1, SL2C.X_castAdd, add_mulVec, add_mulVec, map_add]
    exact congrArg₂ _ (h0 b x) (h1 b x)
  · rw [e2, SL2C.X_natAdd, sub_mulVec, sub_mulVec, map_sub]
    exact congrArg₂ _ (h0 b x) (h1 b x)

end LieNN.Highest
