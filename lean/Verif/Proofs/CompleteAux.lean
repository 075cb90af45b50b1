import Verif.Proofs.HighestSU2
import Verif.Props.Lorentz
import Verif.Props.GroupRep
import Mathlib.Analysis.SpecialFunctions.Exponential
/-!
# Auxiliary facts for the completeness of the tables of irreps
-/
namespace LieNN.Spec

open Matrix

variable {n d e : ℕ} {X : Fin n → Matrix (Fin d) (Fin d) ℂ} {Y : Fin n → Matrix (Fin e) (Fin e) ℂ}

theorem Equivalent.refl (X : Fin n → Matrix (Fin d) (Fin d) ℂ) : Equivalent X X :=
  ⟨1, 1, Matrix.mul_one _, Matrix.mul_one _, fun a => by rw [Matrix.mul_one, Matrix.one_mul]⟩

/-- Multiples go along. -/
theorem Equivalent.scale (h : Equivalent X Y) (p : Fin n → ℂ) : Equivalent (fun a => p a • X a) (fun a => p a • Y a) := by
  obtain ⟨Q, P, h1, h2, h3⟩ := h
  exact ⟨Q, P, h1, h2, fun a => by rw [Matrix.smul_mul, h3, Matrix.mul_smul]⟩

theorem Equivalent.irreducible (h : Equivalent X Y) (hX : IrreducibleFamily X) : IrreducibleFamily Y := by
  obtain rfl := h.dim_eq
  obtain ⟨Q, P, h1, h2, h3⟩ := h
  refine ⟨hX.1, fun U hU => ?_⟩
  have hQP : ∀ x, Q *ᵥ (P *ᵥ x) = x := fun x => by rw [mulVec_mulVec, h1, one_mulVec]
  have hPQ : ∀ x, P *ᵥ (Q *ᵥ x) = x := fun x => by rw [mulVec_mulVec, h2, one_mulVec]
  have hXP : ∀ a x, P *ᵥ (X a *ᵥ x) = Y a *ᵥ (P *ᵥ x) := by
    intro a x
    have : P * X a = Y a * P := by
      calc P * X a = P * (X a * Q) * P := by rw [← Matrix.mul_assoc, Matrix.mul_assoc _ Q, h1, Matrix.mul_one]
        _ = Y a * P := by rw [h3, ← Matrix.mul_assoc, h2, Matrix.one_mul]
    rw [mulVec_mulVec, this, ← mulVec_mulVec]
  rcases hX.2 (U.comap (Matrix.toLin' P)) (fun a x hx => by
    change P *ᵥ (X a *ᵥ x) ∈ U
    rw [hXP]
    exact hU a _ hx) with h | h
  · left
    rw [Submodule.eq_bot_iff] at h ⊢
    intro x hx
    have := h (Q *ᵥ x) (by change P *ᵥ (Q *ᵥ x) ∈ U; rwa [hPQ])
    rw [← hPQ x, this, mulVec_zero]
  · right
    rw [Submodule.eq_top_iff'] at h ⊢
    intro x
    have := h (Q *ᵥ x)
    change P *ᵥ (Q *ᵥ x) ∈ U at this
    rwa [hPQ] at this

end LieNN.Spec

namespace LieNN.Highest

open Matrix NormedSpace LieNN LieNN.Spec LieNN.CGSpace

theorem commute_of_exp_normed {R : Type*} [NormedRing R] [NormedAlgebra ℂ R] [CompleteSpace R] {H X : R}
    (h : ∀ t : ℝ, H * exp ((t : ℂ) • X) = exp ((t : ℂ) • X) * H) : H * X = X * H := by
  have h1 : HasDerivAt (fun t : ℂ => exp (t • X)) X 0 := by
    have := hasDerivAt_exp_smul_const (𝕂 := ℂ) X (0 : ℂ)
    simpa using this
  have h2 : HasDerivAt (fun t : ℝ => exp ((t : ℂ) • X)) X 0 := by
    have := HasDerivAt.scomp_of_eq (g₁ := fun t : ℂ => exp (t • X)) (h := fun t : ℝ => (t : ℂ)) (0 : ℝ) h1
      (Complex.ofRealCLM.hasDerivAt (x := (0 : ℝ))) (by simp)
    simpa [Function.comp_def] using this
  have h3 := h2.const_mul H
  have h4 := h2.mul_const H
  have e : (fun t : ℝ => H * exp ((t : ℂ) • X)) = fun t : ℝ => exp ((t : ℂ) • X) * H := funext h
  rw [e] at h3
  exact h3.unique h4

section
open scoped Matrix.Norms.Operator

/-- A matrix that commutes with all exponentials of a line commutes with its direction. -/
theorem commute_of_exp {d : ℕ} {H X : Matrix (Fin d) (Fin d) ℂ} (h : ∀ t : ℝ, H * exp ((t : ℂ) • X) = exp ((t : ℂ) • X) * H) :
    H * X = X * H :=
  commute_of_exp_normed (R := Matrix (Fin d) (Fin d) ℂ) h
end

/-- Representations with equivalent generators have the same kernel of `exp_map`. -/
theorem exp_one_of_equivalent {n d e : ℕ} {r : Rep n 0 d} {s : Rep n 0 e} (h : Equivalent r.X s.X) {c : Fin n → ℂ} {k : Fin 0 → ℤ}
    (hs : r.expMap c k = .ok 1) : s.expMap c k = .ok 1 := by
  obtain ⟨Q, P, h1, h2, h3⟩ := h
  have := expMap_intertwine (r := s) (s := r) (Q := Q) h3 (fun a => a.elim0) (c := c) (k := k) (expMap_zero s c k) hs
  rw [Matrix.one_mul] at this
  rw [expMap_zero]
  congr 1
  calc _ = P * (Q * exp (∑ a, c a • s.X a)) := by rw [← Matrix.mul_assoc, h2, Matrix.one_mul]
    _ = 1 := by rw [← this, h2]

theorem so3_equivalent (l : ℕ) : Equivalent (SO3.rep l).X (SU2.rep (2 * l)).X := by
  refine ⟨(SO3.changeBasis l)ᴴ, SO3.changeBasis l, SO3.changeBasis_mul' l, SO3.changeBasis_mul l, fun a => ?_⟩
  rw [SO3.rep_X, Matrix.mul_assoc, SO3.changeBasis_mul, Matrix.mul_one]
  rfl

/-- The brackets of `SO13` become those of `SL2C`. -/
theorem unboost_bracket {d : ℕ} {X : Fin 6 → Matrix (Fin d) (Fin d) ℂ}
    (h : ∀ i j, X i * X j - X j * X i = ∑ k, SO13.algebra i j k • X k) (i j : Fin 6) :
    (star (SO13.phase i) • X i) * (star (SO13.phase j) • X j) - (star (SO13.phase j) • X j) * (star (SO13.phase i) • X i) =
      ∑ k, SL2C.algebra i j k • (star (SO13.phase k) • X k) := by
  have H := SL2C.algZ_XX (-1) (by simp)
  have split : ∀ f : Fin 6 → Matrix (Fin d) (Fin d) ℂ, ∑ k, f k =
      ∑ c : Fin 3, f (Fin.castAdd 3 c) + ∑ c : Fin 3, f (Fin.natAdd 3 c) := fun f =>
    Fin.sum_univ_add (a := 3) (b := 3) f
  have pc : ∀ c : Fin 3, star (SO13.phase (Fin.castAdd 3 c)) = 1 := by
    intro c
    rw [SO13.phase, if_pos (by simp), star_one]
  have pn : ∀ c : Fin 3, star (SO13.phase (Fin.natAdd 3 c)) = -Complex.I := by
    intro c
    rw [SO13.phase, if_neg (by simp)]
    exact Complex.conj_I
  refine SL2C.bracket_six (s := 1) (by simp) (fun a => X (Fin.castAdd 3 a)) (fun a => (-Complex.I) • X (Fin.natAdd 3 a))
    (fun i => star (SO13.phase i) • X i) (fun a => by rw [pc, one_smul]) (fun a => by rw [pn]) ?_ ?_ ?_ ?_ i j
  · intro a b
    rw [h, split]
    simp only [SO13.algebra, (H a b _).1, (H a b _).2.1, Int.cast_zero, zero_smul, Finset.sum_const_zero, add_zero]
  · intro a b
    rw [Matrix.mul_smul, Matrix.smul_mul, ← smul_sub, h, split]
    simp only [SO13.algebra, (H a b _).2.2.1, (H a b _).2.2.2.1, Int.cast_zero, zero_smul, Finset.sum_const_zero, zero_add,
      Finset.smul_sum]
    exact Finset.sum_congr rfl fun c _ => smul_comm _ _ _
  · intro a b
    rw [Matrix.mul_smul, Matrix.smul_mul, ← smul_sub, h, split]
    simp only [SO13.algebra, (H a b _).2.2.2.2.1, (H a b _).2.2.2.2.2.1, Int.cast_zero, zero_smul, Finset.sum_const_zero, zero_add,
      Finset.smul_sum]
    exact Finset.sum_congr rfl fun c _ => smul_comm _ _ _
  · intro a b
    rw [Matrix.mul_smul, Matrix.smul_mul, Matrix.mul_smul, Matrix.smul_mul, smul_smul, smul_smul, neg_mul_neg, Complex.I_mul_I,
      ← smul_sub, h, split]
    simp only [SO13.algebra, (H a b _).2.2.2.2.2.2.1, (H a b _).2.2.2.2.2.2.2, Int.cast_zero, zero_smul, Finset.sum_const_zero, add_zero]
    rw [Int.cast_one, one_smul, Finset.smul_sum]
    refine Finset.sum_congr rfl fun c _ => ?_
    rw [smul_smul]
    push_cast
    ring_nf

theorem phase_cancel (a : Fin 6) : SO13.phase a * star (SO13.phase a) = 1 := by
  rw [mul_comm]
  exact SO13.phase_unit a

theorem irreducible_scale {n d : ℕ} {X : Fin n → Matrix (Fin d) (Fin d) ℂ} {p : Fin n → ℂ} (hp : ∀ a, p a ≠ 0) (h : IrreducibleFamily X) :
    IrreducibleFamily fun a => p a • X a := by
  refine ⟨h.1, fun U hU => h.2 U fun a w hw => ?_⟩
  have := U.smul_mem (p a)⁻¹ (hU a w hw)
  rwa [smul_mulVec, smul_smul, inv_mul_cancel₀ (hp a), one_smul] at this

/-- Every irreducible family with the brackets of `SO13` is that of a label of `SL2C` with the boosts made real. -/
theorem so13_complete {d : ℕ} {r : Rep 6 0 d} (hA : r.A = SO13.algebra) (hr : IsRep r) (hirr : IrreducibleFamily r.X) :
    ∃ s : SL2C, Equivalent r.X (SO13.X₀ s) := by
  have hp : ∀ a, star (SO13.phase a) ≠ 0 := fun a h => by
    have := phase_cancel a
    rw [h, mul_zero] at this
    exact zero_ne_one this
  obtain ⟨s, hs⟩ := sl2c_complete (r := ⟨SL2C.algebra, fun a => star (SO13.phase a) • r.X a, Fin.elim0⟩) rfl
    (unboost_bracket fun i j => by rw [hr i j, hA]) (irreducible_scale hp hirr)
  refine ⟨s, ?_⟩
  have := hs.scale SO13.phase
  simp only [smul_smul, phase_cancel, one_smul] at this
  convert this using 1
  funext a
  exact SO13.X₀_phase s a

theorem X₀_inequivalent {s t : SL2C} (h : Equivalent (SO13.X₀ s) (SO13.X₀ t)) : s = t := by
  by_contra hne
  have h2 : Equivalent (SL2C.rep s).X (SL2C.rep t).X := by
    have := h.scale (fun a => star (SO13.phase a))
    simp only [SO13.X₀_phase, smul_smul] at this
    simpa only [SO13.phase_unit, one_smul] using this
  exact h2.intertwiner (Props.C64_irreducible s).1 (Props.C64_inequivalent hne)

theorem twist_equivalent {s : SL2C} {W : Matrix (Fin s.dim) (Fin s.dim) ℂ} {X} (h : SO13.Twist SO13.phase W (SL2C.rep s).X X) :
    Equivalent (SO13.X₀ s) X := by
  refine Equivalent.symm ⟨W, Wᴴ, h.right, h.left, fun a => ?_⟩
  rw [h.eq, SO13.X₀_phase, Matrix.smul_mul, Matrix.mul_smul, Matrix.mul_assoc, h.left, Matrix.mul_one]

variable {d : ℕ}

theorem expMap_one_gen {n : ℕ} {r : Rep n 1 d} {c : Fin n → ℂ} {k : Fin 1 → ℤ} {g : Matrix (Fin d) (Fin d) ℂ}
    (h : r.expMap c k = .ok g) : (k 0 = 0 → g = exp (∑ a, c a • r.X a)) ∧ (k 0 = 1 → g = r.H 0 * exp (∑ a, c a • r.X a)) := by
  rw [Rep.expMap_ok_iff] at h
  obtain ⟨-, rfl⟩ := h
  unfold Rep.discreteVal
  rw [List.finRange_succ, List.finRange_zero]
  constructor <;> intro hk <;> simp [hk]

/-- A family with one discrete generator that is a multiple of the identity. -/
theorem irreducible_of_scalar {n : ℕ} {r : Rep n 1 d} {p : ℂ} (hH : r.H 0 = p • 1) (h : IrreducibleFamily r.allGens) :
    IrreducibleFamily r.X := by
  refine ⟨h.1, fun W hW => h.2 W fun a w hw => ?_⟩
  unfold Rep.allGens
  refine Fin.addCases (fun i => ?_) (fun i => ?_) a
  · rw [Fin.append_left]; exact hW i w hw
  · rw [Fin.append_right, Subsingleton.elim i 0, hH, smul_mulVec, one_mulVec]
    exact W.smul_mem _ hw

theorem scalar_of_square {n : ℕ} {r : Rep n 1 d} (hsq : r.H 0 * r.H 0 = 1) (hc : ∀ a, r.H 0 * r.X a = r.X a * r.H 0)
    (h : IrreducibleFamily r.allGens) : ∃ p : ℤ, (p = 1 ∨ p = -1) ∧ r.H 0 = (p : ℂ) • 1 := by
  obtain ⟨z, hz⟩ := schur h (S := r.H 0) fun a => by
    unfold Rep.allGens
    refine Fin.addCases (fun i => ?_) (fun i => ?_) a
    · rw [Fin.append_left, hc]
    · rw [Fin.append_right, Subsingleton.elim i 0]
  have h1 : z * z = 1 := by
    rw [hz, Matrix.smul_mul, Matrix.one_mul, smul_smul] at hsq
    have := congrFun (congrFun hsq ⟨0, h.1⟩) ⟨0, h.1⟩
    simpa using this
  rcases mul_self_eq_one_iff.1 h1 with rfl | rfl
  · exact ⟨1, .inl rfl, by simpa using hz⟩
  · exact ⟨-1, .inr rfl, by simpa using hz⟩

theorem sign_unique {n e : ℕ} {r : Rep n 1 d} {s : Rep n 1 e} {p q : ℤ} (hd : 0 < d) (hr : r.H 0 = (p : ℂ) • 1)
    (hs : s.H 0 = (q : ℂ) • 1) (h : Equivalent r.allGens s.allGens) : p = q := by
  obtain rfl := h.dim_eq
  obtain ⟨Q, P, h1, -, h3⟩ := h
  have h4 := h3 (Fin.natAdd n 0)
  unfold Rep.allGens at h4
  rw [Fin.append_right, Fin.append_right, hr, hs, Matrix.smul_mul, Matrix.mul_smul, Matrix.one_mul, Matrix.mul_one] at h4
  have h5 := congrArg (· * P) h4
  simp only [Matrix.smul_mul, h1] at h5
  have := congrFun (congrFun h5 ⟨0, hd⟩) ⟨0, hd⟩
  simpa using this

theorem equivalent_left {n h e : ℕ} {r : Rep n h d} {s : Rep n h e} (H : Equivalent r.allGens s.allGens) : Equivalent r.X s.X := by
  obtain ⟨Q, P, h1, h2, h3⟩ := H
  refine ⟨Q, P, h1, h2, fun a => ?_⟩
  have := h3 (Fin.castAdd h a)
  unfold Rep.allGens at this
  rwa [Fin.append_left, Fin.append_left] at this

theorem equivalent_withScalar {n e : ℕ} {r : Rep n 1 d} {s : Rep n 1 e} {p : ℂ} (hr : r.H 0 = p • 1) (hs : s.H 0 = p • 1)
    (H : Equivalent r.X s.X) : Equivalent r.allGens s.allGens := by
  obtain ⟨Q, P, h1, h2, h3⟩ := H
  refine ⟨Q, P, h1, h2, fun a => ?_⟩
  unfold Rep.allGens
  refine Fin.addCases (fun i => ?_) (fun i => ?_) a
  · rw [Fin.append_left, Fin.append_left, h3]
  · rw [Fin.append_right, Fin.append_right, Subsingleton.elim i 0, hr, hs, Matrix.smul_mul, Matrix.mul_smul, Matrix.one_mul,
      Matrix.mul_one]

end LieNN.Highest
