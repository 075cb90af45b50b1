import Verif.Model.RoundingInfer
import Verif.Spec.RoundInfer
import Verif.Proofs.Algebra
import Verif.Proofs.RoundTriplet
/-!
# `infer_algebra_from_generators` in floating point
-/
namespace LieNN

open Matrix Spec

variable {n d : ℕ} {u κ rtol atol M K : ℝ} {X : Fin n → Matrix (Fin d) (Fin d) ℂ}

theorem pinv_unique {m n : ℕ} {Q : Matrix (Fin m) (Fin n) ℂ} {P₁ P₂ : Matrix (Fin n) (Fin m) ℂ}
    (h₁ : IsPinv Q P₁) (h₂ : IsPinv Q P₂) : P₁ = P₂ := by
  have e1 : Q * P₁ = Q * P₂ := by
    calc Q * P₁ = Q * P₂ * (Q * P₁) := by rw [← Matrix.mul_assoc, h₂.qpq]
      _ = (Q * P₂)ᴴ * (Q * P₁)ᴴ := by rw [h₁.qp_herm, h₂.qp_herm]
      _ = (Q * P₁ * (Q * P₂))ᴴ := (conjTranspose_mul _ _).symm
      _ = (Q * P₂)ᴴ := by rw [← Matrix.mul_assoc, h₁.qpq]
      _ = Q * P₂ := h₂.qp_herm
  have e2 : P₁ * Q = P₂ * Q := by
    calc P₁ * Q = P₁ * Q * (P₂ * Q) := by rw [Matrix.mul_assoc, ← Matrix.mul_assoc Q, h₂.qpq]
      _ = (P₁ * Q)ᴴ * (P₂ * Q)ᴴ := by rw [h₁.pq_herm, h₂.pq_herm]
      _ = (P₂ * Q * (P₁ * Q))ᴴ := (conjTranspose_mul _ _).symm
      _ = (P₂ * Q)ᴴ := by rw [Matrix.mul_assoc, ← Matrix.mul_assoc Q, h₁.qpq]
      _ = P₂ * Q := h₂.pq_herm
  calc P₁ = P₁ * Q * P₁ := h₁.pqp.symm
    _ = P₂ * (Q * P₁) := by rw [e2, Matrix.mul_assoc]
    _ = P₂ * Q * P₂ := by rw [e1, Matrix.mul_assoc]
    _ = P₂ := h₂.pqp

theorem isPinv_I {m n : ℕ} {Q : Matrix (Fin m) (Fin n) ℂ} {P : Matrix (Fin n) (Fin m) ℂ} (h : IsPinv Q P) :
    IsPinv (Complex.I • Q) ((-Complex.I) • P) := by
  have e1 : (Complex.I • Q) * ((-Complex.I) • P) = Q * P := by
    rw [Matrix.smul_mul, Matrix.mul_smul, smul_smul]
    simp
  have e2 : ((-Complex.I) • P) * (Complex.I • Q) = P * Q := by
    rw [Matrix.smul_mul, Matrix.mul_smul, smul_smul]
    simp
  constructor
  · rw [e1, Matrix.mul_smul, h.qpq]
  · rw [e2, Matrix.mul_smul, h.pqp]
  · rw [e1, h.qp_herm]
  · rw [e2, h.pq_herm]

theorem gam_nonneg (hu : 0 ≤ u) (m : ℕ) : 0 ≤ 3 / 2 * ((1 + u) ^ (2 * m) - 1) := by
  have : (1 : ℝ) ≤ (1 + u) ^ (2 * m) := one_le_pow₀ (by linarith)
  linarith

theorem dotErr_nonneg (hu : 0 ≤ u) (m : ℕ) {α x β y : ℝ} (hα : 0 ≤ α) (hx : 0 ≤ x) (hβ : 0 ≤ β) (hy : 0 ≤ y) :
    0 ≤ dotErr u m α x β y := by
  have := gam_nonneg hu m
  unfold dotErr
  positivity

/-- A computed scalar product of perturbed factors. -/
theorem dot_run_close (hu : 0 ≤ u) {m : ℕ} {a b a₀ b₀ : Fin m → ℂ} {z : ℂ} {α x β y : ℝ} (hx : 0 ≤ x)
    (hα : 0 ≤ α) (hβ : 0 ≤ β) (hy : 0 ≤ y)
    (h : DotRun u a b z) (ha₀ : ∀ k, ‖a₀ k‖ ≤ α) (hb₀ : ∀ k, ‖b₀ k‖ ≤ β) (ha : ∀ k, ‖a k - a₀ k‖ ≤ x)
    (hb : ∀ k, ‖b k - b₀ k‖ ≤ y) : ‖z - ∑ k, a₀ k * b₀ k‖ ≤ dotErr u m α x β y := by
  have e1 := dot_err hu h (S := Finset.univ) (fun k hk => absurd (Finset.mem_univ k) hk)
  rw [Finset.card_univ, Fintype.card_fin] at e1
  have na : ∀ k, ‖a k‖ ≤ α + x := fun k => by
    have := norm_add_le (a₀ k) (a k - a₀ k)
    rw [add_sub_cancel] at this
    linarith [ha₀ k, ha k]
  have nb : ∀ k, ‖b k‖ ≤ β + y := fun k => by
    have := norm_add_le (b₀ k) (b k - b₀ k)
    rw [add_sub_cancel] at this
    linarith [hb₀ k, hb k]
  have e2 : ∑ k, ‖a k‖ * ‖b k‖ ≤ m * ((α + x) * (β + y)) := by
    refine (Finset.sum_le_card_nsmul Finset.univ _ ((α + x) * (β + y)) fun k _ => ?_).trans ?_
    · exact mul_le_mul (na k) (nb k) (norm_nonneg _) (by linarith)
    · simp
  have e3 : ‖∑ k, a k * b k - ∑ k, a₀ k * b₀ k‖ ≤ m * (x * (β + y) + α * y) := by
    rw [← Finset.sum_sub_distrib]
    refine (norm_sum_le _ _).trans ((Finset.sum_le_card_nsmul Finset.univ _ (x * (β + y) + α * y) fun k _ => ?_).trans ?_)
    · have e : a k * b k - a₀ k * b₀ k = (a k - a₀ k) * b k + a₀ k * (b k - b₀ k) := by ring
      rw [e]
      refine (norm_add_le _ _).trans ?_
      rw [norm_mul, norm_mul]
      exact add_le_add (mul_le_mul (ha k) (nb k) (norm_nonneg _) hx)
        (mul_le_mul (ha₀ k) (hb k) (norm_nonneg _) hα)
    · simp [mul_add]
  have e4 := norm_add_le (z - ∑ k, a k * b k) (∑ k, a k * b k - ∑ k, a₀ k * b₀ k)
  rw [sub_add_sub_cancel] at e4
  have e5 := mul_le_mul_of_nonneg_left e2 (gam_nonneg hu m)
  unfold dotErr
  linarith

theorem dot_norm_le {m : ℕ} {a b : Fin m → ℂ} {α β : ℝ} (hα : 0 ≤ α) (ha : ∀ k, ‖a k‖ ≤ α) (hb : ∀ k, ‖b k‖ ≤ β) :
    ‖∑ k, a k * b k‖ ≤ m * (α * β) := by
  refine (norm_sum_le _ _).trans ((Finset.sum_le_card_nsmul Finset.univ _ (α * β) fun k _ => ?_).trans (by simp))
  rw [norm_mul]
  exact mul_le_mul (ha k) (hb k) (norm_nonneg _) hα

theorem commErr_nonneg (hu : 0 ≤ u) (hM : 0 ≤ M) : 0 ≤ commErr u d M := by
  have := dotErr_nonneg hu d hM le_rfl hM le_rfl
  unfold commErr
  positivity

theorem comm_norm_le (hM : 0 ≤ M) {X Y : Matrix (Fin d) (Fin d) ℂ} (hX : ∀ a b, ‖X a b‖ ≤ M)
    (hY : ∀ a b, ‖Y a b‖ ≤ M) (a b : Fin d) : ‖commutator X Y a b‖ ≤ 2 * (d * (M * M)) := by
  have e : commutator X Y a b = ∑ k, X a k * Y k b - ∑ k, Y a k * X k b := rfl
  rw [e]
  have h1 := dot_norm_le hM (fun k => hX a k) (fun k => hY k b)
  have h2 := dot_norm_le hM (fun k => hY a k) (fun k => hX k b)
  have h3 := norm_sub_le (∑ k, X a k * Y k b) (∑ k, Y a k * X k b)
  linarith

theorem commRun_close (hu : 0 ≤ u) (hM : 0 ≤ M) {X Y L : Matrix (Fin d) (Fin d) ℂ} (hX : ∀ a b, ‖X a b‖ ≤ M)
    (hY : ∀ a b, ‖Y a b‖ ≤ M) (h : CommRun u X Y L) (a b : Fin d) :
    ‖L a b - commutator X Y a b‖ ≤ commErr u d M := by
  obtain ⟨P, Q, hP, hQ, hL⟩ := h
  have e : commutator X Y a b = ∑ k, X a k * Y k b - ∑ k, Y a k * X k b := rfl
  have z : ∀ x : ℂ, ‖x - x‖ ≤ 0 := fun x => by rw [sub_self, norm_zero]
  have p1 := dot_run_close hu le_rfl hM hM le_rfl (hP a b) (fun k => hX a k) (fun k => hY k b) (fun k => z _) (fun k => z _)
  have q1 := dot_run_close hu le_rfl hM hM le_rfl (hQ a b) (fun k => hY a k) (fun k => hX k b) (fun k => z _) (fun k => z _)
  have n0 := comm_norm_le hM hX hY a b
  rw [e] at n0 ⊢
  have d1 : ‖(P a b - Q a b) - (∑ k, X a k * Y k b - ∑ k, Y a k * X k b)‖ ≤ 2 * dotErr u d M 0 M 0 := by
    have e' : (P a b - Q a b) - (∑ k, X a k * Y k b - ∑ k, Y a k * X k b) =
        (P a b - ∑ k, X a k * Y k b) - (Q a b - ∑ k, Y a k * X k b) := by ring
    rw [e']
    have := norm_sub_le (P a b - ∑ k, X a k * Y k b) (Q a b - ∑ k, Y a k * X k b)
    linarith
  have d2 : ‖P a b - Q a b‖ ≤ 2 * (d * (M * M) + dotErr u d M 0 M 0) := by
    have := norm_add_le ((P a b - Q a b) - (∑ k, X a k * Y k b - ∑ k, Y a k * X k b))
      (∑ k, X a k * Y k b - ∑ k, Y a k * X k b)
    rw [sub_add_cancel] at this
    linarith
  have d3 : ‖L a b - (P a b - Q a b)‖ ≤ u * ‖P a b - Q a b‖ := hL a b
  have d4 := norm_add_le (L a b - (P a b - Q a b)) ((P a b - Q a b) - (∑ k, X a k * Y k b - ∑ k, Y a k * X k b))
  rw [sub_add_sub_cancel] at d4
  have d5 := mul_le_mul_of_nonneg_left d2 hu
  unfold commErr
  linarith

/-- The computed product with the computed pseudo-inverse is close to the structure constants. -/
theorem coeff_close (hu : 0 ≤ u) (hκ : 0 ≤ κ) (hM : 0 ≤ M) (hK : 0 ≤ K) (hX : LinearIndependent ℂ X)
    (hXM : ∀ k a b, ‖X k a b‖ ≤ M) (hPK : ∀ P, IsPinv (flatGens X) P → ∀ p k, ‖P p k‖ ≤ K)
    {c : Fin n → Fin n → Fin n → ℂ} (hc : ∀ i j, X i * X j - X j * X i = ∑ k, c i j k • X k)
    {P : Matrix (Fin (d * d)) (Fin n) ℂ} (hP : PinvRun κ (flatGens X) P)
    {L : Fin n → Fin n → Matrix (Fin d) (Fin d) ℂ} (hL : ∀ i j, CommRun u (X i) (X j) (L i j))
    {Z : Fin n → Fin n → Fin n → ℂ}
    (hZ : ∀ i j k, DotRun u (fun p : Fin (d * d) => L i j p.divNat p.modNat) (fun p => P p k) (Z i j k))
    (i j k : Fin n) : ‖Z i j k - c i j k‖ ≤ coeffErr u κ d M K ∧ ‖c i j k‖ ≤ coeffMax d M K := by
  obtain ⟨P₀, h₀, hPP⟩ := hP
  have hcm : commutator (X i) (X j) = ∑ k, c i j k • X k := hc i j
  have e := pinv_coeff hX h₀ hcm k
  have hb : ∀ p : Fin (d * d), ‖commutator (X i) (X j) p.divNat p.modNat‖ ≤ 2 * (d * (M * M)) :=
    fun p => comm_norm_le hM (hXM i) (hXM j) _ _
  constructor
  · rw [← e]
    exact dot_run_close hu (commErr_nonneg hu hM) (by positivity) hK hκ (hZ i j k) hb (fun p => hPK P₀ h₀ p k)
      (fun p => commRun_close hu hM (hXM i) (hXM j) (hL i j) _ _) (fun p => hPP p k)
  · rw [← e]
    exact dot_norm_le (by positivity) hb (fun p => hPK P₀ h₀ p k)

theorem coeffErr_nonneg (hu : 0 ≤ u) (hκ : 0 ≤ κ) (hM : 0 ≤ M) (hK : 0 ≤ K) : 0 ≤ coeffErr u κ d M K :=
  dotErr_nonneg hu _ (by positivity) (commErr_nonneg hu hM) hK hκ

theorem coeffMax_nonneg (hM : 0 ≤ M) (hK : 0 ≤ K) : 0 ≤ coeffMax d M K := by
  unfold coeffMax
  positivity

/-- A comparison that passes. -/
theorem closeRun_le (hu' : u ≤ 1 / 1000) (ha : 0 ≤ atol) (hr : 0 ≤ rtol) {x y : ℂ}
    (h : CloseRun u atol rtol x y true) : ‖x - y‖ ≤ 102 / 100 * (atol + rtol * ‖y‖) := by
  obtain ⟨d, s, hd, hs, hb⟩ := h
  have hds := hb.1 rfl
  unfold Rnd at hd hs
  rw [Real.norm_eq_abs, norm_norm] at hd
  rw [Real.norm_eq_abs, Real.norm_of_nonneg (show 0 ≤ atol + rtol * ‖y‖ by positivity)] at hs
  have h1 := (abs_le.1 hd).1
  have h2 := (abs_le.1 hs).2
  have h3 := norm_nonneg (x - y)
  have h4 : 0 ≤ atol + rtol * ‖y‖ := by positivity
  have h5 : 5 * u * ‖x - y‖ ≤ 5 / 1000 * ‖x - y‖ := mul_le_mul_of_nonneg_right (by linarith) h3
  have h6 : 5 * u * (atol + rtol * ‖y‖) ≤ 5 / 1000 * (atol + rtol * ‖y‖) := mul_le_mul_of_nonneg_right (by linarith) h4
  linarith

theorem commRun_exact (hu : 0 ≤ u) (X Y : Matrix (Fin d) (Fin d) ℂ) : CommRun u X Y (commutator X Y) :=
  ⟨X * Y, Y * X, fun a b => by rw [Matrix.mul_apply]; exact dotRun_exact hu _ _,
    fun a b => by rw [Matrix.mul_apply]; exact dotRun_exact hu _ _, fun a b => rnd_self hu _⟩

theorem commRun_zero {X Y L : Matrix (Fin d) (Fin d) ℂ} (h : CommRun 0 X Y L) : L = commutator X Y := by
  obtain ⟨P, Q, hP, hQ, hL⟩ := h
  ext p q
  rw [← rnd_zero (hL p q), ← dot_zero (hP p q), ← dot_zero (hQ p q)]
  rfl

theorem checkAlgebraRun_zero {A : Fin n → Fin n → Fin n → ℂ} {b : Bool} (h : CheckAlgebraRun 0 rtol atol A X b) :
    b = true ↔ CheckAlgebra rtol atol A X := by
  obtain ⟨L, R, c, hL, hR, hc, hb⟩ := h
  refine hb.trans (forall_congr' fun i => forall_congr' fun j => forall_congr' fun p => forall_congr' fun q => ?_)
  rw [closeRun_zero (hc i j p q), ← dot_zero (hR i j p q), commRun_zero (hL i j)]

theorem checkAlgebraRun_exact (hu : 0 ≤ u) (A : Fin n → Fin n → Fin n → ℂ) (X : Fin n → Matrix (Fin d) (Fin d) ℂ) :
    ∃ b, CheckAlgebraRun u rtol atol A X b ∧ (b = true ↔ CheckAlgebra rtol atol A X) :=
  checkAlgebraRun_of (rtol := rtol) (atol := atol) hu A X (fun i j => X i * X j) fun i j a b => by
    rw [Matrix.mul_apply]; exact dotRun_exact hu _ _

theorem pinvRun_zero {m n : ℕ} {Q : Matrix (Fin m) (Fin n) ℂ} {P : Matrix (Fin n) (Fin m) ℂ} (h : PinvRun 0 Q P) :
    IsPinv Q P := by
  obtain ⟨P₀, h₀, h⟩ := h
  have : P = P₀ := by
    ext p k
    exact sub_eq_zero.1 (norm_le_zero_iff.1 (h p k))
  rwa [this]

end LieNN
