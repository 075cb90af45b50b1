import Verif.Spec.RoundCheck
import Verif.Spec.CG
import Verif.Proofs.RoundSum
import Verif.Proofs.Triplet
/-!
# `check_representation_triplet` with rounding errors: bounds and special runs
-/
namespace LieNN

open Matrix Spec

variable {n h d d₁ d₂ d₃ : ℕ} {u rtol atol G : ℝ}

theorem sum_le_support {d : ℕ} {f : Fin d → ℝ} {S : Finset (Fin d)} {K : ℕ} (hK : S.card ≤ K) {M : ℝ} (hM : 0 ≤ M)
    (h0 : ∀ k, k ∉ S → f k = 0) (hf : ∀ k, f k ≤ M) : ∑ k, f k ≤ K * M := by
  rw [← Finset.sum_subset (Finset.subset_univ S) fun k _ hk => h0 k hk]
  refine (Finset.sum_le_card_nsmul S f M fun k _ => hf k).trans ?_
  rw [nsmul_eq_mul]
  exact mul_le_mul_of_nonneg_right (by exact_mod_cast hK) hM

/-- A scalar product with at most two nonzero terms of norm at most `M`. -/
theorem dot_two (hu : 0 ≤ u) (hu' : u ≤ 1 / 1000) {c M : ℝ} {p q : ℝ} {m : ℕ} {a b a' b' : Fin m → ℂ} {z : ℂ}
    (hp : 0 ≤ p) (hq : 0 ≤ q)
    (ha : ∀ k, Rnd (p * u) (a k) (a' k)) (hb : ∀ k, Rnd (q * u) (b k) (b' k)) (h : DotRun u a' b' z) {S : Finset (Fin m)}
    (hS : S.card ≤ 2) (hab : ∀ k, k ∉ S → a k = 0 ∨ b k = 0) (hM : 0 ≤ M) (hle : ∀ k, ‖a k‖ * ‖b k‖ ≤ M)
    (hpq : p + q ≤ 5) (hc : 6.1 + 1.01 * (p + q) ≤ c) :
    ‖z - ∑ k, a k * b k‖ ≤ c * u * (2 * M) ∧ ‖∑ k, a k * b k‖ ≤ 2 * M := by
  have e1 := dot_total hu (mul_nonneg hp hu) ha hb h hab
  have e2 : ∑ k, ‖a k‖ * ‖b k‖ ≤ (2 : ℕ) * M :=
    sum_le_support hS hM (fun k hk => by rcases hab k hk with h0 | h0 <;> simp [h0]) hle
  push_cast at e2
  have e3 : (1 + u) ^ (2 * S.card) ≤ (1 + u) ^ 4 := pow_le_pow_right₀ (by linarith) (by omega)
  have e4 : (1 + u) ^ 4 - 1 ≤ 4.01 * u := by nlinarith [mul_nonneg hu hu, mul_nonneg hu (mul_nonneg hu hu)]
  have h1 : (1 : ℝ) ≤ (1 + u) ^ (2 * S.card) := one_le_pow₀ (by linarith)
  have e5 : p * q * u ≤ 0.007 := by
    have : p * q ≤ 25 / 4 := by nlinarith [sq_nonneg (p - q)]
    nlinarith [mul_nonneg hp hq]
  have e5' : p * q * u ≤ 0.01 * (p + q) := by
    have h1 : p * q ≤ 5 * (p + q) := by nlinarith
    have h2 : p * q * u ≤ 5 * (p + q) * u := mul_le_mul_of_nonneg_right h1 hu
    nlinarith [add_nonneg hp hq]
  have e6 : (1 + p * u) * (1 + q * u) ≤ 1.01 := by nlinarith [mul_nonneg hp hq, mul_nonneg (mul_nonneg hp hq) hu]
  have e7 : (1 + p * u) * (1 + q * u) - 1 ≤ 1.01 * (p + q) * u := by nlinarith [mul_nonneg hp hq]
  have e8 : (1 : ℝ) ≤ (1 + p * u) * (1 + q * u) := by nlinarith [mul_nonneg hp hu, mul_nonneg hq hu, mul_nonneg (mul_nonneg hp hu) (mul_nonneg hq hu)]
  have hB : 0 ≤ ∑ k, ‖a k‖ * ‖b k‖ := Finset.sum_nonneg fun k _ => by positivity
  have e9 : 3 / 2 * ((1 + u) ^ (2 * S.card) - 1) * ((1 + p * u) * (1 + q * u)) ≤ 3 / 2 * (4.01 * u) * 1.01 :=
    mul_le_mul (by linarith) e6 (by linarith) (by positivity)
  have e10 : 3 / 2 * ((1 + u) ^ (2 * S.card) - 1) * ((1 + p * u) * (1 + q * u)) + ((1 + p * u) * (1 + q * u) - 1) ≤ c * u := by
    nlinarith
  refine ⟨e1.trans (mul_le_mul e10 e2 hB ?_), ?_⟩
  · have : 0 ≤ c := by nlinarith
    positivity
  · refine (norm_sum_le _ _).trans (le_trans (le_of_eq ?_) e2)
    exact Finset.sum_congr rfl fun k _ => norm_mul _ _

/-- Both sides of the comparison in `check_algebra_vs_generators`. -/
theorem checkAlgebra_close (hu : 0 ≤ u) (hu' : u ≤ 1 / 1000) {A : Fin n → Fin n → Fin n → ℂ}
    {X Y : Fin n → Matrix (Fin d) (Fin d) ℂ} (hA : OnePerBracket A) (hG : 0 ≤ G) (hX : TwoPerLine G X)
    (hrep : ∀ i j, X i * X j - X j * X i = ∑ k, A i j k • X k) (hY : GensRun u X Y) {i j : Fin n}
    {L : Matrix (Fin d) (Fin d) ℂ} {p q : Fin d} {R : ℂ} (hL : CommRun u (Y i) (Y j) L)
    (hR : DotRun u (A i j) (fun k => Y k p q) R) :
    ‖L p q - R‖ ≤ 41 * u * G ^ 2 + 16 * u * G := by
  obtain ⟨P, Q, hP, hQ, hL⟩ := hL
  have key : ∀ {X₁ X₂ Y₁ Y₂ : Matrix (Fin d) (Fin d) ℂ} {W : ℂ},
      (∃ S : Finset (Fin d), S.card ≤ 2 ∧ ∀ k, k ∉ S → X₁ p k = 0) → (∀ i k, ‖X₁ i k‖ ≤ G) → (∀ i k, ‖X₂ i k‖ ≤ G) →
      (∀ i k, Rnd u (X₁ i k) (Y₁ i k)) → (∀ i k, Rnd u (X₂ i k) (Y₂ i k)) →
      DotRun u (fun k => Y₁ p k) (fun k => Y₂ k q) W →
      ‖W - (X₁ * X₂) p q‖ ≤ 9 * u * (2 * G ^ 2) ∧ ‖(X₁ * X₂) p q‖ ≤ 2 * G ^ 2 := by
    rintro X₁ X₂ Y₁ Y₂ W ⟨S, hS, h0⟩ g1 g2 r1 r2 hW
    rw [Matrix.mul_apply]
    refine dot_two hu hu' (p := 1) (q := 1) (by norm_num) (by norm_num) (fun k => by rw [one_mul]; exact r1 p k)
      (fun k => by rw [one_mul]; exact r2 k q) hW hS (fun k hk => Or.inl (h0 k hk)) (by positivity)
      (fun k => ?_) (by norm_num) (by norm_num)
    rw [pow_two]
    exact mul_le_mul (g1 _ _) (g2 _ _) (norm_nonneg _) hG
  obtain ⟨k1, k2⟩ := key ((hX i).1 p) (hX i).2.2 (hX j).2.2 (hY i) (hY j) (hP p q)
  obtain ⟨l1, l2⟩ := key ((hX j).1 p) (hX j).2.2 (hX i).2.2 (hY j) (hY i) (hQ p q)
  have hsub : ‖L p q - (P p q - Q p q)‖ ≤ u * ‖P p q - Q p q‖ := hL p q
  obtain ⟨k₀, hk₀, hk₁⟩ := hA i j
  have hR' : ‖R - ∑ k, A i j k * X k p q‖ ≤ 16 * u * G := by
    have := (dot_two hu hu' (p := 0) (q := 1) (c := 8) (M := G) le_rfl zero_le_one (a := A i j) (a' := A i j)
      (b := fun k => X k p q) (fun k => rnd_self (by rw [zero_mul]) _) (fun k => by rw [one_mul]; exact hY k p q) hR
      (S := {k₀}) (by simp) (fun k hk => Or.inl (hk₀ k (by simpa using hk))) hG ?_ (by norm_num) (by norm_num)).1
    · linarith
    · intro k
      by_cases hk : k = k₀
      · rw [hk]
        calc ‖A i j k₀‖ * ‖X k₀ p q‖ ≤ 1 * G := mul_le_mul hk₁ ((hX k₀).2.2 p q) (norm_nonneg _) zero_le_one
          _ = G := one_mul _
      · rw [hk₀ k hk, norm_zero, zero_mul]; exact hG
  have hcomm : (X i * X j) p q - (X j * X i) p q = ∑ k, A i j k * X k p q := by
    have := congrFun₂ (hrep i j) p q
    rw [Matrix.sub_apply, Matrix.sum_apply] at this
    exact this
  have e0 : L p q - R = (L p q - (P p q - Q p q)) + (P p q - (X i * X j) p q) - (Q p q - (X j * X i) p q) -
      (R - ∑ k, A i j k * X k p q) := by
    rw [← hcomm]; ring
  have e1 : ‖L p q - R‖ ≤ ‖L p q - (P p q - Q p q)‖ + ‖P p q - (X i * X j) p q‖ + ‖Q p q - (X j * X i) p q‖ +
      ‖R - ∑ k, A i j k * X k p q‖ := by
    rw [e0]
    refine (norm_sub_le _ _).trans (add_le_add ((norm_sub_le _ _).trans (add_le_add (norm_add_le _ _) le_rfl)) le_rfl)
  have e2 : ‖P p q - Q p q‖ ≤ 4 * G ^ 2 + 36 * u * G ^ 2 := by
    have e : P p q - Q p q = ((P p q - (X i * X j) p q) + (X i * X j) p q) - ((Q p q - (X j * X i) p q) + (X j * X i) p q) := by ring
    rw [e]
    have := norm_sub_le ((P p q - (X i * X j) p q) + (X i * X j) p q) ((Q p q - (X j * X i) p q) + (X j * X i) p q)
    have := norm_add_le (P p q - (X i * X j) p q) ((X i * X j) p q)
    have := norm_add_le (Q p q - (X j * X i) p q) ((X j * X i) p q)
    linarith
  have e3 : u * ‖P p q - Q p q‖ ≤ u * (5 * G ^ 2) := by
    refine mul_le_mul_of_nonneg_left (e2.trans ?_) hu
    nlinarith [sq_nonneg G]
  linarith

/-- Both sides of the comparison for one solution. -/
theorem solution_close (hu : 0 ≤ u) (hu' : u ≤ 1 / 1000) {r₁ : Rep n h d₁} {r₂ : Rep n h d₂} {r₃ : Rep n h d₃}
    {Y₁ : Fin n → Matrix (Fin d₁) (Fin d₁) ℂ} {Y₂ : Fin n → Matrix (Fin d₂) (Fin d₂) ℂ}
    {Y₃ : Fin n → Matrix (Fin d₃) (Fin d₃) ℂ} (hG : 0 ≤ G) (h₁ : TwoPerLine G r₁.X) (h₂ : TwoPerLine G r₂.X)
    (h₃ : TwoPerLine G r₃.X) (g₁ : GensRun u r₁.X Y₁) (g₂ : GensRun u r₂.X Y₂) (g₃ : GensRun u r₃.X Y₃)
    {C C' : Fin d₁ → Fin d₂ → Fin d₃ → ℝ} (hC : IsCG r₁ r₂ r₃ fun i j k => ((C i j k : ℝ) : ℂ))
    (hC1 : ∀ i j k, |C i j k| ≤ 1) (hC' : ∀ i j k, PowRun u (C i j k) (C' i j k))
    {a : Fin n} {i : Fin d₁} {j : Fin d₂} {k : Fin d₃} {L P Q R : ℂ}
    (hL : DotRun u (fun k' => ((C' i j k' : ℝ) : ℂ)) (fun k' => Y₃ a k k') L)
    (hP : DotRun u (fun i' => Y₁ a i' i) (fun i' => ((C' i' j k : ℝ) : ℂ)) P)
    (hQ : DotRun u (fun j' => Y₂ a j' j) (fun j' => ((C' i j' k : ℝ) : ℂ)) Q) (hR : Rnd u (P + Q) R) :
    ‖L - R‖ ≤ 78 * u * G := by
  have hc : ∀ i j k, Rnd (4 * u) ((C i j k : ℝ) : ℂ) ((C' i j k : ℝ) : ℂ) := by
    intro i j k
    have := powRun_rnd hu hu' (hC' i j k)
    unfold Rnd at this ⊢
    rw [← Complex.ofReal_sub, Complex.norm_real, Complex.norm_real]
    exact this
  have hn : ∀ i j k, ‖((C i j k : ℝ) : ℂ)‖ ≤ 1 := fun i j k => by
    rw [Complex.norm_real]; exact hC1 i j k
  obtain ⟨S, hS, h0⟩ := (h₃ a).1 k
  have l := (dot_two hu hu' (p := 4) (q := 1) (c := 12) (M := G) (a := fun k' => ((C i j k' : ℝ) : ℂ))
    (b := fun k' => r₃.X a k k') (by norm_num) (by norm_num) (fun k' => hc i j k')
    (fun k' => by rw [one_mul]; exact g₃ a k k') hL hS (fun k' hk => Or.inr (h0 k' hk)) hG (fun k' => by
      calc ‖((C i j k' : ℝ) : ℂ)‖ * ‖r₃.X a k k'‖ ≤ 1 * G := mul_le_mul (hn _ _ _) ((h₃ a).2.2 _ _) (norm_nonneg _) zero_le_one
        _ = G := one_mul G) (by norm_num) (by norm_num)).1
  obtain ⟨S, hS, h0⟩ := (h₁ a).2.1 i
  obtain ⟨p, p'⟩ := dot_two hu hu' (p := 1) (q := 4) (c := 12) (M := G) (a := fun i' => r₁.X a i' i)
    (b := fun i' => ((C i' j k : ℝ) : ℂ)) (by norm_num) (by norm_num) (fun i' => by rw [one_mul]; exact g₁ a i' i)
    (fun i' => hc i' j k) hP hS (fun k' hk => Or.inl (h0 k' hk)) hG (fun i' => by
      calc ‖r₁.X a i' i‖ * ‖((C i' j k : ℝ) : ℂ)‖ ≤ G * 1 := mul_le_mul ((h₁ a).2.2 _ _) (hn _ _ _) (norm_nonneg _) hG
        _ = G := mul_one G) (by norm_num) (by norm_num)
  obtain ⟨S, hS, h0⟩ := (h₂ a).2.1 j
  obtain ⟨q, q'⟩ := dot_two hu hu' (p := 1) (q := 4) (c := 12) (M := G) (a := fun j' => r₂.X a j' j)
    (b := fun j' => ((C i j' k : ℝ) : ℂ)) (by norm_num) (by norm_num) (fun j' => by rw [one_mul]; exact g₂ a j' j)
    (fun j' => hc i j' k) hQ hS (fun k' hk => Or.inl (h0 k' hk)) hG (fun j' => by
      calc ‖r₂.X a j' j‖ * ‖((C i j' k : ℝ) : ℂ)‖ ≤ G * 1 := mul_le_mul ((h₂ a).2.2 _ _) (hn _ _ _) (norm_nonneg _) hG
        _ = G := mul_one G) (by norm_num) (by norm_num)
  have eq := hC.1 a i j k
  have hR' : ‖R - (P + Q)‖ ≤ u * ‖P + Q‖ := hR
  set l₀ := ∑ k', ((C i j k' : ℝ) : ℂ) * r₃.X a k k'
  set p₀ := ∑ i', r₁.X a i' i * ((C i' j k : ℝ) : ℂ)
  set q₀ := ∑ j', r₂.X a j' j * ((C i j' k : ℝ) : ℂ)
  have e0 : L - R = (L - l₀) - (P - p₀) - (Q - q₀) - (R - (P + Q)) := by
    have : l₀ = p₀ + q₀ := eq
    rw [this]; ring
  have e1 : ‖L - R‖ ≤ ‖L - l₀‖ + ‖P - p₀‖ + ‖Q - q₀‖ + ‖R - (P + Q)‖ := by
    rw [e0]
    exact (norm_sub_le _ _).trans (add_le_add ((norm_sub_le _ _).trans (add_le_add (norm_sub_le _ _) le_rfl)) le_rfl)
  have e2 : ‖P + Q‖ ≤ 4 * G + 48 * u * G := by
    have e : P + Q = ((P - p₀) + p₀) + ((Q - q₀) + q₀) := by ring
    rw [e]
    have := norm_add_le ((P - p₀) + p₀) ((Q - q₀) + q₀)
    have := norm_add_le (P - p₀) p₀
    have := norm_add_le (Q - q₀) q₀
    linarith
  have e3 : u * ‖P + Q‖ ≤ u * (5 * G) := by
    refine mul_le_mul_of_nonneg_left (e2.trans ?_) hu
    nlinarith
  nlinarith [mul_nonneg hu hG]

/-- The exact outcome is an outcome of the comparison. -/
theorem closeRun_exact (hu : 0 ≤ u) (x y : ℂ) : ∃ b, CloseRun u atol rtol x y b ∧ (b = true ↔ ‖x - y‖ ≤ atol + rtol * ‖y‖) := by
  classical
  exact ⟨decide (‖x - y‖ ≤ atol + rtol * ‖y‖), ⟨_, _, rnd_self (by linarith) _, rnd_self (by linarith) _, decide_eq_true_iff⟩,
    decide_eq_true_iff⟩

theorem closeAlgebraRun_exact (hu : 0 ≤ u) (A B : Fin n → Fin n → Fin n → ℂ) :
    ∃ b, CloseAlgebraRun u rtol atol A B b ∧ (b = true ↔ ∀ i j k, ‖A i j k - B i j k‖ ≤ atol + rtol * ‖B i j k‖) := by
  classical
  choose c hc hc' using fun i j k => closeRun_exact (u := u) (atol := atol) (rtol := rtol) hu (A i j k) (B i j k)
  refine ⟨decide (∀ i j k, c i j k = true), ⟨c, hc, decide_eq_true_iff⟩, ?_⟩
  rw [decide_eq_true_iff]
  exact forall_congr' fun i => forall_congr' fun j => forall_congr' fun k => hc' i j k

/-- There is an outcome of `check_algebra_vs_generators` for any products `P i j` that the scalar products
may compute. -/
theorem checkAlgebraRun_of (hu : 0 ≤ u) (A : Fin n → Fin n → Fin n → ℂ) (X : Fin n → Matrix (Fin d) (Fin d) ℂ)
    (P : Fin n → Fin n → Matrix (Fin d) (Fin d) ℂ)
    (hP : ∀ i j a b, DotRun u (fun k => X i a k) (fun k => X j k b) (P i j a b)) :
    ∃ b, CheckAlgebraRun u rtol atol A X b ∧ (b = true ↔ ∀ i j p q,
      ‖P i j p q - P j i p q - ∑ k, A i j k * X k p q‖ ≤ atol + rtol * ‖∑ k, A i j k * X k p q‖) := by
  classical
  choose c hc hc' using fun i j p q => closeRun_exact (u := u) (atol := atol) (rtol := rtol) hu
    (P i j p q - P j i p q) (∑ k, A i j k * X k p q)
  refine ⟨decide (∀ i j p q, c i j p q = true), ⟨fun i j => fun p q => P i j p q - P j i p q,
    fun i j => fun p q => ∑ k, A i j k * X k p q, c,
    fun i j => ⟨P i j, P j i, hP i j, hP j i, fun a b => rnd_self hu _⟩,
    fun i j p q => dotRun_exact hu _ _, hc, decide_eq_true_iff⟩, ?_⟩
  rw [decide_eq_true_iff]
  exact forall_congr' fun i => forall_congr' fun j => forall_congr' fun p => forall_congr' fun q => hc' i j p q

theorem checkAlgebraRun_exists (hu : 0 ≤ u) (A : Fin n → Fin n → Fin n → ℂ) (X : Fin n → Matrix (Fin d) (Fin d) ℂ) :
    ∃ b, CheckAlgebraRun u rtol atol A X b := by
  obtain ⟨b, hb, -⟩ := checkAlgebraRun_of (rtol := rtol) (atol := atol) hu A X (fun i j => X i * X j) fun i j a b => by
    rw [Matrix.mul_apply]; exact dotRun_exact hu _ _
  exact ⟨b, hb⟩

theorem solutionRun_exists (hu : 0 ≤ u) (X₁ : Fin n → Matrix (Fin d₁) (Fin d₁) ℂ) (X₂ : Fin n → Matrix (Fin d₂) (Fin d₂) ℂ)
    (X₃ : Fin n → Matrix (Fin d₃) (Fin d₃) ℂ) (C : Fin d₁ → Fin d₂ → Fin d₃ → ℝ) :
    ∃ b, SolutionRun u rtol atol X₁ X₂ X₃ C b := by
  classical
  choose c hc _ using fun a i j l => closeRun_exact (u := u) (atol := atol) (rtol := rtol) hu
    (∑ k, ((C i j k : ℝ) : ℂ) * X₃ a l k) (∑ i', X₁ a i' i * ((C i' j l : ℝ) : ℂ) + ∑ j', X₂ a j' j * ((C i j' l : ℝ) : ℂ))
  exact ⟨decide (∀ a i j k, c a i j k = true), _, _, _, _, c, fun a i j l => dotRun_exact hu _ _,
    fun a l j k => dotRun_exact hu _ _, fun a i l k => dotRun_exact hu _ _, fun a i j k => rnd_self hu _, hc,
    decide_eq_true_iff⟩

theorem powRun_exact (hu : 0 ≤ u) (x : ℝ) : PowRun u x x := by
  refine ⟨x ^ 2, √(x ^ 2), rnd_self hu _, rnd_self (by linarith) _, ?_⟩
  rw [Real.sqrt_sq_eq_abs]
  split_ifs with hx
  · rw [abs_of_pos hx]
  · rw [abs_of_nonpos (not_lt.1 hx), neg_neg]

theorem coeffRun_exact (hu : 0 ≤ u) (cg : Py (List (Fin d₁ → Fin d₂ → Fin d₃ → ℝ))) : CoeffRun u cg cg := by
  rcases cg with e | L
  · rfl
  · exact ⟨L, rfl, List.forall₂_same.2 fun C _ i j k => powRun_exact hu _⟩

theorem forall₂_exists {α β : Type*} {p : α → β → Prop} (hp : ∀ a, ∃ b, p a b) (L : List α) : ∃ bs, List.Forall₂ p L bs := by
  induction L with
  | nil => exact ⟨[], List.Forall₂.nil⟩
  | cons a L ih =>
    obtain ⟨b, hb⟩ := hp a
    obtain ⟨bs, hbs⟩ := ih
    exact ⟨b :: bs, List.Forall₂.cons hb hbs⟩

/-- One product off by a relative error `u`. -/
theorem dotRun_perturb (hu : 0 ≤ u) {m : ℕ} (a b : Fin m → ℂ) (k₀ : Fin m) :
    DotRun u a b (∑ k, a k * b k + Complex.I * ((u * ((a k₀).im * (b k₀).re) : ℝ) : ℂ)) := by
  classical
  obtain ⟨t₁, t₂, t₃, t₄, h1, h2, h3, h4, hr, -⟩ := dotRun_exact hu a b
  refine ⟨t₁, t₂, fun k => (a k).re * (b k).im, fun k => (a k).im * (b k).re + if k = k₀ then u * ((a k).im * (b k).re) else 0,
    h1, h2, fun k => rnd_self hu _, fun k => ?_, ?_, ?_⟩
  · unfold Rnd
    rw [add_sub_cancel_left]
    split_ifs
    · rw [norm_mul, Real.norm_of_nonneg hu]
    · rw [norm_zero]; positivity
  · rw [Complex.add_re, Complex.re_mul_ofReal, Complex.I_re, zero_mul, add_zero]
    exact hr
  · have e : (∑ k, a k * b k + Complex.I * ((u * ((a k₀).im * (b k₀).re) : ℝ) : ℂ)).im =
        (Finset.univ.val.map (fun k => (a k).re * (b k).im) +
        Finset.univ.val.map (fun k => (a k).im * (b k).re + if k = k₀ then u * ((a k).im * (b k).re) else 0)).sum := by
      rw [Multiset.sum_add, Complex.add_im, Complex.im_sum, Complex.im_mul_ofReal, Complex.I_im, one_mul]
      change _ = ∑ k, (a k).re * (b k).im + ∑ k, ((a k).im * (b k).re + if k = k₀ then u * ((a k).im * (b k).re) else 0)
      rw [Finset.sum_add_distrib, Finset.sum_ite_eq' Finset.univ k₀, if_pos (Finset.mem_univ k₀), ← add_assoc,
        ← Finset.sum_add_distrib]
      congr 1
    rw [e]
    exact sumRun_exact hu _

theorem pyAssert_congr {p q : Prop} {_ : Decidable p} {_ : Decidable q} (h : p ↔ q) : pyAssert p = pyAssert q := by
  unfold pyAssert
  simp only [h]

theorem rnd_zero {E : Type*} [NormedAddCommGroup E] {x y : E} (h : Rnd 0 x y) : x = y := by
  unfold Rnd at h
  rw [zero_mul] at h
  exact (sub_eq_zero.1 (norm_le_zero_iff.1 h)).symm

theorem dot_zero {m : ℕ} {a b : Fin m → ℂ} {z : ℂ} (h : DotRun 0 a b z) : ∑ k, a k * b k = z := by
  have := dot_err le_rfl h (S := Finset.univ) (fun k hk => absurd (Finset.mem_univ k) hk)
  rw [add_zero, one_pow, sub_self, mul_zero, zero_mul] at this
  exact (sub_eq_zero.1 (norm_le_zero_iff.1 this)).symm

theorem closeRun_zero {x y : ℂ} {b : Bool} (h : CloseRun 0 atol rtol x y b) : b = true ↔ IsClose atol rtol x y := by
  obtain ⟨d, s, hd, hs, hb⟩ := h
  rw [mul_zero] at hd hs
  rw [hb, ← rnd_zero hd, ← rnd_zero hs]
  rfl

theorem powRun_zero {x y : ℝ} (h : PowRun 0 x y) : x = y :=
  rnd_zero (by have := powRun_rnd le_rfl (by norm_num) h; rwa [mul_zero] at this)

end LieNN
