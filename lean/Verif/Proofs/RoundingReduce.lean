import Verif.Model.RoundingReduce
import Verif.Proofs.RoundingSeq
import Verif.Proofs.Reduce
/-!
# `reduce` with rounding errors
-/
namespace LieNN.Rounding

open Matrix Spec

variable {m n h k d : ℕ} {δ eps γ e bx τ : ℝ}

/-! ### Crude bounds from the entries -/

/-- A matrix with small entries is small. -/
theorem norm_mulVec_of_entries (he : 0 ≤ e) {E : Matrix (Fin m) (Fin k) ℂ} (hE : ∀ i j, ‖E i j‖ ≤ e)
    (x : Vec k) : ‖(WithLp.toLp 2 (E *ᵥ x.ofLp) : Vec m)‖ ≤ m * k * e * ‖x‖ := by
  have h1 : ∀ i, ‖(E *ᵥ x.ofLp) i‖ ≤ k * e * ‖x‖ := by
    intro i
    rw [mulVec, dotProduct]
    refine (norm_sum_le _ _).trans ?_
    have : ∀ j ∈ Finset.univ, ‖E i j * x.ofLp j‖ ≤ e * ‖x‖ := fun j _ => by
      rw [norm_mul]
      exact mul_le_mul (hE i j) (PiLp.norm_apply_le x j) (norm_nonneg _) he
    refine (Finset.sum_le_card_nsmul _ _ _ this).trans (le_of_eq ?_)
    simp only [Finset.card_univ, Fintype.card_fin, nsmul_eq_mul]
    ring
  set y : Vec m := WithLp.toLp 2 (E *ᵥ x.ofLp) with hy
  have h2 : y = ∑ i, y i • (EuclideanSpace.single i (1 : ℂ) : Vec m) := by
    ext p
    simp [Finset.sum_apply, Pi.single_apply]
  rw [h2]
  refine (norm_sum_le _ _).trans ?_
  have : ∀ i ∈ Finset.univ, ‖y i • (EuclideanSpace.single i (1 : ℂ) : Vec m)‖ ≤ k * e * ‖x‖ := fun i _ => by
    rw [norm_smul, PiLp.norm_single, norm_one, mul_one]
    exact h1 i
  refine (Finset.sum_le_card_nsmul _ _ _ this).trans (le_of_eq ?_)
  simp only [Finset.card_univ, Fintype.card_fin, nsmul_eq_mul]
  ring

theorem norm_mul_of_entries {p q s : ℕ} {A : Matrix (Fin p) (Fin q) ℂ} {B : Matrix (Fin q) (Fin s) ℂ}
    {α β : ℝ} (hα : 0 ≤ α) (hA : ∀ i j, ‖A i j‖ ≤ α) (hB : ∀ i j, ‖B i j‖ ≤ β) (i : Fin p) (j : Fin s) :
    ‖(A * B) i j‖ ≤ q * (α * β) := by
  rw [Matrix.mul_apply]
  refine (norm_sum_le _ _).trans ?_
  have : ∀ l ∈ Finset.univ, ‖A i l * B l j‖ ≤ α * β := fun l _ => by
    rw [norm_mul]
    exact mul_le_mul (hA i l) (hB l j) (norm_nonneg _) hα
  refine (Finset.sum_le_card_nsmul _ _ _ this).trans (le_of_eq ?_)
  simp only [Finset.card_univ, Fintype.card_fin, nsmul_eq_mul]

theorem entry_le_of_sum {p q : ℕ} {A : Matrix (Fin p) (Fin q) ℂ} (hA : ∑ i, ∑ j, ‖A i j‖ ≤ bx) (i : Fin p)
    (j : Fin q) : ‖A i j‖ ≤ bx := by
  refine le_trans ?_ hA
  have h1 : ‖A i j‖ ≤ ∑ j, ‖A i j‖ :=
    Finset.single_le_sum (f := fun j => ‖A i j‖) (fun _ _ => norm_nonneg _) (Finset.mem_univ j)
  exact h1.trans (Finset.single_le_sum (f := fun i => ∑ j, ‖A i j‖)
    (fun _ _ => Finset.sum_nonneg fun _ _ => norm_nonneg _) (Finset.mem_univ i))

/-- The entries of an isometry. -/
theorem isometry_entry {V : Matrix (Fin d) (Fin k) ℂ} (hV : Vᴴ * V = 1) (i : Fin d) (j : Fin k) :
    ‖V i j‖ ≤ 1 := by
  have h1 : ∑ l, ‖V l j‖ ^ 2 = 1 := by
    have h2 := congrFun (congrFun hV j) j
    rw [Matrix.mul_apply, one_apply_eq] at h2
    have h3 : ∀ l, Vᴴ j l * V l j = ((‖V l j‖ ^ 2 : ℝ) : ℂ) := fun l => by
      rw [conjTranspose_apply, Complex.star_def, Complex.conj_mul']
      push_cast; rfl
    rw [Finset.sum_congr rfl fun l _ => h3 l] at h2
    exact_mod_cast h2
  have h4 : ‖V i j‖ ^ 2 ≤ 1 := h1 ▸ Finset.single_le_sum (f := fun l => ‖V l j‖ ^ 2)
    (fun _ _ => by positivity) (Finset.mem_univ i)
  nlinarith [norm_nonneg (V i j)]

/-- The restriction of a matrix to the range of an isometry. -/
theorem restriction_entry {V : Matrix (Fin d) (Fin k) ℂ} (hV : Vᴴ * V = 1) {X : Matrix (Fin d) (Fin d) ℂ}
    {Z : Matrix (Fin k) (Fin k) ℂ} (hX : X * V = V * Z) (hb : ∀ i j, ‖X i j‖ ≤ bx) (hb0 : 0 ≤ bx) (i j : Fin k) :
    ‖Z i j‖ ≤ d * (d * bx) := by
  have e : Z = Vᴴ * (X * V) := by rw [hX, ← Matrix.mul_assoc, hV, Matrix.one_mul]
  rw [e]
  have h1 := norm_mul_of_entries (A := Vᴴ) (B := X * V) zero_le_one
    (fun i j => by rw [conjTranspose_apply, norm_star]; exact isometry_entry hV j i)
    (fun i j => norm_mul_of_entries hb0 hb (isometry_entry hV) i j) i j
  simpa using h1

theorem icobMatrix_entry {N : ℕ} {X : Fin N → Matrix (Fin d) (Fin d) ℂ} {Z : Fin N → Matrix (Fin k) (Fin k) ℂ}
    {b : ℝ} (hX : ∀ a i j, ‖X a i j‖ ≤ b) (hZ : ∀ a i j, ‖Z a i j‖ ≤ b) (i j) :
    ‖icobMatrix X Z i j‖ ≤ 2 * b := by
  unfold icobMatrix icobBlock
  rw [Matrix.sub_apply]
  refine (norm_sub_le _ _).trans ?_
  have hb : ∀ (i' j' : Fin (d * k)) (a : Fin N), 0 ≤ b := fun i' j' a =>
    (norm_nonneg _).trans (hX a i'.divNat j'.divNat)
  have hb0 : 0 ≤ b := hb i.modNat j i.divNat
  have h1 : ‖kron (X i.divNat) (1 : Matrix (Fin k) (Fin k) ℂ) i.modNat j‖ ≤ b := by
    unfold kron
    rw [norm_mul, one_apply]
    split_ifs
    · rw [norm_one, mul_one]; exact hX _ _ _
    · rw [norm_zero, mul_zero]; exact hb0
  have h2 : ‖kron (1 : Matrix (Fin d) (Fin d) ℂ) (Z i.divNat)ᵀ i.modNat j‖ ≤ b := by
    unfold kron
    rw [norm_mul, one_apply]
    split_ifs
    · rw [norm_one, one_mul]; exact hZ _ _ _
    · rw [norm_zero, zero_mul]; exact hb0
  linarith

theorem icobMatrix_sub_entry {N : ℕ} {X : Fin N → Matrix (Fin d) (Fin d) ℂ}
    {Y Z : Fin N → Matrix (Fin k) (Fin k) ℂ} {b : ℝ} (hb0 : 0 ≤ b) (h : ∀ a i j, ‖Y a i j - Z a i j‖ ≤ b) (i j) :
    ‖(icobMatrix X Y - icobMatrix X Z) i j‖ ≤ b := by
  have e : (icobMatrix X Y - icobMatrix X Z) i j =
      -(kron (1 : Matrix (Fin d) (Fin d) ℂ) (Y i.divNat - Z i.divNat)ᵀ i.modNat j) := by
    simp only [icobMatrix, icobBlock, Matrix.sub_apply, kron, transpose_apply]
    ring
  rw [e, norm_neg]
  unfold kron
  rw [norm_mul, one_apply]
  split_ifs
  · rw [norm_one, one_mul, transpose_apply, Matrix.sub_apply]; exact h _ _ _
  · rw [norm_zero, zero_mul]; exact hb0

theorem unvec_entry_le {d₁ d₂ : ℕ} (v : Vec (d₁ * d₂)) (i : Fin d₁) (j : Fin d₂) : ‖unvec v i j‖ ≤ ‖v‖ :=
  PiLp.norm_apply_le v _

/-! ### Change of basis to a perturbed restriction -/

/-- `infer_change_of_basis` on a family and on a small perturbation of one of its restrictions. -/
theorem change_restriction (N d : ℕ) {b : ℝ} (hb : 0 ≤ b) (heps : 0 < eps) (hγ : eps < γ)
    (hd : ((d * d : ℕ) : ℝ) * eps ^ 2 < 1) (hτ : 0 < τ) :
    ∃ Δ > 0, ∀ δ, 0 ≤ δ → δ ≤ Δ → ∀ ρ, 0 ≤ ρ → ρ ≤ Δ → ∀ k ≤ d, ∀ (X : Fin N → Matrix (Fin d) (Fin d) ℂ)
      (Y Z : Fin N → Matrix (Fin k) (Fin k) ℂ), (∀ a i j, ‖X a i j‖ ≤ b) → (∀ a i j, ‖Z a i j‖ ≤ b) →
      (∀ a i j, ‖Y a i j - Z a i j‖ ≤ ρ) → Gap γ (icobMatrix X Z) → ∀ S, ChangeRun δ eps X Y S →
      ∃ U : List (Vec (d * k)), OList U ∧ lspan U = kernel (icobMatrix X Z) ∧
        List.Forall₂ (fun Q u => ∀ i j, ‖Q i j - unvec u i j‖ ≤ τ) S U := by
  obtain ⟨Δ₁, hΔ₁, h₁⟩ := exists_delta_le (d * d) heps hγ hd hτ
  set C : ℝ := (N * (d * d) : ℕ) * (d * d : ℕ) with hC
  have hC0 : 0 ≤ C := by positivity
  set B : ℝ := C * (2 * b) with hB
  have hB0 : 0 ≤ B := by positivity
  set K : ℝ := 1 + C * (2 * B + C) with hK
  have hK1 : 0 < K := by positivity
  refine ⟨min 1 (Δ₁ / K), by positivity, ?_⟩
  intro δ hδ hδΔ ρ hρ hρΔ k hk X Y Z hX hZ hYZ hgap S ⟨hN, R, hR, hS⟩
  have hkd : d * k ≤ d * d := Nat.mul_le_mul_left d hk
  have hCk : ((N * (d * k) : ℕ) : ℝ) * (d * k : ℕ) ≤ C := by
    rw [hC]
    have a1 : ((N * (d * k) : ℕ) : ℝ) ≤ (N * (d * d) : ℕ) := by exact_mod_cast Nat.mul_le_mul_left N hkd
    have a2 : ((d * k : ℕ) : ℝ) ≤ (d * d : ℕ) := by exact_mod_cast hkd
    exact mul_le_mul a1 a2 (by positivity) (by positivity)
  have hshift := nullRun_shift (M := icobMatrix X Y) (M₀ := icobMatrix X Z) (η := C * ρ) (B := B)
    (by positivity) hB0
    (fun x => by
      rw [← WithLp.toLp_sub, ← sub_mulVec]
      refine (norm_mulVec_of_entries hρ (icobMatrix_sub_entry hρ hYZ) x).trans ?_
      exact mul_le_mul_of_nonneg_right (mul_le_mul_of_nonneg_right hCk hρ) (norm_nonneg _))
    (fun x => by
      refine (norm_mulVec_of_entries (by positivity) (icobMatrix_entry hX hZ) x).trans ?_
      exact mul_le_mul_of_nonneg_right (mul_le_mul_of_nonneg_right hCk (by positivity)) (norm_nonneg _)) hR
  have hm1 : min 1 (Δ₁ / K) ≤ 1 := min_le_left _ _
  have hm2 : min 1 (Δ₁ / K) * K ≤ Δ₁ := by
    rw [← le_div_iff₀ hK1]; exact min_le_right _ _
  have hle : δ + C * ρ * (2 * B + C * ρ) ≤ Δ₁ := by
    refine le_trans ?_ hm2
    generalize min 1 (Δ₁ / K) = t at *
    have ht : 0 ≤ t := hδ.trans hδΔ
    have a1 : C * ρ ≤ C * t := mul_le_mul_of_nonneg_left hρΔ hC0
    have a2 : C * ρ ≤ C := mul_le_of_le_one_right hC0 (hρΔ.trans hm1)
    have a3 : C * ρ * (2 * B + C * ρ) ≤ C * t * (2 * B + C) :=
      mul_le_mul a1 (by linarith) (by positivity) (by positivity)
    rw [hK]
    nlinarith
  obtain ⟨U, u1, u2, u3⟩ := h₁ _ (by positivity) hle (d * k) hkd _ _ hgap R hshift
  refine ⟨U, u1, u2, ?_⟩
  rw [hS, List.forall₂_map_left_iff]
  exact u3.imp fun q u hqu i j => (unvec_entry_le (q - u) i j).trans hqu

/-- A matrix close to an intertwiner of `X` and `Z` nearly intertwines `X` and `Y`. -/
theorem residual_restriction {b τ ρ : ℝ} {k : ℕ} {X : Matrix (Fin d) (Fin d) ℂ} {Y Z : Matrix (Fin k) (Fin k) ℂ}
    (hb : 0 ≤ b) (hτ : 0 ≤ τ) (hτ1 : τ ≤ 1) (hk : k ≤ d) (hX : ∀ i j, ‖X i j‖ ≤ b) (hZ : ∀ i j, ‖Z i j‖ ≤ b)
    (hρ : 0 ≤ ρ) (hYZ : ∀ i j, ‖Y i j - Z i j‖ ≤ ρ) {Q W : Matrix (Fin d) (Fin k) ℂ} (hW : X * W = W * Z)
    (hW1 : ∀ i j, ‖W i j‖ ≤ 1) (hQ : ∀ i j, ‖Q i j - W i j‖ ≤ τ) (i : Fin d) (j : Fin k) :
    ‖(X * Q) i j - (Q * Y) i j‖ ≤ d * (2 * b * τ + 2 * ρ) := by
  have e : X * Q - Q * Y = X * (Q - W) - (Q - W) * Z - Q * (Y - Z) := by
    rw [Matrix.mul_sub, Matrix.sub_mul, Matrix.mul_sub, hW]
    abel
  have hQ2 : ∀ i j, ‖Q i j‖ ≤ 2 := fun i j => by
    have := norm_add_le (Q i j - W i j) (W i j)
    rw [sub_add_cancel] at this
    linarith [hQ i j, hW1 i j]
  have hkd : (k : ℝ) ≤ d := by exact_mod_cast hk
  rw [← Matrix.sub_apply, e, Matrix.sub_apply, Matrix.sub_apply]
  refine (norm_sub_le _ _).trans ?_
  have h1 := norm_mul_of_entries (A := X) (B := Q - W) hb hX (fun i j => hQ i j) i j
  have h2 := norm_mul_of_entries (A := Q - W) (B := Z) hτ (fun i j => hQ i j) hZ i j
  have h3 := norm_mul_of_entries (A := Q) (B := Y - Z) zero_le_two hQ2 (fun i j => hYZ i j) i j
  have h4 := norm_sub_le ((X * (Q - W)) i j) (((Q - W) * Z) i j)
  have h5 : (k : ℝ) * (τ * b) ≤ d * (τ * b) := mul_le_mul_of_nonneg_right hkd (by positivity)
  have h6 : (k : ℝ) * (2 * ρ) ≤ d * (2 * ρ) := mul_le_mul_of_nonneg_right hkd (by positivity)
  nlinarith

theorem reduceBlockRun_mk {r : Rep n h d} {Y : Fin (n + h) → Matrix (Fin k) (Fin k) ℂ} {res : Py (Piece n h d)}
    (hrun : ReduceBlockRun δ r ⟨k, Y⟩ res) :
    ∃ S : List (Matrix (Fin d) (Fin k) ℂ), ChangeRun δ (1 / 10 ^ 4) r.allGens Y S ∧
    ∃ (lhs rhs : Matrix (Fin d) (Fin k) ℂ → Fin (n + h) → Matrix (Fin d) (Fin k) ℂ)
      (scaled : Matrix (Fin d) (Fin k) ℂ → Matrix (Fin d) (Fin k) ℂ),
      (∀ Q ∈ S, ∀ a i k, ‖lhs Q a i k - (r.allGens a * Q) i k‖ ≤ δ ∧ ‖rhs Q a i k - (Q * Y a) i k‖ ≤ δ) ∧
      (∀ Q ∈ S, ∀ i k, ‖scaled Q i k - ((Real.sqrt d : ℝ) : ℂ) * Q i k‖ ≤ δ) ∧
      ((∀ Q ∈ S, ∀ a i k, IsClose (1 / 10 ^ 8) (1 / 10 ^ 8) (lhs Q a i k) (rhs Q a i k)) →
        res = match S.map scaled with
          | [Q] => .ok ⟨k, blockIr r ⟨k, Y⟩, Q⟩
          | _ => if d * k = 0 then .ok ⟨k, blockIr r ⟨k, Y⟩, 0⟩ else .error .valueError) := by
  obtain ⟨S, hS, lhs, rhs, scaled, hlr, hsc, hres⟩ := hrun
  rw [allGens_blockIr] at hS
  simp only [allGens_blockIr] at hlr
  refine ⟨S, hS, lhs, rhs, scaled, hlr, hsc, fun hc => ?_⟩
  rw [hres, pyAssert, if_pos (show AllCloseA (blockIr r ⟨k, Y⟩).A r.A from allCloseA_refl _)]
  rw [pyAssert, if_pos hc]
  simp only [bind, Except.bind]
  rcases S.map scaled with _ | ⟨Q, _ | _⟩ <;> rfl

/-- One turn of the loop of `reduce`, with errors. -/
theorem reduceBlock_run (n h d : ℕ) {bx : ℝ} (hγ : 1 / 10 ^ 4 < γ) (hd : d * d < 10 ^ 8) (hτ : 0 < τ) :
    ∃ Δ > 0, ∀ δ, 0 ≤ δ → δ ≤ Δ → ∀ r : Rep n h d, (∀ a, ∑ p, ∑ q, ‖r.allGens a p q‖ ≤ bx) →
      ∀ k ≤ d, ∀ (Y Z : Fin (n + h) → Matrix (Fin k) (Fin k) ℂ) (V : Matrix (Fin d) (Fin k) ℂ), Vᴴ * V = 1 →
      (∀ a, r.allGens a * V = V * Z a) → (∀ a i j, ‖Y a i j - Z a i j‖ ≤ Δ) → Gap γ (icobMatrix r.allGens Z) →
      ∀ res, ReduceBlockRun δ r ⟨k, Y⟩ res →
        (Module.finrank ℂ (intertwiners r.allGens Z) = 1 → ∃ Q Q₀, res = .ok ⟨k, blockIr r ⟨k, Y⟩, Q⟩ ∧
          (∀ i j, ‖Q i j - Q₀ i j‖ ≤ τ) ∧ (∀ a, r.allGens a * Q₀ = Q₀ * Z a) ∧ d ≠ 0 ∧
          ∀ W ∈ intertwiners r.allGens Z, ∃ c : ℂ, W = c • Q₀) ∧
        (Module.finrank ℂ (intertwiners r.allGens Z) ≠ 1 → d * k ≠ 0 → res = .error .valueError) := by
  set b : ℝ := |bx| + d * (d * |bx|) with hb
  have hb0 : 0 ≤ b := by positivity
  -- the accuracy of the null vectors
  obtain ⟨τ₁, t0, t1, t2, t3⟩ : ∃ τ₁ : ℝ, 0 < τ₁ ∧ τ₁ ≤ 1 ∧ d * (2 * b * τ₁) ≤ 1 / 10 ^ 9 ∧ √d * τ₁ ≤ τ / 2 := by
    refine ⟨min 1 (min (1 / 10 ^ 9 / (d * (2 * b) + 1)) (τ / 2 / (√d + 1))), by positivity, min_le_left _ _, ?_, ?_⟩
    · have h1 := (min_le_right 1 (min (1 / 10 ^ 9 / (d * (2 * b) + 1)) (τ / 2 / (√d + 1)))).trans (min_le_left _ _)
      rw [le_div_iff₀ (by positivity)] at h1
      have h2 : 0 < min 1 (min (1 / 10 ^ 9 / (d * (2 * b) + 1)) (τ / 2 / (√d + 1))) := by positivity
      nlinarith
    · have h1 := (min_le_right 1 (min (1 / 10 ^ 9 / (d * (2 * b) + 1)) (τ / 2 / (√d + 1)))).trans (min_le_right _ _)
      rw [le_div_iff₀ (by positivity)] at h1
      have h2 : 0 < min 1 (min (1 / 10 ^ 9 / (d * (2 * b) + 1)) (τ / 2 / (√d + 1))) := by positivity
      nlinarith
  have hd' : ((d * d : ℕ) : ℝ) * (1 / 10 ^ 4) ^ 2 < 1 := by
    have : ((d * d : ℕ) : ℝ) < 10 ^ 8 := by exact_mod_cast hd
    linarith
  obtain ⟨Δ₁, hΔ₁, hch⟩ := change_restriction (n + h) d hb0 (by norm_num : (0 : ℝ) < 1 / 10 ^ 4) hγ hd' t0
  obtain ⟨Δ, hΔ0, c1, c2, c3, c4⟩ : ∃ Δ : ℝ, 0 < Δ ∧ Δ ≤ Δ₁ ∧ d * (2 * Δ) ≤ 1 / 10 ^ 9 ∧ Δ ≤ 1 / 10 ^ 9 ∧
      Δ ≤ τ / 2 := by
    refine ⟨min (min Δ₁ (1 / 10 ^ 9 / (2 * d + 1))) (min (1 / 10 ^ 9) (τ / 2)), by positivity,
      (min_le_left _ _).trans (min_le_left _ _), ?_, (min_le_right _ _).trans (min_le_left _ _),
      (min_le_right _ _).trans (min_le_right _ _)⟩
    have h1 := (min_le_left (min Δ₁ (1 / 10 ^ 9 / (2 * d + 1))) (min (1 / 10 ^ 9) (τ / 2))).trans (min_le_right _ _)
    rw [le_div_iff₀ (by positivity)] at h1
    have h2 : 0 < min (min Δ₁ (1 / 10 ^ 9 / (2 * (d : ℝ) + 1))) (min (1 / 10 ^ 9) (τ / 2)) := by positivity
    nlinarith
  refine ⟨Δ, hΔ0, ?_⟩
  intro δ hδ hδΔ r hbx k hk Y Z V hV hXV hYZ hgap res hrun
  obtain ⟨S, hS, lhs, rhs, scaled, hlr, hsc, hres⟩ := reduceBlockRun_mk hrun
  have hX : ∀ a i j, ‖r.allGens a i j‖ ≤ |bx| := fun a i j =>
    (entry_le_of_sum (hbx a) i j).trans (le_abs_self _)
  have hXb : ∀ a i j, ‖r.allGens a i j‖ ≤ b := fun a i j => (hX a i j).trans (by rw [hb]; linarith [show (0 : ℝ) ≤ d * (d * |bx|) by positivity])
  have hZb : ∀ a i j, ‖Z a i j‖ ≤ b := fun a i j =>
    (restriction_entry hV (hXV a) (hX a) (abs_nonneg _) i j).trans (by rw [hb]; linarith [abs_nonneg bx])
  obtain ⟨U, u1, u2, u3⟩ := hch δ hδ (hδΔ.trans c1) Δ hΔ0.le c1 k hk r.allGens Y Z hXb hZb hYZ hgap S hS
  have hker : ∀ u ∈ U, ∀ a, r.allGens a * unvec u = unvec u * Z a := fun u hu =>
    (icobMatrix_mulVec r.allGens Z u).1 (u2 ▸ mem_lspan hu : u ∈ kernel (icobMatrix r.allGens Z))
  have hlen : S.length = Module.finrank ℂ (intertwiners r.allGens Z) := by
    rw [u3.length_eq, oList_length u1, u2, finrank_kernel_icob]
  have hcheck : ∀ Q ∈ S, ∀ a i k, IsClose (1 / 10 ^ 8) (1 / 10 ^ 8) (lhs Q a i k) (rhs Q a i k) := by
    intro Q hQ a i l
    obtain ⟨u, hu, hQu⟩ : ∃ u ∈ U, ∀ i j, ‖Q i j - unvec u i j‖ ≤ τ₁ := by
      obtain ⟨p, hp, rfl⟩ := List.mem_iff_getElem.1 hQ
      exact ⟨U[p]'(u3.length_eq ▸ hp), List.getElem_mem _, (List.forall₂_iff_get.1 u3).2 p hp _⟩
    have h1 := residual_restriction (ρ := Δ) hb0 t0.le t1 hk (hXb a) (hZb a) hΔ0.le (hYZ a) (hker u hu a)
      (fun i j => (unvec_entry_le u i j).trans (u1.1 u hu).le) hQu i l
    obtain ⟨h2, h3⟩ := hlr Q hQ a i l
    unfold IsClose
    have e : lhs Q a i l - rhs Q a i l = (lhs Q a i l - (r.allGens a * Q) i l) +
        ((r.allGens a * Q) i l - (Q * Y a) i l) - (rhs Q a i l - (Q * Y a) i l) := by ring
    rw [e]
    have h4 := (norm_sub_le _ _).trans (add_le_add ((norm_add_le _ _).trans (add_le_add h2 h1)) h3)
    have h5 : (0 : ℝ) ≤ 1 / 10 ^ 8 * ‖rhs Q a i l‖ := by positivity
    have h6 : (d : ℝ) * (2 * b * τ₁ + 2 * Δ) = d * (2 * b * τ₁) + d * (2 * Δ) := by ring
    rw [h6] at h4
    have h7 : δ + (d * (2 * b * τ₁) + d * (2 * Δ)) + δ ≤ 1 / 10 ^ 8 := by
      norm_num at t2 c2 c3 ⊢
      linarith
    exact h4.trans (h7.trans (le_add_of_nonneg_right h5))
  replace hres := hres hcheck
  constructor
  · intro h1
    rw [h1] at hlen
    obtain ⟨Q, rfl⟩ := List.length_eq_one_iff.1 hlen
    obtain ⟨u, rfl⟩ := List.length_eq_one_iff.1 (u3.length_eq ▸ hlen : U.length = 1)
    obtain ⟨hQu, -⟩ := List.forall₂_cons.1 u3
    have hd0 : d ≠ 0 := by
      rintro rfl
      have : Module.finrank ℂ (intertwiners r.allGens Z) ≤ 0 := by
        refine (Submodule.finrank_le _).trans (Module.finrank_zero_of_subsingleton (R := ℂ)).le
      omega
    refine ⟨scaled Q, ((√d : ℝ) : ℂ) • unvec u, hres, ?_, ?_, hd0, ?_⟩
    · intro i j
      have h2 := hsc Q (by simp) i j
      have e : scaled Q i j - (((√d : ℝ) : ℂ) • unvec u) i j =
          (scaled Q i j - ((√d : ℝ) : ℂ) * Q i j) + ((√d : ℝ) : ℂ) * (Q i j - unvec u i j) := by
        rw [Matrix.smul_apply, smul_eq_mul]; ring
      rw [e]
      refine (norm_add_le _ _).trans ?_
      rw [norm_mul, Complex.norm_real, Real.norm_eq_abs, abs_of_nonneg (Real.sqrt_nonneg _)]
      have h3 : √d * ‖Q i j - unvec u i j‖ ≤ √d * τ₁ := mul_le_mul_of_nonneg_left (hQu i j) (Real.sqrt_nonneg _)
      linarith
    · intro a
      rw [Matrix.mul_smul, hker u (by simp) a, Matrix.smul_mul]
    · intro W hW
      have hs : (((√d : ℝ) : ℂ)) ≠ 0 := by
        have : (0 : ℝ) < d := by exact_mod_cast Nat.pos_of_ne_zero hd0
        exact_mod_cast (Real.sqrt_pos.2 this).ne'
      rw [intertwiners_eq, ← u2] at hW
      obtain ⟨x, hx, rfl⟩ := hW
      have hx' : x ∈ Submodule.span ℂ {u} := by
        have : lspan [u] = Submodule.span ℂ {u} := by
          unfold lspan
          congr 1
          ext y
          simp
        rw [← this]; exact hx
      obtain ⟨c, rfl⟩ := Submodule.mem_span_singleton.1 hx'
      refine ⟨c * (((√d : ℝ) : ℂ))⁻¹, ?_⟩
      rw [smul_smul, mul_assoc, inv_mul_cancel₀ hs, mul_one]
      rfl
  · intro h1 hne
    rw [hres]
    match S, hlen with
    | [], hlen =>
      show (if d * k = 0 then _ else _) = _
      rw [if_neg hne]
    | [Q], hlen => exact absurd hlen.symm h1
    | _ :: _ :: _, hlen =>
      show (if d * k = 0 then _ else _) = _
      rw [if_neg hne]

/-! ### Multiplicities and the commutant -/

section commutant

variable {N : ℕ} {ι : Type*} [Fintype ι] [DecidableEq ι] {k : ι → ℕ} {X : Fin N → Matrix (Fin d) (Fin d) ℂ}
  {V : ∀ b, Matrix (Fin d) (Fin (k b)) ℂ} {Z : ∀ b, Fin N → Matrix (Fin (k b)) (Fin (k b)) ℂ}

/-- Invariant subspaces which fill the space have equivariant projections. -/
theorem exists_projection (hX : ∀ b a, X a * V b = V b * Z b a) (hsum : ∑ b, k b = d)
    (hspan : Submodule.span ℂ {x : Fin d → ℂ | ∃ b j, x = fun i => V b i j} = ⊤) (b : ι) :
    ∃ L : Matrix (Fin (k b)) (Fin d) ℂ, L * V b = 1 ∧ ∀ a, L * X a = Z b a * L := by
  let C : Matrix (Fin d) (Σ b, Fin (k b)) ℂ := fun i s => V s.1 i s.2
  have hcard : Fintype.card (Σ b, Fin (k b)) = Fintype.card (Fin d) := by simp [hsum]
  let e : (Σ b, Fin (k b)) ≃ Fin d := Fintype.equivOfCardEq hcard
  have hli : LinearIndependent ℂ (fun s : Σ b, Fin (k b) => fun i => C i s) := by
    apply linearIndependent_of_top_le_span_of_card_eq_finrank
    · rw [← hspan, Submodule.span_le]
      rintro x ⟨b, j, rfl⟩
      exact Submodule.subset_span ⟨⟨b, j⟩, rfl⟩
    · rw [hcard]; simp
  have hu : IsUnit (C.submatrix id e.symm) := by
    rw [← Matrix.linearIndependent_cols_iff_isUnit]
    exact hli.comp _ e.symm.injective
  obtain ⟨u, hu⟩ := hu
  let D : Matrix (Σ b, Fin (k b)) (Fin d) ℂ := (u⁻¹ : (Matrix (Fin d) (Fin d) ℂ)ˣ).val.submatrix e id
  have hC : C = u.val.submatrix id e := by
    rw [hu]; ext i s; simp
  have hDC : D * C = 1 := by
    rw [hC]
    show ((u⁻¹ : (Matrix (Fin d) (Fin d) ℂ)ˣ).val.submatrix e id) * (u.val.submatrix id e) = 1
    rw [← Matrix.submatrix_mul _ _ _ _ _ Function.bijective_id, Units.inv_mul, Matrix.submatrix_one_equiv]
  have hCD : C * D = 1 := by
    rw [hC]
    show (u.val.submatrix id e) * ((u⁻¹ : (Matrix (Fin d) (Fin d) ℂ)ˣ).val.submatrix e id) = 1
    rw [← Matrix.submatrix_mul _ _ _ _ _ e.bijective, Units.mul_inv, Matrix.submatrix_id_id]
  have hXC : ∀ a, X a * C = C * blockDiagonal' fun b => Z b a := by
    intro a
    ext i ⟨b, j⟩
    have h1 : (X a * C) i ⟨b, j⟩ = (X a * V b) i j := rfl
    rw [h1, hX, Matrix.mul_apply, Matrix.mul_apply, Fintype.sum_sigma, Finset.sum_eq_single b]
    · exact Finset.sum_congr rfl fun l _ => by rw [blockDiagonal'_apply_eq]
    · intro b' _ hb'
      exact Finset.sum_eq_zero fun l _ => by rw [blockDiagonal'_apply_ne _ _ _ hb', mul_zero]
    · simp
  have hDX : ∀ a, D * X a = (blockDiagonal' fun b => Z b a) * D := by
    intro a
    calc D * X a = D * (X a * C) * D := by
          rw [Matrix.mul_assoc, Matrix.mul_assoc, hCD, Matrix.mul_one]
      _ = (blockDiagonal' fun b => Z b a) * D := by
          rw [hXC, ← Matrix.mul_assoc, hDC, Matrix.one_mul]
  refine ⟨fun j i => D ⟨b, j⟩ i, ?_, fun a => ?_⟩
  · ext j l
    have := congrFun (congrFun hDC ⟨b, j⟩) ⟨b, l⟩
    rw [Matrix.one_apply] at this ⊢
    refine Eq.trans this ?_
    simp
  · ext j i
    have := congrFun (congrFun (hDX a) ⟨b, j⟩) i
    refine Eq.trans this ?_
    rw [Matrix.mul_apply]
    show _ = ∑ l, Z b a j l * D ⟨b, l⟩ i
    rw [Fintype.sum_sigma, Finset.sum_eq_single b]
    · exact Finset.sum_congr rfl fun l _ => by rw [blockDiagonal'_apply_eq]
    · intro b' _ hb'
      exact Finset.sum_eq_zero fun l _ => by rw [blockDiagonal'_apply_ne _ _ _ hb'.symm, zero_mul]
    · simp

/-- With a commutative commutant, every part occurs once. -/
theorem finrank_one_of_commutative (hX : ∀ b a, X a * V b = V b * Z b a) (hsum : ∑ b, k b = d)
    (hspan : Submodule.span ℂ {x : Fin d → ℂ | ∃ b j, x = fun i => V b i j} = ⊤)
    (hirr : ∀ b, IrreducibleFamily (Z b))
    (hcomm : ∀ S T : Matrix (Fin d) (Fin d) ℂ, (∀ a, X a * S = S * X a) → (∀ a, X a * T = T * X a) →
      S * T = T * S) (b : ι) : Module.finrank ℂ (intertwiners X (Z b)) = 1 := by
  obtain ⟨L, hL1, hL2⟩ := exists_projection hX hsum hspan b
  have hV0 : (⟨V b, hX b⟩ : intertwiners X (Z b)) ≠ 0 := by
    intro h0
    have h1 : V b = 0 := congrArg Subtype.val h0
    rw [h1, Matrix.mul_zero] at hL1
    have := congrFun (congrFun hL1 ⟨0, (hirr b).1⟩) ⟨0, (hirr b).1⟩
    simp at this
  rw [finrank_eq_one_iff_of_nonzero' _ hV0]
  rintro ⟨W, hW⟩
  have hcL : ∀ W : Matrix (Fin d) (Fin (k b)) ℂ, (∀ a, X a * W = W * Z b a) → ∀ a, X a * (W * L) = W * L * X a := by
    intro W hW a
    rw [← Matrix.mul_assoc, hW, Matrix.mul_assoc, ← hL2, Matrix.mul_assoc]
  have h1 := hcomm _ _ (hcL W hW) (hcL _ (hX b))
  have h2 : W = V b * (L * W) := by
    have h3 := congrArg (· * V b) h1
    simp only [Matrix.mul_assoc] at h3
    rw [hL1, Matrix.mul_one, hL1, Matrix.mul_one] at h3
    exact h3
  obtain ⟨c, hc⟩ := schur (hirr b) (S := L * W) (fun a => by
    rw [← Matrix.mul_assoc, ← hL2, Matrix.mul_assoc, hW, Matrix.mul_assoc])
  refine ⟨c, Subtype.ext ?_⟩
  show c • V b = W
  rw [h2, hc, Matrix.mul_smul, Matrix.mul_one]

omit [Fintype ι] [DecidableEq ι] in
/-- When every part occurs once, the commutant is commutative. -/
theorem commutative_of_finrank_one (hX : ∀ b a, X a * V b = V b * Z b a)
    (hspan : Submodule.span ℂ {x : Fin d → ℂ | ∃ b j, x = fun i => V b i j} = ⊤)
    (hone : ∀ b, Module.finrank ℂ (intertwiners X (Z b)) = 1) {S T : Matrix (Fin d) (Fin d) ℂ}
    (hS : ∀ a, X a * S = S * X a) (hT : ∀ a, X a * T = T * X a) : S * T = T * S := by
  have hscal : ∀ P : Matrix (Fin d) (Fin d) ℂ, (∀ a, X a * P = P * X a) → ∀ b, ∃ c : ℂ, P * V b = c • V b := by
    intro P hP b
    obtain ⟨Q, hQ0, hQ⟩ := finrank_eq_one_iff'.1 (hone b)
    have hPQ : P * Q.1 ∈ intertwiners X (Z b) := by
      intro a
      rw [← Matrix.mul_assoc, hP a, Matrix.mul_assoc, Q.2 a, Matrix.mul_assoc]
    obtain ⟨c, hc⟩ := hQ ⟨_, hPQ⟩
    have hc' : c • Q.1 = P * Q.1 := congrArg Subtype.val hc
    obtain ⟨e, he⟩ := hQ ⟨V b, hX b⟩
    have he' : e • Q.1 = V b := congrArg Subtype.val he
    refine ⟨c, ?_⟩
    rw [← he', Matrix.mul_smul, ← hc', smul_comm]
  apply Matrix.toLin'.injective
  refine LinearMap.ext_on hspan ?_
  rintro x ⟨b, j, rfl⟩
  obtain ⟨s, hs⟩ := hscal S hS b
  obtain ⟨t, ht⟩ := hscal T hT b
  have h1 : S * T * V b = T * S * V b := by
    rw [Matrix.mul_assoc, ht, Matrix.mul_smul, hs, Matrix.mul_assoc, hs, Matrix.mul_smul, ht, smul_comm]
  funext i
  exact congrFun (congrFun h1 i) j

end commutant

/-! ### The loop -/

/-- All turns of the loop succeed. -/
theorem reduceLoop_ok {α β γ : Type*} {R : α → Py β → Prop} {G : α → β → γ → Prop}
    (hG : ∀ a b, R a b → ∃ p q, b = .ok p ∧ G a p q) : ∀ {as : List α} {bs : List (Py β)}, List.Forall₂ R as bs →
      ∃ ts : List (α × β × γ), ts.map (fun t => t.1) = as ∧ bs.mapM id = .ok (ts.map fun t => t.2.1) ∧
        ∀ t ∈ ts, G t.1 t.2.1 t.2.2
  | [], _, .nil => ⟨[], rfl, rfl, by simp⟩
  | a :: _, b :: _, .cons h1 h2 => by
    obtain ⟨ts, e1, e2, e3⟩ := reduceLoop_ok hG h2
    obtain ⟨p, q, rfl, hg⟩ := hG a b h1
    refine ⟨(a, p, q) :: ts, by simp [e1], ?_, ?_⟩
    · rw [List.mapM_cons, e2]
      rfl
    · intro t ht
      rcases List.mem_cons.1 ht with rfl | ht
      · exact hg
      · exact e3 t ht

/-- Some turn of the loop raises. -/
theorem reduceLoop_error {β : Type*} {err : PyErr} : ∀ {bs : List (Py β)}, (∀ b ∈ bs, (∃ p, b = .ok p) ∨ b = .error err) →
    .error err ∈ bs → bs.mapM id = .error err
  | [], _, hm => by cases hm
  | b :: bs, hall, hm => by
    rw [List.mapM_cons]
    rcases hall b (by simp) with ⟨p, rfl⟩ | rfl
    · have hm' : .error err ∈ bs := by
        rcases List.mem_cons.1 hm with h | h
        · cases h
        · exact h
      rw [reduceLoop_error (fun b hb => hall b (by simp [hb])) hm']
      rfl
    · rfl

end LieNN.Rounding
