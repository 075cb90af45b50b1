import Verif.Model.SO13CG
import Verif.Proofs.SO13Gap
import Verif.Proofs.RecomputeGap
import Verif.Proofs.SL2CCG
import Verif.Proofs.CGSpace
import Verif.Proofs.Recompute
import Verif.Proofs.TBTable
/-!
# Representations that agree up to phases of the generators and a unitary change of basis
-/
namespace LieNN.SO13

open LieNN.Spec Matrix

variable {n d d₁ d₂ d₃ : ℕ} {eps : ℝ} {p : Fin n → ℂ}

/-- `Y` is `X` with its generators multiplied by phases and the basis changed by a unitary matrix. -/
structure Twist (p : Fin n → ℂ) (W : Matrix (Fin d) (Fin d) ℂ) (X Y : Fin n → Matrix (Fin d) (Fin d) ℂ) : Prop where
  eq : ∀ a, Y a = p a • (W * X a * Wᴴ)
  right : W * Wᴴ = 1

theorem Twist.left {W : Matrix (Fin d) (Fin d) ℂ} {X Y} (h : Twist p W X Y) : Wᴴ * W = 1 :=
  mul_eq_one_comm.1 h.right

theorem gap_icob_conv {X₁ : Fin n → Matrix (Fin d₁) (Fin d₁) ℂ} {X₂ : Fin n → Matrix (Fin d₂) (Fin d₂) ℂ}
    (hg : Gap eps (icobMatrix X₁ X₂)) (μ : ℝ) (S : Matrix (Fin d₁) (Fin d₂) ℂ) (hS : S ≠ 0)
    (hev : ∑ a, ((X₁ a)ᴴ * (X₁ a * S - S * X₂ a) - (X₁ a * S - S * X₂ a) * (X₂ a)ᴴ) = (μ : ℂ) • S)
    (hμ : 0 < μ) : eps ≤ μ := by
  set v : Vec (d₁ * d₂) := (unvecL d₁ d₂).symm S with hv
  have e : unvec v = S := (unvecL d₁ d₂).apply_symm_apply S
  refine hg μ v.ofLp ?_ ?_ hμ
  · intro h0
    apply hS
    rw [← e]
    ext i j
    exact congrFun h0 _
  · funext q
    obtain ⟨⟨i, j⟩, rfl⟩ := finProdFinEquiv.surjective q
    rw [icobMatrix_normal, e, ← Matrix.sum_apply, hev, Pi.smul_apply, Matrix.smul_apply, ← e]
    rfl

theorem conj_left {W₁ : Matrix (Fin d₁) (Fin d₁) ℂ} {W₂ : Matrix (Fin d₂) (Fin d₂) ℂ} (h : W₁ᴴ * W₁ = 1)
    (A : Matrix (Fin d₁) (Fin d₁) ℂ) (S : Matrix (Fin d₁) (Fin d₂) ℂ) :
    W₁ * A * W₁ᴴ * (W₁ * S * W₂ᴴ) = W₁ * (A * S) * W₂ᴴ := by
  calc _ = W₁ * A * (W₁ᴴ * W₁) * S * W₂ᴴ := by simp only [Matrix.mul_assoc]
    _ = _ := by rw [h, Matrix.mul_one]; simp only [Matrix.mul_assoc]

theorem conj_right {W₁ : Matrix (Fin d₁) (Fin d₁) ℂ} {W₂ : Matrix (Fin d₂) (Fin d₂) ℂ} (h : W₂ᴴ * W₂ = 1)
    (A : Matrix (Fin d₂) (Fin d₂) ℂ) (S : Matrix (Fin d₁) (Fin d₂) ℂ) :
    W₁ * S * W₂ᴴ * (W₂ * A * W₂ᴴ) = W₁ * (S * A) * W₂ᴴ := by
  calc _ = W₁ * S * (W₂ᴴ * W₂) * A * W₂ᴴ := by simp only [Matrix.mul_assoc]
    _ = _ := by rw [h, Matrix.mul_one]; simp only [Matrix.mul_assoc]

theorem conj_inj {W₁ : Matrix (Fin d₁) (Fin d₁) ℂ} {W₂ : Matrix (Fin d₂) (Fin d₂) ℂ} (h₁ : W₁ᴴ * W₁ = 1)
    (h₂ : W₂ᴴ * W₂ = 1) (S : Matrix (Fin d₁) (Fin d₂) ℂ) : W₁ᴴ * (W₁ * S * W₂ᴴ) * W₂ = S := by
  calc _ = (W₁ᴴ * W₁) * S * (W₂ᴴ * W₂) := by simp only [Matrix.mul_assoc]
    _ = S := by rw [h₁, h₂, Matrix.one_mul, Matrix.mul_one]

/-- `S ↦ W₁ S W₂ᴴ`. -/
def conjL {W₁ : Matrix (Fin d₁) (Fin d₁) ℂ} {W₂ : Matrix (Fin d₂) (Fin d₂) ℂ} (h₁ : W₁ᴴ * W₁ = 1)
    (h₂ : W₂ᴴ * W₂ = 1) : Matrix (Fin d₁) (Fin d₂) ℂ ≃ₗ[ℂ] Matrix (Fin d₁) (Fin d₂) ℂ where
  toFun S := W₁ * S * W₂ᴴ
  invFun S := W₁ᴴ * S * W₂
  map_add' S T := by rw [Matrix.mul_add, Matrix.add_mul]
  map_smul' c S := by rw [Matrix.mul_smul, Matrix.smul_mul, RingHom.id_apply]
  left_inv S := conj_inj h₁ h₂ S
  right_inv S := by
    have := conj_inj (W₁ := W₁ᴴ) (W₂ := W₂ᴴ) (by rw [conjTranspose_conjTranspose]; exact mul_eq_one_comm.1 h₁)
      (by rw [conjTranspose_conjTranspose]; exact mul_eq_one_comm.1 h₂) S
    simpa only [conjTranspose_conjTranspose] using this

section
variable {W₁ : Matrix (Fin d₁) (Fin d₁) ℂ} {W₂ : Matrix (Fin d₂) (Fin d₂) ℂ}
  {X₁ Y₁ : Fin n → Matrix (Fin d₁) (Fin d₁) ℂ} {X₂ Y₂ : Fin n → Matrix (Fin d₂) (Fin d₂) ℂ}

theorem Twist.comm (h₁ : Twist p W₁ X₁ Y₁) (h₂ : Twist p W₂ X₂ Y₂) (S : Matrix (Fin d₁) (Fin d₂) ℂ) (a : Fin n) :
    Y₁ a * (W₁ * S * W₂ᴴ) - (W₁ * S * W₂ᴴ) * Y₂ a = p a • (W₁ * (X₁ a * S - S * X₂ a) * W₂ᴴ) := by
  rw [h₁.eq, h₂.eq, Matrix.smul_mul, Matrix.mul_smul, conj_left h₁.left, conj_right h₂.left, ← smul_sub,
    Matrix.mul_sub, Matrix.sub_mul]

theorem Twist.gap (hp : ∀ a, star (p a) * p a = 1) (h₁ : Twist p W₁ X₁ Y₁) (h₂ : Twist p W₂ X₂ Y₂)
    (hg : Gap eps (icobMatrix X₁ X₂)) : Gap eps (icobMatrix Y₁ Y₂) := by
  apply gap_icob
  intro μ S hS hev hμ
  obtain ⟨S, rfl⟩ := (conjL h₁.left h₂.left).surjective S
  have hS' : S ≠ 0 := by
    rintro rfl
    exact hS (map_zero _)
  refine gap_icob_conv hg μ S hS' ?_ hμ
  apply (conjL h₁.left h₂.left).injective
  rw [map_smul, ← hev, map_sum]
  refine Finset.sum_congr rfl fun a _ => ?_
  have e := h₁.comm h₂ S a
  show W₁ * ((X₁ a)ᴴ * (X₁ a * S - S * X₂ a) - (X₁ a * S - S * X₂ a) * (X₂ a)ᴴ) * W₂ᴴ = (Y₁ a)ᴴ * (Y₁ a * (W₁ * S * W₂ᴴ) - (W₁ * S * W₂ᴴ) * Y₂ a) -
    (Y₁ a * (W₁ * S * W₂ᴴ) - (W₁ * S * W₂ᴴ) * Y₂ a) * (Y₂ a)ᴴ
  have y₁ : (Y₁ a)ᴴ = star (p a) • (W₁ * (X₁ a)ᴴ * W₁ᴴ) := by
    rw [h₁.eq, conjTranspose_smul, conjTranspose_mul, conjTranspose_mul, conjTranspose_conjTranspose, Matrix.mul_assoc]
  have y₂ : (Y₂ a)ᴴ = star (p a) • (W₂ * (X₂ a)ᴴ * W₂ᴴ) := by
    rw [h₂.eq, conjTranspose_smul, conjTranspose_mul, conjTranspose_mul, conjTranspose_conjTranspose, Matrix.mul_assoc]
  rw [e, y₁, y₂, Matrix.smul_mul, Matrix.mul_smul, Matrix.smul_mul, Matrix.mul_smul, smul_smul, smul_smul,
    mul_comm (p a), hp, one_smul, one_smul, conj_left h₁.left, conj_right h₂.left, Matrix.mul_sub, Matrix.sub_mul]

theorem Twist.intertwiners (hp : ∀ a, star (p a) * p a = 1) (h₁ : Twist p W₁ X₁ Y₁) (h₂ : Twist p W₂ X₂ Y₂) :
    Spec.intertwiners Y₁ Y₂ = (Spec.intertwiners X₁ X₂).map (conjL h₁.left h₂.left).toLinearMap := by
  have key : ∀ S, conjL h₁.left h₂.left S ∈ Spec.intertwiners Y₁ Y₂ ↔ S ∈ Spec.intertwiners X₁ X₂ := by
    intro S
    show (∀ a, Y₁ a * (W₁ * S * W₂ᴴ) = (W₁ * S * W₂ᴴ) * Y₂ a) ↔ ∀ a, X₁ a * S = S * X₂ a
    refine forall_congr' fun a => ?_
    rw [← sub_eq_zero, h₁.comm h₂, ← sub_eq_zero (a := X₁ a * S), smul_eq_zero]
    have hpa : p a ≠ 0 := by
      intro h0
      have := hp a
      rw [h0, mul_zero] at this
      exact zero_ne_one this
    constructor
    · intro h
      exact (conjL h₁.left h₂.left).map_eq_zero_iff.1 (h.resolve_left hpa)
    · intro h
      rw [h]
      simp
  ext S
  obtain ⟨S, rfl⟩ := (conjL h₁.left h₂.left).surjective S
  rw [key, Submodule.mem_map]
  exact ⟨fun h => ⟨S, h, rfl⟩, fun ⟨T, hT, e⟩ => by rwa [← (conjL h₁.left h₂.left).injective e]⟩
end

theorem Twist.kron {W₁ : Matrix (Fin d₁) (Fin d₁) ℂ} {W₂ : Matrix (Fin d₂) (Fin d₂) ℂ} {r₁ s₁ : Rep n 0 d₁}
    {r₂ s₂ : Rep n 0 d₂} (h₁ : Twist p W₁ r₁.X s₁.X) (h₂ : Twist p W₂ r₂.X s₂.X) :
    Twist p (LieNN.kron W₁ W₂) (r₁.tensorProduct r₂).X (s₁.tensorProduct s₂).X where
  eq a := by
    show LieNN.kron (s₁.X a) 1 + LieNN.kron 1 (s₂.X a) = p a • (LieNN.kron W₁ W₂ *
      (LieNN.kron (r₁.X a) 1 + LieNN.kron 1 (r₂.X a)) * (LieNN.kron W₁ W₂)ᴴ)
    rw [kron_conjTranspose, Matrix.mul_add, Matrix.add_mul, kron_mul, kron_mul, kron_mul, kron_mul, Matrix.mul_one,
      Matrix.mul_one, h₁.right, h₂.right, smul_add, ← kron_smul_left, ← kron_smul_right, h₁.eq, h₂.eq]
  right := by rw [kron_conjTranspose, kron_mul, h₁.right, h₂.right, kron_one]

theorem Twist.allGens {W : Matrix (Fin d) (Fin d) ℂ} {r s : Rep n 0 d} (h : Twist p W r.X s.X) :
    Twist (n := n + 0) p W r.allGens s.allGens where
  eq a := by
    have e : ∀ r : Rep n 0 d, r.allGens a = r.X a := by
      intro r
      exact Fin.append_left r.X r.H a
    rw [e, e]
    exact h.eq a
  right := h.right

/-- The equivariant arrays as a space of matrices. -/
theorem cgSpace_map {h : ℕ} (r₁ : Rep n h d₁) (r₂ : Rep n h d₂) (r₃ : Rep n h d₃) :
    cgSpace r₁ r₂ r₃ = (Spec.intertwiners r₃.allGens (r₁.tensorProduct r₂).allGens).map (cgL d₁ d₂ d₃).toLinearMap := by
  ext C
  rw [Submodule.mem_map]
  constructor
  · intro hC
    refine ⟨(cgL d₁ d₂ d₃).symm C, ?_, (cgL d₁ d₂ d₃).apply_symm_apply C⟩
    rw [← isCG_iff]
    have e : cgOf ((cgL d₁ d₂ d₃).symm C) = C := (cgL d₁ d₂ d₃).apply_symm_apply C
    rw [e]
    exact hC
  · rintro ⟨Q, hQ, rfl⟩
    exact (isCG_iff r₁ r₂ r₃ Q).2 hQ

/-- `SO13.boost` multiplies by these phases. -/
noncomputable def phase : Fin 6 → ℂ := fun i => if (i : ℕ) < 3 then 1 else Complex.I

theorem phase_unit (a : Fin 6) : star (phase a) * phase a = 1 := by
  unfold phase
  split_ifs <;> simp

theorem gens_twist {eigh : EighFn} (he : EighSpec eigh)
    {sqrtm : {d : ℕ} → Matrix (Fin d) (Fin d) ℂ → Matrix (Fin d) (Fin d) ℂ} (hs : SqrtmInvSpec sqrtm)
    (r : SL2C) (hd : r.dim < 10 ^ 4) :
    ∃ X, SO13.gens eigh (1 / 10 ^ 4) sqrtm r = .ok X ∧ (r.l = r.k → ∀ i x y, (X i x y).im = 0) ∧
      ∃ W, Twist phase W (SL2C.rep r).X X := by
  have hd' : ((r.dim * r.dim : ℕ) : ℝ) * (1 / 10 ^ 4) ^ 2 < 1 := by
    have h1 : (r.dim : ℝ) < 10 ^ 4 := by exact_mod_cast hd
    have h0 : (0 : ℝ) ≤ r.dim := Nat.cast_nonneg _
    push_cast
    have : (r.dim : ℝ) * r.dim < 10 ^ 4 * 10 ^ 4 := by nlinarith
    norm_num at this ⊢
    linarith
  obtain ⟨X, hX, h1, h2⟩ := SO13.gens_spec he (eps := 1 / 10 ^ 4) (by norm_num) (by norm_num) hs r hd'
  have e : ∀ a, X₀ r a = phase a • (SL2C.rep r).X a := by
    intro a
    unfold X₀ boost phase
    split_ifs <;> simp
  refine ⟨X, hX, fun h => (h2 h).2, ?_⟩
  by_cases h : r.l = r.k
  · obtain ⟨⟨W, hW, hu, hY⟩, -⟩ := h2 h
    refine ⟨W, fun a => ?_, hu⟩
    rw [hY, Matrix.inv_eq_right_inv hu, e, Matrix.mul_smul, Matrix.smul_mul]
  · refine ⟨1, fun a => ?_, by simp⟩
    rw [h1 h, e]
    simp

end LieNN.SO13
