import Verif.Proofs.SL2CCG
import Verif.Proofs.SO13Gap
import Verif.Proofs.ReducedRed
import Verif.Props.LinAlg
import Verif.Props.SU2
/-!
# C39, C64: `SL2C` and `SO13`
-/
namespace LieNN.Props

open Matrix LieNN LieNN.Spec

/-! ## C39 -/

/-- C39: the three tables of structure constants are Lie algebras. -/
theorem C39_algebras : IsLieAlgebra SU2.algebra ∧ IsLieAlgebra SL2C.algebra ∧
    IsLieAlgebra SO13.algebra := by
  refine ⟨?_, SL2C.algS_lie 1 (by simp), SL2C.algS_lie (-1) (by simp)⟩
  have e : SU2.algebra = fun a b c => (SL2C.epsZ a b c : ℂ) := by
    funext a b c; exact SL2C.eps_eq a b c
  rw [e]
  constructor
  · have h : ∀ i j k : Fin 3, SL2C.epsZ i j k = -SL2C.epsZ j i k := by decide
    intro i j k
    simp only
    rw [h]; push_cast; ring
  · have h : ∀ i j k m : Fin 3, ∑ l, (SL2C.epsZ i j l * SL2C.epsZ l k m + SL2C.epsZ j k l * SL2C.epsZ l i m +
        SL2C.epsZ k i l * SL2C.epsZ l j m) = 0 := by decide +kernel
    intro i j k m
    dsimp only
    exact_mod_cast h i j k m

/-- The alternating symbol on `{0, 1, 2}`, by a formula. -/
def levi (a b c : Fin 3) : ℤ := ((b : ℤ) - a) * ((c : ℤ) - a) * ((c : ℤ) - b) / 2

/-- C39: with `J` the first three and `K` the last three generators, the constants say
`[J, J] = J`, `[J, K] = K`, `[K, J] = K` and `[K, K] = J` for `SL2C`, `[K, K] = -J` for `SO13`. -/
theorem C39_constants (a b c : Fin 3) :
    let J : Fin 3 → Fin 6 := Fin.castAdd 3
    let K : Fin 3 → Fin 6 := Fin.natAdd 3
    (∀ A ∈ [SL2C.algebra, SO13.algebra],
      A (J a) (J b) (J c) = levi a b c ∧ A (J a) (J b) (K c) = 0 ∧
      A (J a) (K b) (K c) = levi a b c ∧ A (J a) (K b) (J c) = 0 ∧
      A (K a) (J b) (K c) = levi a b c ∧ A (K a) (J b) (J c) = 0 ∧ A (K a) (K b) (K c) = 0) ∧
    SL2C.algebra (K a) (K b) (J c) = levi a b c ∧ SO13.algebra (K a) (K b) (J c) = -levi a b c := by
  have key : ∀ a b c : Fin 3, (∀ s ∈ [(1 : ℤ), -1],
      SL2C.algZ s (Fin.castAdd 3 a) (Fin.castAdd 3 b) (Fin.castAdd 3 c) = levi a b c ∧
      SL2C.algZ s (Fin.castAdd 3 a) (Fin.castAdd 3 b) (Fin.natAdd 3 c) = 0 ∧
      SL2C.algZ s (Fin.castAdd 3 a) (Fin.natAdd 3 b) (Fin.natAdd 3 c) = levi a b c ∧
      SL2C.algZ s (Fin.castAdd 3 a) (Fin.natAdd 3 b) (Fin.castAdd 3 c) = 0 ∧
      SL2C.algZ s (Fin.natAdd 3 a) (Fin.castAdd 3 b) (Fin.natAdd 3 c) = levi a b c ∧
      SL2C.algZ s (Fin.natAdd 3 a) (Fin.castAdd 3 b) (Fin.castAdd 3 c) = 0 ∧
      SL2C.algZ s (Fin.natAdd 3 a) (Fin.natAdd 3 b) (Fin.natAdd 3 c) = 0 ∧
      SL2C.algZ s (Fin.natAdd 3 a) (Fin.natAdd 3 b) (Fin.castAdd 3 c) = s * levi a b c) := by
    decide +kernel
  have h1 := key a b c 1 (by simp)
  have h2 := key a b c (-1) (by simp)
  unfold SL2C.algebra SO13.algebra
  simp only [List.forall_mem_cons, List.not_mem_nil, false_imp_iff, implies_true, and_true, h1, h2]
  simp

/-- C39: the Kronecker sums of `SU2` generators, before the final change of basis, satisfy
`SL2C.algebra()`; so they do after it, for every `C` that is unitary. -/
theorem C39_before_basis (r : SL2C) : (∀ i j, SL2C.gens0 r i * SL2C.gens0 r j - SL2C.gens0 r j * SL2C.gens0 r i =
      ∑ k, SL2C.algebra i j k • SL2C.gens0 r k) ∧
    ∀ C : Matrix (Fin r.dim) (Fin r.dim) ℂ, Cᴴ * C = 1 → ∀ i j,
      (Cᵀ * SL2C.gens0 r i * C.map star) * (Cᵀ * SL2C.gens0 r j * C.map star) -
        (Cᵀ * SL2C.gens0 r j * C.map star) * (Cᵀ * SL2C.gens0 r i * C.map star) =
      ∑ k, SL2C.algebra i j k • (Cᵀ * SL2C.gens0 r k * C.map star) := by
  have h0 : ∀ i j, SL2C.gens0 r i * SL2C.gens0 r j - SL2C.gens0 r j * SL2C.gens0 r i =
      ∑ k, SL2C.algebra i j k • SL2C.gens0 r k := by
    intro i j
    simp only [SL2C.gens0_eq]
    rw [Matrix.submatrix_mul_equiv, Matrix.submatrix_mul_equiv]
    ext x y
    have := congrFun (congrFun (SL2C.Z_bracket r.l r.k i j) (finProdFinEquiv.symm x)) (finProdFinEquiv.symm y)
    rw [Matrix.sum_apply] at this ⊢
    exact this
  refine ⟨h0, fun C hC i j => ?_⟩
  have hC' : C.map star * Cᵀ = 1 := by
    have := congrArg Matrix.transpose (mul_eq_one_comm.1 hC)
    rwa [Matrix.transpose_mul, Matrix.transpose_one] at this
  rw [SL2C.conj_bracket hC', h0, Matrix.mul_sum, Matrix.sum_mul]
  exact Finset.sum_congr rfl fun k _ => by rw [Matrix.mul_smul, Matrix.smul_mul]

/-- C39: `continuous_generators` never raises, the change of basis it uses is orthogonal, and the
result satisfies `SL2C.algebra()`. -/
theorem C39_sl2c (r : SL2C) : ∃ C X, SL2C.basisC r = .ok C ∧ Cᴴ * C = 1 ∧ (∀ x c, (C x c).im = 0) ∧
    SL2C.gens r = .ok X ∧ ∀ i j, X i * X j - X j * X i = ∑ k, SL2C.algebra i j k • X k := by
  refine ⟨_, _, SL2C.basisC_eq r, ?_, fun x c => Complex.ofReal_im _, SL2C.gens_eq r, ?_⟩
  · rw [Matrix.conjTranspose_submatrix, SL2C.B_conj, Matrix.submatrix_mul_equiv, SL2C.B_mul',
      Matrix.submatrix_id_id]
  · have h := SL2C.isRep r
    intro i j
    have := h i j
    simp only [SL2C.rep_X] at this
    exact this

/-- C39 (observation): all six generators of `SL2C` are anti-hermitian and real combinations of
them exponentiate to unitary matrices, so the algebra stored is the compact real form `so(4)`. -/
theorem C39_sl2c_compact (r : SL2C) (i : Fin 6) : ((SL2C.rep r).X i)ᴴ = -(SL2C.rep r).X i :=
  SL2C.skew r i

/-- C39: for any matrices that satisfy `SL2C.algebra()`, multiplying the last three by `i` gives
matrices that satisfy `SO13.algebra()`. -/
theorem C39_boost {d : ℕ} {X : Fin 6 → Matrix (Fin d) (Fin d) ℂ}
    (h : ∀ i j, X i * X j - X j * X i = ∑ k, SL2C.algebra i j k • X k) (i j : Fin 6) :
    SO13.boost X i * SO13.boost X j - SO13.boost X j * SO13.boost X i =
      ∑ k, SO13.algebra i j k • SO13.boost X k :=
  SO13.boost_bracket h i j

/-- C39: `SO13.continuous_generators` returns, for every irrep of dimension below `10 ^ 4`,
matrices that satisfy `SO13.algebra()`; none of its assertions fails; the result is real when
`l = k`.  `eigh` and `sqrtm` are parameters; the hypothesis on the spectral gap of
`infer_change_of_basis` is proved, not assumed. -/
theorem C39_so13 {eigh : EighFn} (he : EighSpec eigh)
    {sqrtm : {d : ℕ} → Matrix (Fin d) (Fin d) ℂ → Matrix (Fin d) (Fin d) ℂ} (hs : SqrtmInvSpec sqrtm)
    (r : SL2C) (hd : r.dim < 10 ^ 4) :
    ∃ X, SO13.gens eigh (1 / 10 ^ 4) sqrtm r = .ok X ∧
      (∀ i j, X i * X j - X j * X i = ∑ k, SO13.algebra i j k • X k) ∧
      (r.l = r.k → ∀ i x y, (X i x y).im = 0) := by
  have hd' : ((r.dim * r.dim : ℕ) : ℝ) * (1 / 10 ^ 4) ^ 2 < 1 := by
    have h1 : (r.dim : ℝ) < 10 ^ 4 := by exact_mod_cast hd
    have h0 : (0 : ℝ) ≤ r.dim := Nat.cast_nonneg _
    push_cast
    have : (r.dim : ℝ) * r.dim < 10 ^ 4 * 10 ^ 4 := by nlinarith
    norm_num at this ⊢
    linarith
  obtain ⟨X, hX, h1, h2⟩ := SO13.gens_spec he (eps := 1 / 10 ^ 4) (by norm_num) (by norm_num) hs r hd'
  refine ⟨X, hX, ?_, fun h => (h2 h).2⟩
  by_cases h : r.l = r.k
  · obtain ⟨⟨W, hW, -, hY⟩, -⟩ := h2 h
    exact SO13.similar_bracket hW hY (SO13.X₀_bracket r)
  · rw [h1 h]
    exact SO13.X₀_bracket r

/-- C39: for `l ≠ k` the irrep is not equivalent to its conjugate, so no real basis exists; this is
why the code returns complex matrices there. -/
theorem C39_so13_not_real (r : SL2C) (h : r.l ≠ r.k) : ¬ ∃ W : Matrix (Fin r.dim) (Fin r.dim) ℂ, IsUnit W ∧
    ∀ i x y, ((W * SO13.boost (SL2C.rep r).X i * W⁻¹) x y).im = 0 := by
  rintro ⟨W, hW, hre⟩
  have hdet : IsUnit W.det := (Matrix.isUnit_iff_isUnit_det _).1 hW
  have hstar : ∀ i, (W * SO13.X₀ r i * W⁻¹).map star = W * SO13.X₀ r i * W⁻¹ := by
    intro i; ext x y
    exact Complex.conj_eq_iff_im.2 (hre i x y)
  have hWs : W.map star * (W⁻¹).map star = 1 := by
    rw [← SL2C.map_star_mul, Matrix.mul_nonsing_inv _ hdet]
    ext x y; simp [Matrix.one_apply]
  have hWs' : (W⁻¹).map star * W.map star = 1 := mul_eq_one_comm.1 hWs
  have h0 : (W⁻¹).map star * W = 0 := by
    refine SO13.inter_ne h fun a => ?_
    have e := hstar a
    rw [SL2C.map_star_mul, SL2C.map_star_mul] at e
    calc (SO13.X₀ r a).map star * ((W⁻¹).map star * W) =
        (W⁻¹).map star * W.map star * (SO13.X₀ r a).map star * ((W⁻¹).map star * W) := by rw [hWs', Matrix.one_mul]
      _ = (W⁻¹).map star * (W.map star * (SO13.X₀ r a).map star * (W⁻¹).map star) * W := by
        simp only [Matrix.mul_assoc]
      _ = (W⁻¹).map star * W * SO13.X₀ r a * (W⁻¹ * W) := by rw [e]; simp only [Matrix.mul_assoc]
      _ = (W⁻¹).map star * W * SO13.X₀ r a := by rw [Matrix.nonsing_inv_mul _ hdet, Matrix.mul_one]
  have h1 : W = 0 := by
    calc W = W.map star * ((W⁻¹).map star * W) := by rw [← Matrix.mul_assoc, hWs, Matrix.one_mul]
      _ = 0 := by rw [h0, Matrix.mul_zero]
  have h2 : (1 : Matrix (Fin r.dim) (Fin r.dim) ℂ) = 0 := by
    rw [← Matrix.mul_nonsing_inv _ hdet, h1, Matrix.zero_mul]
  have := congrFun (congrFun h2 ⟨0, Nat.mul_pos (Nat.succ_pos _) (Nat.succ_pos _)⟩)
    ⟨0, Nat.mul_pos (Nat.succ_pos _) (Nat.succ_pos _)⟩
  simp at this

/-- The Minkowski form. -/
def minkowski : Matrix (Fin 4) (Fin 4) ℂ := Matrix.diagonal ![-1, 1, 1, 1]

/-- The matrices of `four_vector` over the integers. -/
def fourVectorZ : Fin 6 → Matrix (Fin 4) (Fin 4) ℤ :=
  ![!![0, 0, 0, 0; 0, 0, 0, 0; 0, 0, 0, -1; 0, 0, 1, 0],
    !![0, 0, 0, 0; 0, 0, 0, 1; 0, 0, 0, 0; 0, -1, 0, 0],
    !![0, 0, 0, 0; 0, 0, -1, 0; 0, 1, 0, 0; 0, 0, 0, 0],
    !![0, 1, 0, 0; 1, 0, 0, 0; 0, 0, 0, 0; 0, 0, 0, 0],
    !![0, 0, 1, 0; 0, 0, 0, 0; 1, 0, 0, 0; 0, 0, 0, 0],
    !![0, 0, 0, 1; 0, 0, 0, 0; 0, 0, 0, 0; 1, 0, 0, 0]]

/-- C39: `four_vector()` satisfies `SO13.algebra()` and its generators preserve the Minkowski
form. -/
theorem C39_four_vector : IsRep SO13.fourVector ∧
    ∀ i, (SO13.fourVector.X i)ᵀ * minkowski + minkowski * SO13.fourVector.X i = 0 := by
  have hX : ∀ i, SO13.fourVectorX i = (fourVectorZ i).map (Int.castRingHom ℂ) := by
    intro i
    ext x y
    fin_cases i <;> fin_cases x <;> fin_cases y <;> simp [SO13.fourVectorX, fourVectorZ]
  constructor
  · have h : ∀ i j, fourVectorZ i * fourVectorZ j - fourVectorZ j * fourVectorZ i =
        ∑ k, SL2C.algZ (-1) i j k • fourVectorZ k := by decide +kernel
    intro i j
    change SO13.fourVectorX i * SO13.fourVectorX j - SO13.fourVectorX j * SO13.fourVectorX i =
      ∑ k, SO13.algebra i j k • SO13.fourVectorX k
    simp only [hX]
    rw [← Matrix.map_mul, ← Matrix.map_mul]
    ext x y
    have e := congrFun (congrFun (h i j) x) y
    rw [Matrix.sum_apply] at e ⊢
    rw [Matrix.sub_apply, Matrix.map_apply, Matrix.map_apply, ← map_sub]
    rw [Matrix.sub_apply] at e
    rw [e, map_sum]
    refine Finset.sum_congr rfl fun k _ => ?_
    rw [Matrix.smul_apply, smul_eq_mul, map_mul]
    rfl
  · have h : ∀ i, (fourVectorZ i)ᵀ * Matrix.diagonal ![-1, 1, 1, 1] +
        Matrix.diagonal ![-1, 1, 1, 1] * fourVectorZ i = 0 := by decide +kernel
    intro i
    change (SO13.fourVectorX i)ᵀ * minkowski + minkowski * SO13.fourVectorX i = 0
    have hm : minkowski = (Matrix.diagonal ![-1, 1, 1, 1] : Matrix (Fin 4) (Fin 4) ℤ).map (Int.castRingHom ℂ) := by
      ext x y
      fin_cases x <;> fin_cases y <;> simp [minkowski]
    rw [hX, hm, ← Matrix.transpose_map, ← Matrix.map_mul, ← Matrix.map_mul, ← Matrix.map_add _ (map_add _), h]
    ext x y; simp

example : EighSpec exactEigh ∧ (∃ sqrtm : {d : ℕ} → Matrix (Fin d) (Fin d) ℂ → Matrix (Fin d) (Fin d) ℂ,
    SqrtmInvSpec sqrtm) ∧ (⟨1, 1⟩ : SL2C).dim < 10 ^ 4 :=
  ⟨exactEigh_spec, SO13.exists_sqrtm, by norm_num [SL2C.dim]⟩

/-! ## C64 -/

/-- C64: `SL2C.clebsch_gordan` never raises; there is one solution when both labels satisfy the
triangle rule and none otherwise. -/
theorem C64_shape (r₁ r₂ r₃ : SL2C) : ∃ L, SL2C.cg r₁ r₂ r₃ = .ok L ∧
    (Triangle r₁.l r₂.l r₃.l ∧ Triangle r₁.k r₂.k r₃.k → L.length = 1) ∧
    (¬ (Triangle r₁.l r₂.l r₃.l ∧ Triangle r₁.k r₂.k r₃.k) → L = []) := by
  have hm : r₃ ∈ SL2C.mulL r₁ r₂ ↔ Triangle r₁.l r₂.l r₃.l ∧ Triangle r₁.k r₂.k r₃.k := by
    rw [SL2C.mem_mulL, triangle_iff, triangle_iff]
  by_cases h : r₃ ∈ SL2C.mulL r₁ r₂
  · exact ⟨_, SL2C.cg_eq h, fun _ => rfl, fun h' => absurd (hm.1 h) h'⟩
  · exact ⟨_, SL2C.cg_eq_nil h, fun h' => absurd (hm.2 h') h, fun _ => rfl⟩

/-- C64: the coefficients intertwine the generators. -/
theorem C64_equivariant {r₁ r₂ r₃ : SL2C} {L} (hL : SL2C.cg r₁ r₂ r₃ = .ok L) :
    ∀ C ∈ L, IsCG (SL2C.rep r₁) (SL2C.rep r₂) (SL2C.rep r₃) (fun a b c => ((C a b c : ℝ) : ℂ)) := by
  intro C hC
  by_cases h : r₃ ∈ SL2C.mulL r₁ r₂
  · rw [SL2C.cg_eq h] at hL
    obtain rfl := Except.ok.inj hL
    rw [List.mem_singleton.1 hC]
    exact SL2C.isCG h
  · rw [SL2C.cg_eq_nil h] at hL
    obtain rfl := Except.ok.inj hL
    simp at hC

/-- C64: they are orthonormal. -/
theorem C64_orthonormal {r₁ r₂ r₃ r₄ : SL2C} (h3 : Triangle r₁.l r₂.l r₃.l ∧ Triangle r₁.k r₂.k r₃.k)
    (h4 : Triangle r₁.l r₂.l r₄.l ∧ Triangle r₁.k r₂.k r₄.k) :
    ∃ C D, SL2C.cg r₁ r₂ r₃ = .ok [C] ∧ SL2C.cg r₁ r₂ r₄ = .ok [D] ∧
      ∀ c d, ∑ a, ∑ b, C a b c * D a b d = if r₃ = r₄ ∧ (c : ℕ) = d then 1 else 0 := by
  have hm : ∀ {r}, Triangle r₁.l r₂.l r.l ∧ Triangle r₁.k r₂.k r.k → r ∈ SL2C.mulL r₁ r₂ := by
    intro r h
    rw [SL2C.mem_mulL, triangle_iff, triangle_iff]; exact h
  exact ⟨_, _, SL2C.cg_eq (hm h3), SL2C.cg_eq (hm h4), fun c d => SL2C.ctS_orth (hm h3) (hm h4) c d⟩

/-- C64: `tensor_product` of two irreps of `SL2C` returns a `ReducedRep` that acts as the tensor
product. -/
theorem C64_tensor_product (i j : SL2C) : ∃ r, tpTab (T := SL2C.table) i j = .ok r ∧
    Acts r ((SL2C.rep i).tensorProduct (SL2C.rep j)) := by
  obtain ⟨r, hr⟩ := GoodPair.run (SL2C.table_good i j)
  exact ⟨r, hr, tpTab_acts (by norm_num) SL2C.table_equivariant (SL2C.table_good i j).sols hr⟩

/-- C64: the irreps are irreducible. -/
theorem C64_irreducible (r : SL2C) : IrreducibleFamily (SL2C.rep r).X := by
  refine irreducible_of_finrank (fun a => Or.inl (SL2C.skew r a)) ?_
  rw [finrank_eq_one_iff']
  refine ⟨⟨1, fun a => by rw [Matrix.mul_one, Matrix.one_mul]⟩, fun h0 => ?_, ?_⟩
  · have := congrFun (congrFun (congrArg Subtype.val h0)
      ⟨0, Nat.mul_pos (Nat.succ_pos r.l) (Nat.succ_pos r.k)⟩) ⟨0, Nat.mul_pos (Nat.succ_pos r.l) (Nat.succ_pos r.k)⟩
    simp at this
  · rintro ⟨S, hS⟩
    obtain ⟨c, hc⟩ := SL2C.commutant r S fun a => (hS a).symm
    exact ⟨c, Subtype.ext hc.symm⟩

/-- C64: irreps with different labels are not equivalent. -/
theorem C64_inequivalent {r s : SL2C} (h : r ≠ s) :
    intertwiners (SL2C.rep r).X (SL2C.rep s).X = ⊥ := by
  rw [Submodule.eq_bot_iff]
  exact fun S hS => SL2C.inequivalent h S hS

example : Triangle (⟨1, 2⟩ : SL2C).l (⟨1, 0⟩ : SL2C).l (⟨2, 2⟩ : SL2C).l ∧
    Triangle (⟨1, 2⟩ : SL2C).k (⟨1, 0⟩ : SL2C).k (⟨2, 2⟩ : SL2C).k := by
  unfold Triangle; simp

/-! ## Spectral gap -/

/-- C16 for `su(2)`: between two anti-hermitian representations of `su(2)` the hypothesis on the
spectral gap of `C16_infer_change_of_basis` always holds. -/
theorem C16_gap_su2 {d₁ d₂ : ℕ} {X₁ : Fin 3 → Matrix (Fin d₁) (Fin d₁) ℂ}
    {X₂ : Fin 3 → Matrix (Fin d₂) (Fin d₂) ℂ} (h₁ : IsSu2 X₁) (h₂ : IsSu2 X₂)
    (s₁ : ∀ a, (X₁ a)ᴴ = -X₁ a) (s₂ : ∀ a, (X₂ a)ᴴ = -X₂ a) : Gap (1 / 10 ^ 4) (icobMatrix X₁ X₂) :=
  su2_gap' ⟨h₁.1, h₁.2.1, h₁.2.2⟩ ⟨h₂.1, h₂.2.1, h₂.2.2⟩ s₁ s₂ (by norm_num)

example (j k : ℕ) : IsSu2 (SU2.gens j) ∧ (∀ a, (SU2.gens k a)ᴴ = -SU2.gens k a) :=
  ⟨⟨(SO13.su2Mats_gens j).h01, (SO13.su2Mats_gens j).h12, (SO13.su2Mats_gens j).h20⟩, SU2.skew⟩

end LieNN.Props
