import Verif.Model.SU2RealCG
import Verif.Spec.SU2Real
import Verif.Proofs.Copies
import Verif.Proofs.RealNull
import Verif.Proofs.IterTriv
/-!
# The real matrices of `SU2Real` as copies of the complex ones
-/
namespace LieNN.SU2Real

open LieNN.Spec Matrix

variable {n d : ℕ}

/-- The antidiagonal matrix of alternating signs. -/
def flipK (n : ℕ) : Matrix (Fin (n + 1)) (Fin (n + 1)) ℂ := fun i j => if j = i.rev then (-1) ^ (i : ℕ) else 0

theorem flipK_mul (M : Matrix (Fin (n + 1)) (Fin (n + 1)) ℂ) (i j) : (flipK n * M) i j = (-1) ^ (i : ℕ) * M i.rev j := by
  rw [Matrix.mul_apply]
  unfold flipK
  simp [ite_mul]

theorem mul_flipK (M : Matrix (Fin (n + 1)) (Fin (n + 1)) ℂ) (i j) :
    (M * flipK n) i j = M i j.rev * (-1) ^ (j.rev : ℕ) := by
  rw [Matrix.mul_apply, Finset.sum_eq_single j.rev]
  · unfold flipK
    rw [if_pos (Fin.rev_rev j).symm]
  · intro b _ hb
    unfold flipK
    rw [if_neg (fun h => hb (by rw [h, Fin.rev_rev])), mul_zero]
  · simp

theorem flipK_conj (n : ℕ) (i j) : star (flipK n i j) = flipK n i j := by
  unfold flipK
  split_ifs <;> simp

theorem flipK_unitary (n : ℕ) : flipK n * (flipK n)ᴴ = 1 := by
  ext i j
  rw [flipK_mul, Matrix.conjTranspose_apply, flipK_conj, Matrix.one_apply]
  unfold flipK
  by_cases h : i = j
  · subst h
    rw [if_pos rfl, if_pos rfl, ← pow_add, Even.neg_one_pow ⟨_, rfl⟩]
  · rw [if_neg (fun h' => h (Fin.rev_injective h')), if_neg h, mul_zero]

theorem flipK_unitary' (n : ℕ) : (flipK n)ᴴ * flipK n = 1 := mul_eq_one_comm.1 (flipK_unitary n)

theorem flipK_raising (n : ℕ) : flipK n * SU2.raising n = SU2.lowering n * flipK n := by
  ext i j
  rw [flipK_mul, mul_flipK, SU2.raising_apply, SU2.lowering_apply]
  have hi := i.2
  have hj := j.2
  by_cases h : (i.rev : ℕ) = j + 1
  · have hr : (i.rev : ℕ) = n - i := by rw [Fin.val_rev]; omega
    have hr' : (j.rev : ℕ) = n - j := by rw [Fin.val_rev]; omega
    rw [if_pos h, if_pos (by omega), hr', show n - (j : ℕ) = i + 1 by omega, pow_succ]
    have e : SU2.lad n j = SU2.lad n i := by
      unfold SU2.lad
      have : ((n : ℝ)) = i + j + 1 := by
        have : n = i + j + 1 := by omega
        exact_mod_cast this
      rw [this]; ring
    rw [e]
    push_cast
    ring
  · have hr : (i.rev : ℕ) = n - i := by rw [Fin.val_rev]; omega
    have hr' : (j.rev : ℕ) = n - j := by rw [Fin.val_rev]; omega
    rw [if_neg h, if_neg (by omega), mul_zero, zero_mul]

theorem flipK_lowering (n : ℕ) : flipK n * SU2.lowering n = SU2.raising n * flipK n := by
  have h := congrArg (fun M => (flipK n)ᴴ * M * (flipK n)ᴴ) (flipK_raising n)
  have hK : (flipK n)ᴴ = (-1 : ℂ) ^ n • flipK n := by
    ext i j
    rw [Matrix.conjTranspose_apply, flipK_conj, Matrix.smul_apply, smul_eq_mul]
    unfold flipK
    by_cases hh : j = i.rev
    · subst hh
      rw [if_pos (Fin.rev_rev i).symm, if_pos rfl, ← pow_add, Fin.val_rev]
      have : n + (i : ℕ) = (n + 1 - (i + 1)) + 2 * i := by omega
      rw [this, pow_add, pow_mul]
      simp
    · rw [if_neg (fun h' => hh (by rw [h', Fin.rev_rev])), if_neg hh, mul_zero]
  have h1 : SU2.raising n * (flipK n)ᴴ = (flipK n)ᴴ * SU2.lowering n := by
    calc _ = ((flipK n)ᴴ * flipK n) * SU2.raising n * (flipK n)ᴴ := by rw [flipK_unitary', Matrix.one_mul]
      _ = (flipK n)ᴴ * (flipK n * SU2.raising n) * (flipK n)ᴴ := by simp only [Matrix.mul_assoc]
      _ = (flipK n)ᴴ * SU2.lowering n * (flipK n * (flipK n)ᴴ) := by rw [flipK_raising]; simp only [Matrix.mul_assoc]
      _ = _ := by rw [flipK_unitary, Matrix.mul_one]
  rw [hK, Matrix.mul_smul, Matrix.smul_mul] at h1
  have hne : (-1 : ℂ) ^ n ≠ 0 := pow_ne_zero _ (by norm_num)
  exact (smul_right_injective _ hne h1).symm

theorem flipK_z (n : ℕ) : flipK n * SU2.zGen n = -(SU2.zGen n * flipK n) := by
  ext i j
  rw [flipK_mul, Matrix.neg_apply, mul_flipK, SU2.zGen_eq, Matrix.diagonal_apply, Matrix.diagonal_apply]
  by_cases h : i.rev = j
  · subst h
    rw [if_pos rfl, Fin.rev_rev, if_pos rfl]
    have : SU2.wt n i.rev = -SU2.wt n i := by
      unfold SU2.wt
      rw [Fin.val_rev, Nat.cast_sub (by omega)]
      push_cast
      ring
    rw [this]
    push_cast
    ring
  · rw [if_neg h, if_neg (fun h' => h (by rw [h', Fin.rev_rev])), mul_zero, zero_mul, neg_zero]

/-- The conjugate matrices are equivalent to the given ones. -/
theorem gens_conj (n : ℕ) (a : Fin 3) : (SU2.gens n a).map star * flipK n = flipK n * SU2.gens n a := by
  have hR : (SU2.raising n).map star = SU2.raising n := by
    ext i j
    rw [Matrix.map_apply, SU2.raising_apply]
    split_ifs
    · exact Complex.conj_ofReal _
    · simp
  have hL : (SU2.lowering n).map star = SU2.lowering n := by
    ext i j
    rw [Matrix.map_apply, SU2.lowering_apply]
    split_ifs
    · exact Complex.conj_ofReal _
    · simp
  have hs : ∀ (c : ℂ) (M : Matrix (Fin (n + 1)) (Fin (n + 1)) ℂ), (c • M).map star = star c • M.map star := by
    intro c M
    ext i j
    simp
  have ha : ∀ M N : Matrix (Fin (n + 1)) (Fin (n + 1)) ℂ, (M + N).map star = M.map star + N.map star := by
    intro M N
    ext i j
    simp
  have hd : ∀ M N : Matrix (Fin (n + 1)) (Fin (n + 1)) ℂ, (M - N).map star = M.map star - N.map star := by
    intro M N
    ext i j
    simp
  have h5 : star (0.5 : ℂ) = 0.5 := by
    rw [show (0.5 : ℂ) = ((0.5 : ℝ) : ℂ) by push_cast; norm_num]
    exact Complex.conj_ofReal _
  fin_cases a
  · change (SU2.gens n 0).map star * flipK n = flipK n * SU2.gens n 0
    rw [SU2.gens_zero, hs, ha, hR, hL, h5, Matrix.smul_mul, Matrix.mul_smul, Matrix.add_mul, Matrix.mul_add, flipK_raising,
      flipK_lowering, add_comm (SU2.lowering n * flipK n)]
  · change (SU2.gens n 1).map star * flipK n = flipK n * SU2.gens n 1
    rw [SU2.gens_one, flipK_z, ← Matrix.neg_mul]
    congr 1
    ext i j
    rw [Matrix.map_apply, SU2.zGen_eq, Matrix.neg_apply, Matrix.diagonal_apply]
    split_ifs
    · simp
    · simp
  · change (SU2.gens n 2).map star * flipK n = flipK n * SU2.gens n 2
    rw [SU2.gens_two, hs, hd, hR, hL, star_mul', star_neg, h5, Matrix.smul_mul, Matrix.mul_smul, Matrix.sub_mul, Matrix.mul_sub,
      flipK_raising, flipK_lowering, show star Complex.I = -Complex.I from Complex.conj_I]
    module

/-- The column `(1, -i) / √2`. -/
noncomputable def colU (a : Fin 2) : ℂ := if a = 0 then ((√2)⁻¹ : ℝ) else -Complex.I * ((√2)⁻¹ : ℝ)

theorem rt_sq : (((√2)⁻¹ : ℝ) : ℂ) * (((√2)⁻¹ : ℝ) : ℂ) = 1 / 2 := by
  rw [← Complex.ofReal_mul, ← mul_inv, Real.mul_self_sqrt (by norm_num)]
  push_cast
  norm_num

/-- The two embeddings of a complex matrix representation in its real form. -/
noncomputable def embJ (n : ℕ) (c : Fin 2) : Matrix (Fin ((n + 1) * 2)) (Fin (n + 1)) ℂ := fun r j =>
  if c = 0 then (1 : Matrix (Fin (n + 1)) (Fin (n + 1)) ℂ) r.divNat j * colU r.modNat else flipK n r.divNat j * star (colU r.modNat)

theorem embJ_zero (n : ℕ) (i : Fin (n + 1)) (a : Fin 2) (j : Fin (n + 1)) : embJ n 0 (finProdFinEquiv (i, a)) j =
    (1 : Matrix (Fin (n + 1)) (Fin (n + 1)) ℂ) i j * colU a := by
  unfold embJ
  rw [if_pos rfl, divNat_prod, modNat_prod]

theorem embJ_one (n : ℕ) (i : Fin (n + 1)) (a : Fin 2) (j : Fin (n + 1)) : embJ n 1 (finProdFinEquiv (i, a)) j =
    flipK n i j * star (colU a) := by
  unfold embJ
  rw [if_neg (by decide), divNat_prod, modNat_prod]

theorem colU_norm : ∑ a, star (colU a) * colU a = 1 := by
  have h := rt_sq
  rw [Fin.sum_univ_two]
  simp only [colU, if_pos, if_neg (show ¬ (1 : Fin 2) = 0 by decide), star_mul', star_neg,
    show star Complex.I = -Complex.I from Complex.conj_I, show ∀ x : ℝ, star (x : ℂ) = x from Complex.conj_ofReal]
  linear_combination (1 - Complex.I * Complex.I) * h - (1 / 2) * Complex.I_mul_I

theorem colU_orth : ∑ a, colU a * colU a = 0 := by
  have h := rt_sq
  rw [Fin.sum_univ_two]
  simp only [colU, if_pos, if_neg (show ¬ (1 : Fin 2) = 0 by decide)]
  linear_combination (1 + Complex.I * Complex.I) * h + (1 / 2) * Complex.I_mul_I

theorem colU_orth' : ∑ a, star (colU a) * star (colU a) = 0 := by
  have := congrArg star colU_orth
  simpa only [star_sum, star_mul', star_zero] using this

theorem colU_pair (a b : Fin 2) (x y : ℝ) :
    (x + y * Complex.I) * (colU a * star (colU b)) + (x - y * Complex.I) * (star (colU a) * colU b) =
      ((if a = 0 then if b = 0 then x else -y else if b = 0 then y else x : ℝ) : ℂ) := by
  have h := rt_sq
  have h1 : ¬ (1 : Fin 2) = 0 := by decide
  fin_cases a <;> fin_cases b
  all_goals simp only [colU, Fin.zero_eta, Fin.mk_one, if_pos, if_neg h1, star_mul', star_neg,
    show star Complex.I = -Complex.I from Complex.conj_I, show ∀ x : ℝ, star (x : ℂ) = x from Complex.conj_ofReal]
  · linear_combination (2 * (x : ℂ)) * h
  · push_cast at h ⊢
    linear_combination (2 * (y : ℂ) * Complex.I * Complex.I) * h + (y : ℂ) * Complex.I_mul_I
  · push_cast at h ⊢
    linear_combination (-2 * (y : ℂ) * Complex.I * Complex.I) * h - (y : ℂ) * Complex.I_mul_I
  · push_cast at h ⊢
    linear_combination (-2 * (x : ℂ) * Complex.I * Complex.I) * h - (x : ℂ) * Complex.I_mul_I

/-- `embJ` times a matrix. -/
theorem embJ_eq (n : ℕ) (c : Fin 2) (M : Matrix (Fin (n + 1)) (Fin (n + 1)) ℂ) (i a j) :
    (embJ n c * M) (finProdFinEquiv (i, a)) j =
      if c = 0 then M i j * colU a else (flipK n * M) i j * star (colU a) := by
  rw [Matrix.mul_apply]
  fin_cases c
  · rw [if_pos (by rfl)]
    simp only [Fin.zero_eta, embJ_zero]
    rw [Finset.sum_eq_single i]
    · rw [Matrix.one_apply_eq]; ring
    · intro b _ hb
      rw [Matrix.one_apply_ne hb.symm]; ring
    · simp
  · rw [if_neg (by decide)]
    simp only [Fin.mk_one, embJ_one]
    rw [Matrix.mul_apply, Finset.sum_mul]
    refine Finset.sum_congr rfl fun x _ => ?_
    ring

theorem embJ_orth (n : ℕ) (c c' : Fin 2) : (embJ n c)ᴴ * embJ n c' = if c = c' then 1 else 0 := by
  ext i j
  rw [Matrix.mul_apply, ← finProdFinEquiv.sum_comp, Fintype.sum_prod_type]
  simp only [Matrix.conjTranspose_apply]
  fin_cases c <;> fin_cases c' <;> simp only [Fin.zero_eta, Fin.mk_one, embJ_zero, embJ_one]
  · rw [if_pos trivial]
    have : ∀ x : Fin (n + 1), ∑ a, star ((1 : Matrix (Fin (n + 1)) (Fin (n + 1)) ℂ) x i * colU a) *
        ((1 : Matrix (Fin (n + 1)) (Fin (n + 1)) ℂ) x j * colU a) =
        star ((1 : Matrix (Fin (n + 1)) (Fin (n + 1)) ℂ) x i) * (1 : Matrix (Fin (n + 1)) (Fin (n + 1)) ℂ) x j := by
      intro x
      rw [← mul_one (star ((1 : Matrix (Fin (n + 1)) (Fin (n + 1)) ℂ) x i) * _), ← colU_norm, Finset.mul_sum]
      refine Finset.sum_congr rfl fun a _ => ?_
      rw [star_mul']; ring
    simp only [this]
    have := congrFun (congrFun (show (1 : Matrix (Fin (n + 1)) (Fin (n + 1)) ℂ)ᴴ * 1 = 1 by simp) i) j
    rw [Matrix.mul_apply] at this
    simpa only [Matrix.conjTranspose_apply] using this
  · rw [if_neg (by decide), Matrix.zero_apply]
    refine Finset.sum_eq_zero fun x _ => ?_
    rw [← mul_zero (star ((1 : Matrix (Fin (n + 1)) (Fin (n + 1)) ℂ) x i) * flipK n x j), ← colU_orth', Finset.mul_sum]
    refine Finset.sum_congr rfl fun a _ => ?_
    rw [star_mul']; ring
  · rw [if_neg (by decide), Matrix.zero_apply]
    refine Finset.sum_eq_zero fun x _ => ?_
    rw [← mul_zero (star (flipK n x i) * (1 : Matrix (Fin (n + 1)) (Fin (n + 1)) ℂ) x j), ← colU_orth, Finset.mul_sum]
    refine Finset.sum_congr rfl fun a _ => ?_
    rw [star_mul', star_star]; ring
  · rw [if_pos trivial]
    have : ∀ x : Fin (n + 1), ∑ a, star (flipK n x i * star (colU a)) * (flipK n x j * star (colU a)) =
        star (flipK n x i) * flipK n x j := by
      intro x
      rw [← mul_one (star (flipK n x i) * _), ← colU_norm, Finset.mul_sum]
      refine Finset.sum_congr rfl fun a _ => ?_
      rw [star_mul', star_star]; ring
    simp only [this]
    have := congrFun (congrFun (flipK_unitary' n) i) j
    rw [Matrix.mul_apply] at this
    simpa only [Matrix.conjTranspose_apply] using this

/-- The real form, as the sum of the matrix and of its conjugate. -/
theorem realify_emb (n : ℕ) (M : Matrix (Fin (n + 1)) (Fin (n + 1)) ℂ) (hM : M.map star * flipK n = flipK n * M) :
    (realify M).map Complex.ofReal = ∑ c, embJ n c * M * (embJ n c)ᴴ := by
  ext r s
  obtain ⟨⟨i, a⟩, rfl⟩ := finProdFinEquiv.surjective r
  obtain ⟨⟨j, b⟩, rfl⟩ := finProdFinEquiv.surjective s
  rw [Matrix.map_apply, realify_prod, Fin.sum_univ_two, Matrix.add_apply]
  have e0 : (embJ n 0 * M * (embJ n 0)ᴴ) (finProdFinEquiv (i, a)) (finProdFinEquiv (j, b)) =
      M i j * (colU a * star (colU b)) := by
    rw [Matrix.mul_apply, Finset.sum_eq_single j]
    · rw [embJ_eq, if_pos rfl, Matrix.conjTranspose_apply, embJ_zero, Matrix.one_apply_eq, one_mul]; ring
    · intro x _ hx
      rw [Matrix.conjTranspose_apply, embJ_zero, Matrix.one_apply_ne hx.symm, zero_mul, star_zero, mul_zero]
    · simp
  have e1 : (embJ n 1 * M * (embJ n 1)ᴴ) (finProdFinEquiv (i, a)) (finProdFinEquiv (j, b)) =
      star (M i j) * (star (colU a) * colU b) := by
    have h : flipK n * M * (flipK n)ᴴ = M.map star := by
      rw [← hM, Matrix.mul_assoc, flipK_unitary, Matrix.mul_one]
    have h' := congrFun (congrFun h i) j
    rw [Matrix.map_apply] at h'
    rw [← h', Matrix.mul_apply, Matrix.mul_apply, Finset.sum_mul]
    refine Finset.sum_congr rfl fun x _ => ?_
    rw [embJ_eq, if_neg (by decide), Matrix.conjTranspose_apply, Matrix.conjTranspose_apply, embJ_one, star_mul', star_star]
    ring
  rw [e0, e1, ← colU_pair a b (M i j).re (M i j).im, Complex.re_add_im]
  congr 2
  apply Complex.ext <;> simp

theorem realify_one (d : ℕ) : realify (1 : Matrix (Fin d) (Fin d) ℂ) = 1 := by
  ext r c
  obtain ⟨⟨i, a⟩, rfl⟩ := finProdFinEquiv.surjective r
  obtain ⟨⟨j, b⟩, rfl⟩ := finProdFinEquiv.surjective c
  rw [realify_prod, Matrix.one_apply, Matrix.one_apply]
  simp only [EmbeddingLike.apply_eq_iff_eq, Prod.mk.injEq]
  by_cases h : i = j
  · fin_cases a <;> fin_cases b <;> simp [h]
  · simp [h]

theorem embJ_total (n : ℕ) : ∑ c, embJ n c * (embJ n c)ᴴ = 1 := by
  have h := realify_emb n 1 (by
    rw [Matrix.mul_one]
    convert Matrix.one_mul _
    ext i j
    rw [Matrix.map_apply, Matrix.one_apply]
    split_ifs <;> simp)
  simp only [Matrix.mul_one] at h
  rw [← h, realify_one]
  ext i j
  rw [Matrix.map_apply, Matrix.one_apply, Matrix.one_apply]
  split_ifs <;> simp

/-- On half-odd spins the real matrices are two copies of the complex ones. -/
theorem copies_odd (n : ℕ) : CopiesBy (embJ n) (SU2.rep n).X (repOf fun a => realify (SU2.gens n a)).X where
  orth := embJ_orth n
  total := embJ_total n
  comm c a := by
    show (realify (SU2.gens n a)).map Complex.ofReal * embJ n c = embJ n c * SU2.gens n a
    rw [realify_emb n _ (gens_conj n a), Matrix.sum_mul, Finset.sum_eq_single c]
    · rw [Matrix.mul_assoc, embJ_orth, if_pos rfl, Matrix.mul_one]
    · intro b _ hb
      rw [Matrix.mul_assoc, embJ_orth, if_neg hb, Matrix.mul_zero]
    · simp
  comm' c a := by
    show (embJ n c)ᴴ * (realify (SU2.gens n a)).map Complex.ofReal = SU2.gens n a * (embJ n c)ᴴ
    rw [realify_emb n _ (gens_conj n a), Matrix.mul_sum, Finset.sum_eq_single c]
    · rw [← Matrix.mul_assoc, ← Matrix.mul_assoc, embJ_orth, if_pos rfl, Matrix.one_mul]
    · intro b _ hb
      rw [← Matrix.mul_assoc, ← Matrix.mul_assoc, embJ_orth, if_neg hb.symm, Matrix.zero_mul, Matrix.zero_mul]
    · simp

/-- On integer spins the real matrices are one copy of the complex ones. -/
theorem copies_even (l : ℕ) {X : Fin 3 → Matrix (Fin (SO3.dim l)) (Fin (SO3.dim l)) ℝ} (h : SO3.gens l = .ok X) :
    CopiesBy (fun _ : Fin 1 => (SO3.changeBasis l)ᴴ) (SU2.rep (2 * l)).X (repOf X).X := by
  have hX : ∀ a, (repOf X).X a = (SO3.changeBasis l)ᴴ * SU2.gens (2 * l) a * SO3.changeBasis l := by
    intro a
    rw [← SO3.rep_X]
    show (X a).map Complex.ofReal = (SO3.rep l).X a
    unfold SO3.rep
    simp only [h]
  refine ⟨fun c c' => ?_, ?_, fun c a => ?_, fun c a => ?_⟩
  · rw [if_pos (Subsingleton.elim _ _), conjTranspose_conjTranspose]
    exact SO3.changeBasis_mul l
  · rw [Fin.sum_univ_one, conjTranspose_conjTranspose]
    exact SO3.changeBasis_mul' l
  · rw [hX, Matrix.mul_assoc, SO3.changeBasis_mul, Matrix.mul_one]
    rfl
  · rw [hX, conjTranspose_conjTranspose, ← Matrix.mul_assoc, ← Matrix.mul_assoc, SO3.changeBasis_mul, Matrix.one_mul]
    rfl

/-- What is known about the generators of `SU2Real(n / 2)`. -/
structure Good (n : ℕ) (p : (d : ℕ) × (Fin 3 → Matrix (Fin d) (Fin d) ℝ)) : Prop where
  gens_eq : gens ((n : ℚ) / 2) = .ok p
  dim_eq : p.1 = (n + 1) * realMult n
  dim_eq' : p.1 = dim ((n : ℚ) / 2)
  copy : ∃ J : Fin (realMult n) → Matrix (Fin p.1) (Fin (n + 1)) ℂ, CopiesBy J (SU2.rep n).X (repOf p.2).X

theorem good_genSig (n : ℕ) : Good n (genSig n) := by
  have key : ∃ p, Good n p := by
    obtain ⟨l, rfl | rfl⟩ := n.even_or_odd'
    · obtain ⟨X, h1, h2, h3⟩ := gens_even (j := ((2 * l : ℕ) : ℚ) / 2) (l := l) (by push_cast; ring)
      refine ⟨_, h2, ?_, h3.symm, ?_⟩
      · unfold realMult
        rw [if_pos (by omega), mul_one]
      · have e : realMult (2 * l) = 1 := by unfold realMult; rw [if_pos (by omega)]
        rw [e]
        exact ⟨_, copies_even l h1⟩
    · obtain ⟨h1, h2⟩ := gens_odd (j := ((2 * l + 1 : ℕ) : ℚ) / 2) (l := l) (by push_cast; ring)
      have e : realMult (2 * l + 1) = 2 := by unfold realMult; rw [if_neg (by omega)]
      refine ⟨_, h1, ?_, h2.symm, ?_⟩
      · rw [e]
      · rw [e]
        exact ⟨_, copies_odd _⟩
  obtain ⟨p, hp⟩ := key
  have : genSig n = p := by
    unfold genSig
    rw [hp.gens_eq]
  rw [this]
  exact hp

section
variable {p₁ p₂ p₃ : (d : ℕ) × (Fin 3 → Matrix (Fin d) (Fin d) ℝ)} {n₁ n₂ n₃ : ℕ}

theorem repOf_real {d : ℕ} (X : Fin 3 → Matrix (Fin d) (Fin d) ℝ) (a i j) :
    star ((repOf X).allGens a i j) = (repOf X).allGens a i j := by
  have e : (repOf X).allGens a = (X a).map Complex.ofReal := Fin.append_left (repOf X).X (repOf X).H a
  rw [e]
  exact Complex.conj_ofReal _

theorem Good.isRep (h : Good n p₁) : IsRep (repOf p₁.2) := by
  obtain ⟨J, hJ⟩ := h.copy
  intro a b
  have key : ∀ M : Matrix (Fin p₁.1) (Fin p₁.1) ℂ, M = ∑ c, M * J c * (J c)ᴴ := by
    intro M
    calc M = M * ∑ c, J c * (J c)ᴴ := by rw [hJ.total, Matrix.mul_one]
      _ = _ := by rw [Matrix.mul_sum]; simp only [Matrix.mul_assoc]
  rw [key ((repOf p₁.2).X a * (repOf p₁.2).X b - (repOf p₁.2).X b * (repOf p₁.2).X a),
    key (∑ k, (repOf p₁.2).A a b k • (repOf p₁.2).X k)]
  refine Finset.sum_congr rfl fun c _ => ?_
  congr 1
  have e : ∀ a b, (repOf p₁.2).X a * (repOf p₁.2).X b * J c = J c * (SU2.gens n a * SU2.gens n b) := by
    intro a b
    rw [Matrix.mul_assoc, hJ.comm, ← Matrix.mul_assoc, hJ.comm, Matrix.mul_assoc]
    rfl
  rw [Matrix.sub_mul, e, e, ← Matrix.mul_sub]
  have h0 := SU2.isRep n a b
  change SU2.gens n a * SU2.gens n b - SU2.gens n b * SU2.gens n a = _ at h0
  rw [h0, Matrix.mul_sum, Matrix.sum_mul]
  refine Finset.sum_congr rfl fun k _ => ?_
  rw [Matrix.smul_mul, hJ.comm, Matrix.mul_smul]
  rfl

theorem Good.skew (h : Good n p₁) (a : Fin 3) : ((repOf p₁.2).X a)ᴴ = -(repOf p₁.2).X a := by
  obtain ⟨J, hJ⟩ := h.copy
  have e : (repOf p₁.2).X a = ∑ c, J c * SU2.gens n a * (J c)ᴴ := by
    calc (repOf p₁.2).X a = (repOf p₁.2).X a * ∑ c, J c * (J c)ᴴ := by rw [hJ.total, Matrix.mul_one]
      _ = _ := by
        rw [Matrix.mul_sum]
        refine Finset.sum_congr rfl fun c _ => ?_
        rw [← Matrix.mul_assoc, hJ.comm]
        rfl
  rw [e, conjTranspose_sum, ← Finset.sum_neg_distrib]
  refine Finset.sum_congr rfl fun c _ => ?_
  rw [conjTranspose_mul, conjTranspose_mul, conjTranspose_conjTranspose, SU2.skew, Matrix.neg_mul, Matrix.mul_neg,
    Matrix.mul_assoc]

theorem close : AllCloseA SU2.algebra SU2.algebra := fun i j k => by
  change ‖SU2.algebra i j k - SU2.algebra i j k‖ ≤ _
  rw [sub_self, norm_zero]; positivity

theorem Good.gap (h₁ : Good n₁ p₁) (h₂ : Good n₂ p₂) (h₃ : Good n₃ p₃) : Gap (1 / 10 ^ 4)
    (icobMatrix (repOf p₃.2).allGens ((repOf p₁.2).tensorProduct (repOf p₂.2)).allGens) := by
  have hT : IsRep ((repOf p₁.2).tensorProduct (repOf p₂.2)) :=
    isRep_tensorProduct (r₁ := repOf p₁.2) (r₂ := repOf p₂.2) rfl h₁.isRep h₂.isRep
  have hU : IsUnitaryRep ((repOf p₁.2).tensorProduct (repOf p₂.2)) :=
    unitary_tensorProduct ⟨fun a => a.elim0, h₁.skew⟩ ⟨fun a => a.elim0, h₂.skew⟩
  exact CGSpace.gap_su2 (CGSpace.su2Mats_of_isRep rfl h₃.isRep) (CGSpace.su2Mats_of_isRep rfl hT) h₃.skew hU.2 Fin.elim0 Fin.elim0
    (fun b => b.elim0) (fun b => b.elim0) (by norm_num)

/-- The number of independent equivariant arrays. -/
theorem Good.number (h₁ : Good n₁ p₁) (h₂ : Good n₂ p₂) (h₃ : Good n₃ p₃) :
    Module.finrank ℂ (cgSpace (repOf p₁.2) (repOf p₂.2) (repOf p₃.2)) =
      realMult n₁ * realMult n₂ * realMult n₃ * Module.finrank ℂ (cgSpace (SU2.rep n₁) (SU2.rep n₂) (SU2.rep n₃)) := by
  obtain ⟨J₁, c₁⟩ := h₁.copy
  obtain ⟨J₂, c₂⟩ := h₂.copy
  obtain ⟨J₃, c₃⟩ := h₃.copy
  rw [CopiesBy.finrank_cg c₁ c₂ c₃, Fintype.card_fin, Fintype.card_fin, Fintype.card_fin]
  ring
end

end LieNN.SU2Real
