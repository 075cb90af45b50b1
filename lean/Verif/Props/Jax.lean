import Verif.Proofs.Jax
/-!
# C55: `jax_utils.matrix_power` and `jax_utils.exp_map`
-/
namespace LieNN.Props

open Matrix NormedSpace

/-- C55: for a float array and every exponent `0 ≤ n < 2 ^ 32` the result is `F ^ n`, whatever the
uninitialised placeholder arrays contain. -/
theorem C55_matrix_power {d : ℕ} (empty : ℕ → Matrix (Fin d) (Fin d) ℂ)
    (F : Matrix (Fin d) (Fin d) ℂ) (n : ℕ) (hn : n < 2 ^ 32) :
    Jax.matrixPower .float empty F n = .ok (F ^ n) := by
  rw [Jax.matrixPower_eq, Int.emod_eq_of_lt (by omega) (by exact_mod_cast hn), Int.toNat_natCast]

/-- C55 (all integers): outside of that range the exponent is reduced modulo `2 ^ 32`; in particular
a negative `int32` exponent does not give a power of the inverse. -/
theorem C55_matrix_power_mod {d : ℕ} (empty : ℕ → Matrix (Fin d) (Fin d) ℂ)
    (F : Matrix (Fin d) (Fin d) ℂ) (n : ℤ) :
    ∃ m : ℕ, m < 2 ^ 32 ∧ (m : ℤ) ≡ n [ZMOD 2 ^ 32] ∧
      Jax.matrixPower .float empty F n = .ok (F ^ m) := by
  have h0 : 0 ≤ n % 2 ^ 32 := Int.emod_nonneg _ (by norm_num)
  have h1 : n % 2 ^ 32 < 2 ^ 32 := Int.emod_lt_of_pos _ (by norm_num)
  refine ⟨(n % 2 ^ 32).toNat, by omega, ?_, Jax.matrixPower_eq _ _ _⟩
  rw [Int.toNat_of_nonneg h0]
  exact Int.mod_modEq _ _

/-- C55 finding: arrays of integer or complex dtype always raise `TypeError` (the branches of the
conditionals have different dtypes). -/
theorem C55_matrix_power_dtype {d : ℕ} (dt : Jax.Dtype) (hdt : dt ≠ .float)
    (empty : ℕ → Matrix (Fin d) (Fin d) ℂ) (F : Matrix (Fin d) (Fin d) ℂ) (n : ℤ) :
    Jax.matrixPower dt empty F n = .error .typeError := by
  simp [Jax.matrixPower, hdt]

/-- C55: for float discrete generators and exponents in `[0, 2 ^ 32)` the function `exp_map` of
`jax_utils` returns what `Rep.exp_map` returns. -/
theorem C55_exp_map {n h d : ℕ} (empty : Fin h → ℕ → Matrix (Fin d) (Fin d) ℂ) (r : Rep n h d)
    (c : Fin n → ℂ) (k : Fin h → ℤ) (hk : ∀ i, 0 ≤ k i ∧ k i < 2 ^ 32) :
    Jax.expMap .float empty r c k = r.expMap c k := by
  rw [Jax.expMap_eq, Rep.expMap, Rep.expMap_foldr_ok _ _ _ fun i hi => absurd (hk i).1 (by omega)]
  congr 1
  induction List.finRange h with
  | nil => simp
  | cons i l ih =>
    rw [List.foldr_cons, ih, List.map_cons, List.prod_cons, mul_assoc,
      Int.emod_eq_of_lt (hk i).1 (hk i).2]
    congr 1
    conv_rhs => rw [← Int.toNat_of_nonneg (hk i).1]
    rw [zpow_natCast]

/-- C55 finding: with the exponent `-1` the two functions differ; here `F = (2)`. -/
theorem C55_negative_differs (empty : ℕ → Matrix (Fin 1) (Fin 1) ℂ) :
    Jax.matrixPower .float empty (Matrix.of fun _ _ => (2 : ℂ)) (-1) ≠ matrixPower (Matrix.of fun _ _ => (2 : ℂ)) (-1) := by
  have hu : IsUnit (Matrix.of fun _ _ => (2 : ℂ) : Matrix (Fin 1) (Fin 1) ℂ) := by
    rw [Matrix.isUnit_iff_isUnit_det]; simp
  rw [Jax.matrixPower_eq, matrixPower_ok fun _ => hu, Matrix.zpow_neg_one]
  intro h
  have h2 := congrArg (fun M => (M * (Matrix.of fun _ _ => (2 : ℂ) : Matrix (Fin 1) (Fin 1) ℂ)).det) (Except.ok.inj h)
  simp only [Matrix.det_mul, Matrix.det_pow] at h2
  rw [← Matrix.det_mul, Matrix.nonsing_inv_mul _ ((Matrix.isUnit_iff_isUnit_det _).1 hu),
    ← pow_succ] at h2
  simp only [Matrix.det_unique, Matrix.one_apply_eq, Matrix.of_apply] at h2
  generalize ((-1 : ℤ) % 2 ^ 32).toNat = q at h2
  have h3 : (2 : ℕ) ^ (q + 1) = 1 := by exact_mod_cast h2
  have := (Nat.pow_eq_one.1 h3)
  omega

example : (5 : ℕ) < 2 ^ 32 := by norm_num
/-- The placeholder is really used: a scan step on `n = 1` discards `z`. -/
example (E F : Matrix (Fin 2) (Fin 2) ℂ) : (Jax.body E (1, F, 1)).2.1 = E := by
  simp [Jax.body, Int.fdiv]

end LieNN.Props
