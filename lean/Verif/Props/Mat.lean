import Verif.Proofs.MatList
/-!
# C11: the matrix `direct_sum` and `block_diagonal`
-/
namespace LieNN.Props

open Matrix

/-- Matrix product of arrays with shapes: `C = A @ B` (shapes compatible). -/
def IsMatmul (A B C : SMat) : Prop :=
  ∃ m n p, ∃ (a : Matrix (Fin m) (Fin n) ℂ) (b : Matrix (Fin n) (Fin p) ℂ),
    A = ⟨m, n, a⟩ ∧ B = ⟨n, p, b⟩ ∧ C = ⟨m, p, a * b⟩

/-- C11 (blocks): the result has the summed shape, the argument `A` standing after `l₁` occupies the
block that starts at the summed shape of `l₁`, and every non-zero entry lies in such a block. -/
theorem C11_direct_sum_blocks (l : List SMat) (hl : l ≠ []) :
    ∃ S, directSumMats l = .ok S ∧
      S.rows = (l.map SMat.rows).sum ∧ S.cols = (l.map SMat.cols).sum ∧
      (∀ l₁ A l₂, l = l₁ ++ A :: l₂ → ∀ i < A.rows, ∀ j < A.cols,
        S.get ((l₁.map SMat.rows).sum + i) ((l₁.map SMat.cols).sum + j) = A.get i j) ∧
      (∀ i j, S.get i j ≠ 0 → ∃ l₁ A l₂ i' j', l = l₁ ++ A :: l₂ ∧ i' < A.rows ∧ j' < A.cols ∧
        i = (l₁.map SMat.rows).sum + i' ∧ j = (l₁.map SMat.cols).sum + j') := by
  refine ⟨_, directSumMats_ok hl, dsums_rows l, dsums_cols l, ?_, ?_⟩
  · rintro l₁ A l₂ rfl i hi j hj
    exact dsums_get_block l₁ l₂ A hi hj
  · intro i j h
    exact dsums_get_ne_zero l h

/-- `direct_sum()` without argument is a `TypeError`. -/
theorem C11_direct_sum_empty : directSumMats [] = .error .typeError := rfl

/-- C11 (multiplicative): the product of two direct sums with matching shapes is the direct sum of
the products, for any number of arguments. -/
theorem C11_direct_sum_mul (l : List (SMat × SMat × SMat)) (hl : l ≠ [])
    (hmul : ∀ t ∈ l, IsMatmul t.1 t.2.1 t.2.2) :
    ∃ S T U, directSumMats (l.map fun t => t.1) = .ok S ∧
      directSumMats (l.map fun t => t.2.1) = .ok T ∧
      directSumMats (l.map fun t => t.2.2) = .ok U ∧ IsMatmul S T U := by
  refine ⟨_, _, _, directSumMats_ok (by simpa using hl), directSumMats_ok (by simpa using hl),
    directSumMats_ok (by simpa using hl), ?_⟩
  clear hl
  induction l with
  | nil => exact ⟨0, 0, 0, 0, 0, rfl, rfl, by simp [dsums]⟩
  | cons t l ih =>
    obtain ⟨m, n, p, a, b, h1, h2, h3⟩ := hmul t (by simp)
    obtain ⟨m', n', p', a', b', h1', h2', h3'⟩ := ih fun t ht => hmul t (by simp [ht])
    refine ⟨m + m', n + n', p + p', dsum a a', dsum b b', ?_, ?_, ?_⟩
    · show SMat.dsum t.1 (dsums _) = _
      rw [h1, h1']; rfl
    · show SMat.dsum t.2.1 (dsums _) = _
      rw [h2, h2']; rfl
    · show SMat.dsum t.2.2 (dsums _) = _
      rw [h3, h3', dsum_mul]; rfl

/-- C11 (associative): grouping the arguments does not change the result. -/
theorem C11_direct_sum_assoc (l₁ l₂ : List SMat) (h₁ : l₁ ≠ []) (h₂ : l₂ ≠ []) :
    ∃ S₁ S₂ S, directSumMats l₁ = .ok S₁ ∧ directSumMats l₂ = .ok S₂ ∧
      directSumMats (l₁ ++ l₂) = .ok S ∧ directSumMats [S₁, S₂] = .ok S := by
  refine ⟨_, _, _, directSumMats_ok h₁, directSumMats_ok h₂, directSumMats_ok (by simp [h₁]), ?_⟩
  rw [directSumMats_ok (by simp), dsums_append]
  simp [dsums, dsum_empty]

/-- C11 (identities): a direct sum of identity matrices is the identity matrix. -/
theorem C11_direct_sum_one (l : List ℕ) (hl : l ≠ []) :
    directSumMats (l.map fun m => ⟨m, m, 1⟩) = .ok ⟨l.sum, l.sum, 1⟩ := by
  rw [directSumMats_ok (by simpa using hl)]
  congr 1
  clear hl
  induction l with
  | nil => exact SMat.ext_get rfl rfl (fun i hi => absurd hi (Nat.not_lt_zero i))
  | cons m l ih =>
    show SMat.dsum _ (dsums _) = _
    rw [ih]
    simp only [SMat.dsum, dsum_one]
    rfl

/-- C11 (`block_diagonal`): on real matrices `block_diagonal` and `direct_sum` agree. -/
theorem C11_block_diagonal_eq (l : List SMat) (hl : l ≠ [])
    (hre : ∀ A ∈ l, ∀ i j, (A.mat i j).im = 0) : blockDiagonal l = directSumMats l := by
  obtain ⟨B, hB, hr, hc, hget⟩ := blockDiagonal_eq hl
  rw [hB, directSumMats_ok hl]
  congr 1
  refine SMat.ext_get hr hc fun i _ j _ => ?_
  rw [hget]
  apply Complex.ext
  · simp
  · rw [Complex.ofReal_im]
    by_contra hne
    have h0 : (dsums l).get i j ≠ 0 := by
      intro h; rw [h] at hne; exact hne rfl
    obtain ⟨l₁, A, l₂, i', j', rfl, hi, hj, rfl, rfl⟩ := dsums_get_ne_zero l h0
    rw [dsums_get_block l₁ l₂ A hi hj, SMat.get_of_lt A hi hj, hre A (by simp)] at hne
    exact hne rfl

/-- C11 (`block_diagonal`, complex input): it returns the real part of the direct sum, because the
output array is allocated without a complex dtype. -/
theorem C11_block_diagonal_real_part (l : List SMat) (hl : l ≠ []) :
    ∃ B S, blockDiagonal l = .ok B ∧ directSumMats l = .ok S ∧ B.rows = S.rows ∧ B.cols = S.cols ∧
      ∀ i j, B.get i j = ((S.get i j).re : ℂ) := by
  obtain ⟨B, hB, hr, hc, hget⟩ := blockDiagonal_eq hl
  exact ⟨B, _, hB, directSumMats_ok hl, hr, hc, hget⟩

/-- C11 (negation for complex input): `block_diagonal` and `direct_sum` differ on the `1 × 1` matrix
with entry `i`. -/
theorem C11_block_diagonal_complex_false :
    ¬ ∀ l : List SMat, l ≠ [] → blockDiagonal l = directSumMats l := by
  intro h
  have h1 := h [⟨1, 1, fun _ _ => Complex.I⟩] (by simp)
  obtain ⟨B, S, hB, hS, -, -, hget⟩ :=
    C11_block_diagonal_real_part [⟨1, 1, fun _ _ => Complex.I⟩] (by simp)
  rw [hB, hS] at h1
  have h2 : B = S := Except.ok.inj h1
  have h3 : S = ⟨1, 1, fun _ _ => Complex.I⟩ := (Except.ok.inj hS).symm
  have h4 := hget 0 0
  rw [h2, h3] at h4
  simp [SMat.get, Complex.ext_iff] at h4

/-- Non-vacuity: three blocks of different shapes. -/
example : ([⟨1, 2, 0⟩, ⟨2, 1, fun _ _ => 1⟩, ⟨3, 3, 1⟩] : List SMat) ≠ [] := by simp

/-- Non-vacuity of the multiplicativity hypothesis: products of two `2 × 3` by `3 × 1` and
`1 × 1` by `1 × 2` blocks. -/
example : ∃ l : List (SMat × SMat × SMat), l.length = 2 ∧
    ∀ t ∈ l, IsMatmul t.1 t.2.1 t.2.2 := by
  let a : Matrix (Fin 2) (Fin 3) ℂ := fun i j => (i : ℂ) + j
  let b : Matrix (Fin 3) (Fin 1) ℂ := fun i _ => i
  let c : Matrix (Fin 1) (Fin 1) ℂ := fun _ _ => 5
  let e : Matrix (Fin 1) (Fin 2) ℂ := fun _ j => j
  refine ⟨[(⟨2, 3, a⟩, ⟨3, 1, b⟩, ⟨2, 1, a * b⟩), (⟨1, 1, c⟩, ⟨1, 2, e⟩, ⟨1, 2, c * e⟩)], rfl, ?_⟩
  intro t ht
  rcases List.mem_cons.1 ht with rfl | ht
  · exact ⟨2, 3, 1, _, _, rfl, rfl, rfl⟩
  · rw [List.mem_singleton] at ht
    subst ht
    exact ⟨1, 1, 2, _, _, rfl, rfl, rfl⟩

end LieNN.Props
