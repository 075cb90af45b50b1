import Mathlib.LinearAlgebra.Matrix.Kronecker
import Mathlib.Data.Matrix.Block
import Mathlib.LinearAlgebra.Matrix.NonsingularInverse
import Verif.Model.Mat
/-!
# Lemmas about `dsum` and `kron`
-/
namespace LieNN

open Matrix Kronecker

section dsum

variable {R : Type*}
variable {m n p q m' n' k l : ℕ}

theorem dsum_eq [Zero R] (A : Matrix (Fin m) (Fin n) R) (B : Matrix (Fin p) (Fin q) R) :
    dsum A B = (fromBlocks A 0 0 B).submatrix finSumFinEquiv.symm finSumFinEquiv.symm := by
  ext i j
  refine Fin.addCases (fun i => ?_) (fun i => ?_) i <;>
    refine Fin.addCases (fun j => ?_) (fun j => ?_) j <;> simp [dsum]

@[simp] theorem dsum_ll [Zero R] (A : Matrix (Fin m) (Fin n) R) (B : Matrix (Fin p) (Fin q) R)
    (i : Fin m) (j : Fin n) : dsum A B (Fin.castAdd p i) (Fin.castAdd q j) = A i j := by
  simp [dsum]

@[simp] theorem dsum_lr [Zero R] (A : Matrix (Fin m) (Fin n) R) (B : Matrix (Fin p) (Fin q) R)
    (i : Fin m) (j : Fin q) : dsum A B (Fin.castAdd p i) (Fin.natAdd n j) = 0 := by
  simp [dsum]

@[simp] theorem dsum_rl [Zero R] (A : Matrix (Fin m) (Fin n) R) (B : Matrix (Fin p) (Fin q) R)
    (i : Fin p) (j : Fin n) : dsum A B (Fin.natAdd m i) (Fin.castAdd q j) = 0 := by
  simp [dsum]

@[simp] theorem dsum_rr [Zero R] (A : Matrix (Fin m) (Fin n) R) (B : Matrix (Fin p) (Fin q) R)
    (i : Fin p) (j : Fin q) : dsum A B (Fin.natAdd m i) (Fin.natAdd n j) = B i j := by
  simp [dsum]

theorem dsum_ext {M N : Matrix (Fin (m + p)) (Fin (n + q)) R}
    (h₁ : ∀ i j, M (Fin.castAdd p i) (Fin.castAdd q j) = N (Fin.castAdd p i) (Fin.castAdd q j))
    (h₂ : ∀ i j, M (Fin.castAdd p i) (Fin.natAdd n j) = N (Fin.castAdd p i) (Fin.natAdd n j))
    (h₃ : ∀ i j, M (Fin.natAdd m i) (Fin.castAdd q j) = N (Fin.natAdd m i) (Fin.castAdd q j))
    (h₄ : ∀ i j, M (Fin.natAdd m i) (Fin.natAdd n j) = N (Fin.natAdd m i) (Fin.natAdd n j)) :
    M = N := by
  ext i j
  refine Fin.addCases (fun i => ?_) (fun i => ?_) i <;>
    refine Fin.addCases (fun j => ?_) (fun j => ?_) j
  · exact h₁ i j
  · exact h₂ i j
  · exact h₃ i j
  · exact h₄ i j

theorem dsum_mul [NonUnitalNonAssocSemiring R] (A : Matrix (Fin m) (Fin n) R)
    (B : Matrix (Fin p) (Fin q) R)
    (C : Matrix (Fin n) (Fin k) R) (D : Matrix (Fin q) (Fin l) R) :
    dsum A B * dsum C D = dsum (A * C) (B * D) := by
  rw [dsum_eq, dsum_eq, dsum_eq, submatrix_mul_equiv, fromBlocks_multiply]
  simp

theorem dsum_one [Zero R] [One R] :
    dsum (1 : Matrix (Fin m) (Fin m) R) (1 : Matrix (Fin p) (Fin p) R) = 1 := by
  rw [dsum_eq, fromBlocks_one, submatrix_one_equiv]

theorem dsum_add [AddZeroClass R] (A A' : Matrix (Fin m) (Fin n) R) (B B' : Matrix (Fin p) (Fin q) R) :
    dsum (A + A') (B + B') = dsum A B + dsum A' B' := by
  apply dsum_ext <;> simp

theorem dsum_sub [SubtractionMonoid R] (A A' : Matrix (Fin m) (Fin n) R)
    (B B' : Matrix (Fin p) (Fin q) R) :
    dsum (A - A') (B - B') = dsum A B - dsum A' B' := by
  apply dsum_ext <;> simp

theorem dsum_zero [Zero R] : dsum (0 : Matrix (Fin m) (Fin n) R) (0 : Matrix (Fin p) (Fin q) R) = 0 := by
  apply dsum_ext <;> simp

theorem dsum_smul [Zero R] {S : Type*} [SMulZeroClass S R] (c : S) (A : Matrix (Fin m) (Fin n) R)
    (B : Matrix (Fin p) (Fin q) R) : dsum (c • A) (c • B) = c • dsum A B := by
  apply dsum_ext <;> simp

theorem dsum_neg [SubtractionMonoid R] (A : Matrix (Fin m) (Fin n) R) (B : Matrix (Fin p) (Fin q) R) :
    dsum (-A) (-B) = - dsum A B := by
  apply dsum_ext <;> simp

theorem dsum_sum [AddCommMonoid R] {ι : Type*} (s : Finset ι) (A : ι → Matrix (Fin m) (Fin n) R)
    (B : ι → Matrix (Fin p) (Fin q) R) :
    dsum (∑ i ∈ s, A i) (∑ i ∈ s, B i) = ∑ i ∈ s, dsum (A i) (B i) := by
  classical
  induction s using Finset.induction_on with
  | empty => simp [dsum_zero]
  | insert a s ha ih => simp [Finset.sum_insert ha, dsum_add, ih]

theorem dsum_conjTranspose [AddMonoid R] [StarAddMonoid R] (A : Matrix (Fin m) (Fin n) R)
    (B : Matrix (Fin p) (Fin q) R) : (dsum A B)ᴴ = dsum Aᴴ Bᴴ := by
  apply dsum_ext <;> simp

theorem dsum_injective [Zero R] {A A' : Matrix (Fin m) (Fin n) R} {B B' : Matrix (Fin p) (Fin q) R}
    (h : dsum A B = dsum A' B') : A = A' ∧ B = B' := by
  constructor
  · ext i j
    have := congrFun (congrFun h (Fin.castAdd p i)) (Fin.castAdd q j)
    simpa using this
  · ext i j
    have := congrFun (congrFun h (Fin.natAdd m i)) (Fin.natAdd n j)
    simpa using this

end dsum

section kron

variable {R : Type*}
variable {m n p q m' n' k l : ℕ}

theorem kron_eq [Mul R] (M : Matrix (Fin m) (Fin n) R) (N : Matrix (Fin p) (Fin q) R) :
    kron M N = (M ⊗ₖ N).submatrix finProdFinEquiv.symm finProdFinEquiv.symm := by
  ext i j
  simp [kron, finProdFinEquiv]

theorem kron_apply [Mul R] (M : Matrix (Fin m) (Fin n) R) (N : Matrix (Fin p) (Fin q) R)
    (i : Fin m) (k : Fin p) (j : Fin n) (l : Fin q) :
    kron M N (finProdFinEquiv (i, k)) (finProdFinEquiv (j, l)) = M i j * N k l := by
  rw [kron_eq]; simp

theorem kron_ext {M N : Matrix (Fin (m * p)) (Fin (n * q)) R}
    (h : ∀ i k j l, M (finProdFinEquiv (i, k)) (finProdFinEquiv (j, l)) =
      N (finProdFinEquiv (i, k)) (finProdFinEquiv (j, l))) : M = N := by
  ext i j
  have := h (finProdFinEquiv.symm i).1 (finProdFinEquiv.symm i).2
    (finProdFinEquiv.symm j).1 (finProdFinEquiv.symm j).2
  simp only [Prod.mk.eta, Equiv.apply_symm_apply] at this
  exact this

theorem kron_mul [CommSemiring R] (A : Matrix (Fin m) (Fin n) R) (B : Matrix (Fin p) (Fin q) R)
    (C : Matrix (Fin n) (Fin k) R) (D : Matrix (Fin q) (Fin l) R) :
    kron A B * kron C D = kron (A * C) (B * D) := by
  rw [kron_eq, kron_eq, kron_eq, submatrix_mul_equiv, mul_kronecker_mul]

theorem kron_one [MulZeroOneClass R] :
    kron (1 : Matrix (Fin m) (Fin m) R) (1 : Matrix (Fin p) (Fin p) R) = 1 := by
  rw [kron_eq, one_kronecker_one, submatrix_one_equiv]

theorem kron_add_left [Distrib R] (A A' : Matrix (Fin m) (Fin n) R) (B : Matrix (Fin p) (Fin q) R) :
    kron (A + A') B = kron A B + kron A' B := by
  apply kron_ext; simp [kron_apply, add_mul]

theorem kron_add_right [Distrib R] (A : Matrix (Fin m) (Fin n) R) (B B' : Matrix (Fin p) (Fin q) R) :
    kron A (B + B') = kron A B + kron A B' := by
  apply kron_ext; simp [kron_apply, mul_add]

theorem kron_zero_left [MulZeroClass R] (B : Matrix (Fin p) (Fin q) R) :
    kron (0 : Matrix (Fin m) (Fin n) R) B = 0 := by
  apply kron_ext; simp [kron_apply]

theorem kron_zero_right [MulZeroClass R] (A : Matrix (Fin m) (Fin n) R) :
    kron A (0 : Matrix (Fin p) (Fin q) R) = 0 := by
  apply kron_ext; simp [kron_apply]

theorem kron_smul_left [CommSemiring R] (c : R) (A : Matrix (Fin m) (Fin n) R)
    (B : Matrix (Fin p) (Fin q) R) : kron (c • A) B = c • kron A B := by
  apply kron_ext; simp [kron_apply, mul_assoc]

theorem kron_smul_right [CommSemiring R] (c : R) (A : Matrix (Fin m) (Fin n) R)
    (B : Matrix (Fin p) (Fin q) R) : kron A (c • B) = c • kron A B := by
  apply kron_ext; intros; simp only [kron_apply, Matrix.smul_apply, smul_eq_mul]; ring

theorem kron_neg_left [CommRing R] (A : Matrix (Fin m) (Fin n) R)
    (B : Matrix (Fin p) (Fin q) R) : kron (-A) B = - kron A B := by
  apply kron_ext; simp [kron_apply]

theorem kron_neg_right [CommRing R] (A : Matrix (Fin m) (Fin n) R)
    (B : Matrix (Fin p) (Fin q) R) : kron A (-B) = - kron A B := by
  apply kron_ext; simp [kron_apply]

theorem kron_sub_left [CommRing R] (A A' : Matrix (Fin m) (Fin n) R)
    (B : Matrix (Fin p) (Fin q) R) : kron (A - A') B = kron A B - kron A' B := by
  apply kron_ext; simp [kron_apply, sub_mul]

theorem kron_sub_right [CommRing R] (A : Matrix (Fin m) (Fin n) R)
    (B B' : Matrix (Fin p) (Fin q) R) : kron A (B - B') = kron A B - kron A B' := by
  apply kron_ext; simp [kron_apply, mul_sub]

theorem kron_sum_left [CommSemiring R] {ι : Type*} (s : Finset ι) (A : ι → Matrix (Fin m) (Fin n) R)
    (B : Matrix (Fin p) (Fin q) R) : kron (∑ i ∈ s, A i) B = ∑ i ∈ s, kron (A i) B := by
  apply kron_ext; intros; simp [kron_apply, Matrix.sum_apply, Finset.sum_mul]

theorem kron_sum_right [CommSemiring R] {ι : Type*} (s : Finset ι) (A : Matrix (Fin m) (Fin n) R)
    (B : ι → Matrix (Fin p) (Fin q) R) : kron A (∑ i ∈ s, B i) = ∑ i ∈ s, kron A (B i) := by
  apply kron_ext; intros; simp [kron_apply, Matrix.sum_apply, Finset.mul_sum]

theorem kron_conjTranspose [CommSemiring R] [StarRing R] (A : Matrix (Fin m) (Fin n) R)
    (B : Matrix (Fin p) (Fin q) R) : (kron A B)ᴴ = kron Aᴴ Bᴴ := by
  apply kron_ext; intros; simp [kron_apply]

theorem kron_transpose [CommSemiring R] (A : Matrix (Fin m) (Fin n) R)
    (B : Matrix (Fin p) (Fin q) R) : (kron A B)ᵀ = kron Aᵀ Bᵀ := by
  apply kron_ext; intros; simp [kron_apply]

theorem kron_isUnit [CommRing R] {A : Matrix (Fin m) (Fin m) R} {B : Matrix (Fin p) (Fin p) R}
    (hA : IsUnit A) (hB : IsUnit B) : IsUnit (kron A B) := by
  obtain ⟨u, rfl⟩ := hA
  obtain ⟨v, rfl⟩ := hB
  exact ⟨⟨kron u v, kron ↑u⁻¹ ↑v⁻¹, by rw [kron_mul]; simp [kron_one],
    by rw [kron_mul]; simp [kron_one]⟩, rfl⟩

theorem kron_inv [CommRing R] {A : Matrix (Fin m) (Fin m) R} {B : Matrix (Fin p) (Fin p) R}
    (hA : IsUnit A) (hB : IsUnit B) : (kron A B)⁻¹ = kron A⁻¹ B⁻¹ := by
  apply inv_eq_right_inv
  rw [isUnit_iff_isUnit_det] at hA hB
  rw [kron_mul, mul_nonsing_inv _ hA, mul_nonsing_inv _ hB, kron_one]

theorem kron_pow [CommSemiring R] (A : Matrix (Fin m) (Fin m) R) (B : Matrix (Fin p) (Fin p) R)
    (k : ℕ) : (kron A B) ^ k = kron (A ^ k) (B ^ k) := by
  induction k with
  | zero => simp [kron_one]
  | succ k ih => rw [pow_succ, ih, kron_mul, pow_succ, pow_succ]

theorem kron_left_injective [CommSemiring R] {A A' : Matrix (Fin m) (Fin n) R} [NeZero p]
    (h : kron A (1 : Matrix (Fin p) (Fin p) R) = kron A' 1) : A = A' := by
  ext i j
  have := congrFun (congrFun h (finProdFinEquiv (i, 0))) (finProdFinEquiv (j, 0))
  simpa [kron_apply] using this

end kron

namespace SMat

theorem get_of_lt (M : SMat) {i j : ℕ} (hi : i < M.rows) (hj : j < M.cols) :
    M.get i j = M.mat ⟨i, hi⟩ ⟨j, hj⟩ := by
  simp [get, hi, hj]

theorem get_of_not (M : SMat) {i j : ℕ} (h : ¬ (i < M.rows ∧ j < M.cols)) : M.get i j = 0 := by
  simp [get, h]

theorem ext_get {M N : SMat} (hr : M.rows = N.rows) (hc : M.cols = N.cols)
    (h : ∀ i < M.rows, ∀ j < M.cols, M.get i j = N.get i j) : M = N := by
  obtain ⟨m, n, A⟩ := M
  obtain ⟨m', n', B⟩ := N
  simp only at hr hc
  subst hr hc
  congr
  ext i j
  have := h i.1 i.2 j.1 j.2
  rwa [get_of_lt _ i.2 j.2, get_of_lt _ i.2 j.2] at this

theorem mat_heq {m n : ℕ} {A B : Matrix (Fin m) (Fin n) ℂ} (h : (⟨m, n, A⟩ : SMat) = ⟨m, n, B⟩) :
    A = B := by
  simpa using h

/-- binary direct sum -/
def dsum (A B : SMat) : SMat := ⟨A.rows + B.rows, A.cols + B.cols, LieNN.dsum A.mat B.mat⟩

/-- binary Kronecker product -/
def kron (A B : SMat) : SMat := ⟨A.rows * B.rows, A.cols * B.cols, LieNN.kron A.mat B.mat⟩

theorem get_dsum (A B : SMat) (i j : ℕ) :
    (dsum A B).get i j =
      if i < A.rows then (if j < A.cols then A.get i j else 0)
      else (if j < A.cols then 0 else B.get (i - A.rows) (j - A.cols)) := by
  by_cases h : i < A.rows + B.rows ∧ j < A.cols + B.cols
  · rw [get_of_lt (dsum A B) h.1 h.2]
    by_cases hi : i < A.rows <;> by_cases hj : j < A.cols <;> simp only [hi, hj, if_true, if_false]
    · rw [get_of_lt A hi hj]
      exact dsum_ll A.mat B.mat ⟨i, hi⟩ ⟨j, hj⟩
    · have hj' : j - A.cols < B.cols := by omega
      have := dsum_lr A.mat B.mat ⟨i, hi⟩ ⟨j - A.cols, hj'⟩
      rw [← this]
      congr 1
      apply Fin.ext; simp; omega
    · have hi' : i - A.rows < B.rows := by omega
      have := dsum_rl A.mat B.mat ⟨i - A.rows, hi'⟩ ⟨j, hj⟩
      rw [← this]
      congr 1
      apply Fin.ext; simp; omega
    · have hi' : i - A.rows < B.rows := by omega
      have hj' : j - A.cols < B.cols := by omega
      rw [get_of_lt B hi' hj']
      rw [← dsum_rr A.mat B.mat ⟨i - A.rows, hi'⟩ ⟨j - A.cols, hj'⟩]
      show LieNN.dsum A.mat B.mat _ _ = _
      congr 1 <;> (apply Fin.ext; simp; omega)
  · rw [get_of_not _ h]
    split_ifs with h1 h2 h3
    · omega
    · rfl
    · rfl
    · rw [get_of_not]; omega

theorem get_kron (A B : SMat) (i j : ℕ) :
    (kron A B).get i j =
      A.get (i / B.rows) (j / B.cols) * B.get (i % B.rows) (j % B.cols) := by
  by_cases h : i < A.rows * B.rows ∧ j < A.cols * B.cols
  · have hr : 0 < B.rows := by
      rcases Nat.eq_zero_or_pos B.rows with h0 | h0
      · rw [h0] at h; omega
      · exact h0
    have hc : 0 < B.cols := by
      rcases Nat.eq_zero_or_pos B.cols with h0 | h0
      · rw [h0] at h; omega
      · exact h0
    rw [get_of_lt (kron A B) h.1 h.2, get_of_lt A (Nat.div_lt_of_lt_mul (by rw [mul_comm]; exact h.1))
      (Nat.div_lt_of_lt_mul (by rw [mul_comm]; exact h.2)),
      get_of_lt B (Nat.mod_lt _ hr) (Nat.mod_lt _ hc)]
    rfl
  · rw [get_of_not _ h]
    by_cases h2 : i / B.rows < A.rows ∧ j / B.cols < A.cols
    · by_cases hr : 0 < B.rows
      · by_cases hc : 0 < B.cols
        · exfalso; apply h
          exact ⟨(Nat.div_lt_iff_lt_mul hr).1 h2.1, (Nat.div_lt_iff_lt_mul hc).1 h2.2⟩
        · rw [get_of_not B (by omega), mul_zero]
      · rw [get_of_not B (by omega), mul_zero]
    · rw [get_of_not A h2, zero_mul]

theorem kron_assoc (A B C : SMat) : kron (kron A B) C = kron A (kron B C) := by
  apply ext_get
  · simp [kron, Nat.mul_assoc]
  · simp [kron, Nat.mul_assoc]
  · intro i _ j _
    simp only [get_kron]
    have e (a b c : ℕ) : a / (b * c) = a / c / b := by rw [Nat.div_div_eq_div_mul, mul_comm]
    show _ = A.get (i / (B.rows * C.rows)) (j / (B.cols * C.cols)) *
      (B.get (i % (B.rows * C.rows) / C.rows) (j % (B.cols * C.cols) / C.cols) *
        C.get (i % (B.rows * C.rows) % C.rows) (j % (B.cols * C.cols) % C.cols))
    rw [e, e, Nat.mod_mul_left_div_self, Nat.mod_mul_left_div_self,
      Nat.mod_mul_left_mod, Nat.mod_mul_left_mod, mul_assoc]

/-- the `1 × 1` identity -/
def unit : SMat := ⟨1, 1, 1⟩

theorem unit_kron (A : SMat) : kron unit A = A := by
  apply ext_get
  · simp [kron, unit]
  · simp [kron, unit]
  · intro i hi j hj
    have hi : i < A.rows := by simpa [kron, unit] using hi
    have hj : j < A.cols := by simpa [kron, unit] using hj
    rw [get_kron, Nat.div_eq_of_lt hi, Nat.div_eq_of_lt hj, Nat.mod_eq_of_lt hi, Nat.mod_eq_of_lt hj]
    rw [get_of_lt unit (by simp [unit]) (by simp [unit])]
    simp [unit]

theorem kron_unit (A : SMat) : kron A unit = A := by
  apply ext_get
  · simp [kron, unit]
  · simp [kron, unit]
  · intro i hi j hj
    rw [get_kron]
    show A.get (i / 1) (j / 1) * unit.get (i % 1) (j % 1) = _
    rw [Nat.mod_one, Nat.mod_one, Nat.div_one, Nat.div_one,
      get_of_lt unit (by simp [unit]) (by simp [unit])]
    simp [unit]

theorem dsum_assoc (A B C : SMat) : dsum (dsum A B) C = dsum A (dsum B C) := by
  apply ext_get
  · simp [dsum, Nat.add_assoc]
  · simp [dsum, Nat.add_assoc]
  · intro i _ j _
    simp only [get_dsum]
    show (if i < A.rows + B.rows then (if j < A.cols + B.cols then _ else 0) else
      (if j < A.cols + B.cols then 0 else C.get (i - (A.rows + B.rows)) (j - (A.cols + B.cols)))) = _
    rw [Nat.sub_sub, Nat.sub_sub]
    split_ifs <;> first | rfl | omega

end SMat

end LieNN
